import Verif.Cases.Basic
import Verif.Props.Kernel
import Verif.Props.KernelMore

/-! # Concrete cases of the theorems of `Props/Kernel` -/

namespace ImgReg.Cases
open ImgReg

/-- the shape (4, 5) -/
def shp : Fin 2 → ℕ := ![4, 5]

theorem shp_pos (d : Fin 2) : 0 < shp d := by fin_cases d <;> decide

/-- `C58_gaussian` -/
example := C58_gaussian true shp shp_pos (.float 1.5) (by norm_num [KWidth.val]) none .true (.inl rfl) true

/-- `C58_gaussian_width_zero` -/
example := C58_gaussian_width_zero true shp shp_pos (.int 0) (by norm_num [KWidth.val]) none .true (.inl rfl)

/-- `C58_gaussian_width_zero_custom` -/
example := C58_gaussian_width_zero_custom true shp shp_pos (.int 0) (by norm_num [KWidth.val]) none (fun _ => some 3) true 3 three_ne_zero
  (fun _ => rfl)

/-- `C58_gaussian_peak` -/
example := C58_gaussian_peak true shp shp_pos (.float 1.5) (by norm_num [KWidth.val]) none .true (.inl rfl) true

/-- `C58_gaussian_symmetric` -/
example := C58_gaussian_symmetric true shp shp_pos (.float 1.5) (by norm_num [KWidth.val]) none .true (.inl rfl) true

/-- `C58_normalised`: a kernel that is computed -/
example : ∃ k, makeKernel true shp (.float 1.5) .gaussian none .true true = .ok k ∧
    ((∃ v, Spec.HasValues k (Spec.oddShape true shp) v ∧ (∀ p, 0 ≤ v p) ∧ ∑ p ∈ Spec.pixels (Spec.oddShape true shp), v p = 1)
      ∨ ∀ p ∈ Spec.pixels (Spec.oddShape true shp), k.val p = none) := by
  obtain ⟨k, hk, -⟩ := C58_gaussian true shp shp_pos (.float 1.5) (by norm_num [KWidth.val]) none .true (.inl rfl) true
  exact ⟨k, hk, C58_normalised true shp shp_pos _ _ _ _ (.inl rfl) _ k hk⟩

/-- `C59_errors` -/
example := C59_errors true shp shp_pos (.float 1.5) none .true true

/-- `C59_shape` -/
example : ∃ k, makeKernel true shp (.float 1.5) .gaussian none .true true = .ok k ∧ Odd (k.shape 0) := by
  obtain ⟨k, hk, -⟩ := C58_gaussian true shp shp_pos (.float 1.5) (by norm_num [KWidth.val]) none .true (.inl rfl) true
  exact ⟨k, hk, ((C59_shape true shp _ _ _ _ true k hk 0).2 rfl).2.2⟩

/-- `C57_airy` -/
example := C57_airy false shp shp_pos (.float 1.5) .airy (.inl rfl) none .true true

/-- `C57_smooth` -/
example := C57_smooth true ⟨4, 5, fun i j => if i = j then none else some 1⟩ (by norm_num) (by norm_num) (.float 1.5) .gaussian none true .max 6 .true

end ImgReg.Cases
