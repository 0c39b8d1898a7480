import Verif.Cases.Basic
import Verif.Props.Shift
import Verif.Props.Scale
import Verif.Props.ScaleMore
import Verif.Props.Zoom
import Verif.Props.ZoomMore
import Verif.Props.Upsample
import Mathlib.Tactic.FinCases
import Mathlib.Tactic.Linarith

/-! # Concrete cases of the theorems about shifting, interpolation, zooming and upsampling -/

namespace ImgReg.Cases
open ImgReg

variable (cfg cfg' : FFTConfig)

/-- a 3×5×3 cube -/
def cubeShape : Fin 3 → ℕ := ![3, 5, 3]

instance : ∀ d, NeZero (cubeShape d) := fun d => ⟨by fin_cases d <;> decide⟩

theorem cube_odd (d : Fin 3) : Odd (cubeShape d) := by
  fin_cases d
  · exact ⟨1, rfl⟩
  · exact ⟨2, rfl⟩
  · exact ⟨1, rfl⟩

/-- some cube -/
def cube : (∀ d, Fin (cubeShape d)) → ℝ := fun i => ((i 0 : ℕ) : ℝ) + 2 * (i 1 : ℕ) - (i 2 : ℕ)

/-- `C01_nan_spreads` -/
example := fun k => C01_nan_spreads (s := cubeShape) cfg (fun i => if i 0 = 0 then none else some 1) (fun _ => 0) rfl k

/-- `C03_compose_real_odd` -/
example := C03_compose_real_odd cfg cfg' cube cube_odd ![1.5, -0.25, 7] ![0.5, 2, 3] false

/-- `C03_undo_real_odd` -/
example := C03_undo_real_odd cfg cfg' cube cube_odd ![1.5, -0.25, 7] false

/-- `C04_energy_real_odd` -/
example := C04_energy_real_odd cfg cube [1.5, -0.25, 7] false cube_odd

/-- `C08_odd_real` -/
example := C08_odd_real cfg cube [1.5, -0.25, 7] cube_odd

/-- `C73_bandlimited_exact`: one cycle along the first axis, two along the second -/
example := C73_bandlimited_exact (s := cubeShape) cfg ![1, -2, 0] (by intro d; fin_cases d <;> decide) ![1.5, -0.25, 7]

/-- `C73_trig_polynomial` -/
example := C73_trig_polynomial (s := cubeShape) cfg {![1, -2, 0], ![0, 1, 1]} (fun _ => 2)
  (by intro m hm d; simp only [Finset.mem_insert, Finset.mem_singleton] at hm; rcases hm with rfl | rfl <;> fin_cases d <;> decide)
  ![1.5, -0.25, 7]

/-- `C10_bandlimited` -/
example := C10_bandlimited (n := 7) (M := 2) (m := 3) cfg ![1, 2] ![3, -1] (by intro a; fin_cases a <;> decide) ![0.5, -3, 9]

/-- `C10_bandlimited_real` -/
example := C10_bandlimited_real (n := 7) (M := 2) (m := 3) cfg ![1, 2] ![0, 5] ![3, -1] (by intro a; fin_cases a <;> decide) ![0.5, -3, 9]

/-- `C74_data_x_uniform` -/
example := C74_data_x_uniform (n := 7) (m := 2) cfg (fun j => (j : ℕ)) 10 2 (by norm_num) ![10.5, 21]
  (by intro i; fin_cases i <;> norm_num) (by intro i; fin_cases i <;> norm_num) true

/-- `C74_data_x_clamped` -/
example := C74_data_x_clamped (n := 3) (m := 2) cfg (fun j => (j : ℕ)) (fun j => ((j : ℕ) : ℝ)) (fun i j h => by
    have h' : (i : ℕ) < j := h
    beta_reduce
    exact_mod_cast h') ![-1, 9] ![false, true]
  (by intro i; fin_cases i <;> simp) (by intro i; fin_cases i <;> simp; intro j; have := j.isLt; have : ((j : ℕ) : ℝ) < 3 := by exact_mod_cast this
                                         linarith)

/-- `C74_data_x_between` -/
example := C74_data_x_between (n := 3) (m := 1) cfg (fun j => (j : ℕ)) (fun j => ((j : ℕ) : ℝ) ^ 2) (fun i j h => by
    have : ((i : ℕ) : ℝ) < (j : ℕ) := by exact_mod_cast (show (i : ℕ) < j from h)
    have h0 : (0 : ℝ) ≤ (i : ℕ) := by positivity
    show ((i : ℕ) : ℝ) ^ 2 < ((j : ℕ) : ℝ) ^ 2
    nlinarith) ![2] ![1] ![2] (by intro i; fin_cases i; rfl) (by intro i; fin_cases i; norm_num) (by intro i; fin_cases i; norm_num) true

/-- `C11_rows_eq_vectors` -/
example := C11_rows_eq_vectors (ny := 4) (nx := 5) (m := 2) cfg (fun p => (p.1 : ℕ)) ⟨[2, 2], fun l => if l.head? = some 0 then 0.5 else 1.5⟩
  rfl (fun _ => 0.5) (fun _ => 1.5) (fun _ => rfl) (fun _ => rfl) true

/-- `C13_nan_1d` -/
example := C13_nan_1d (n := 3) (m := 2) cfg (fun i => if i = 0 then none else some 1) 0 rfl ![0.5, 7]

/-- `C13_nan_2d` -/
example := C13_nan_2d (m := 2) (l := 1) cfg (toC picNan) (3, 4) rfl ![0.5, 7] ![1]

/-- `C13_empty_cube` -/
example := C13_empty_cube cfg (toC picNan) ⟨[2, 0, 3], fun _ => 0⟩ 0 3 rfl (.inl rfl) true

/-- `C14_zoom1d` -/
example := C14_zoom1d (n := 5) cfg (fun j => (j : ℕ)) 2.5 (by norm_num) (some 8) 8 rfl 0.25 true

/-- `C14_zoom_on_pixel_1d` -/
example := C14_zoom_on_pixel_1d (n := 5) cfg (fun j => (j : ℕ)) 1.5 2.5 (by norm_num) (some 8) 8 rfl (by norm_num) true

/-- `C14_zoom_on_pixel_2d` -/
example := C14_zoom_on_pixel_2d (ny := 4) (nx := 5) cfg (fun p => (p.1 : ℕ)) 1.5 2 2.5 (by norm_num) none 4 5 rfl (by norm_num) (by norm_num) true

/-- `C16_grid_range` -/
example := C16_grid_range (n := 5) cfg (fun j => (j : ℕ)) 3 (by norm_num) true

/-- `C16_even_never_on_pixel` -/
example := C16_even_never_on_pixel (n := 5) cfg (fun j => (j : ℕ)) 4 (by norm_num) ⟨2, rfl⟩ true

/-- `C17_zoomnd_offsets` -/
example := C17_zoomnd_offsets (ny := 4) (nx := 5) cfg (fun p => (p.1 : ℕ)) [1, 2] id 2.5 (by norm_num) none (by simp) true true

/-- `C17_three_dims` -/
example := C17_three_dims (rArr cube) [1, 2, 3] id 2 two_ne_zero

/-- `C17_single_pixel` -/
example := C17_single_pixel (n := 5) cfg (fun _ => some 1) [1] 2 two_ne_zero (some 1) rfl true true

/-- `C17_short_coordinates` -/
example := C17_short_coordinates (ny := 4) (nx := 5) cfg (fun p => (p.1 : ℕ)) 1.5 2.5 (by norm_num) none 4 5 rfl (by norm_num) (by norm_num) true

/-- `C17_zoomnd_offsets_1d` -/
example := C17_zoomnd_offsets_1d (n := 5) cfg (fun j => (j : ℕ)) [1] id 2 two_ne_zero (some 7) (by simp) true true

/-- `C17_empty_output` -/
example := C17_empty_output cfg (toC picNan) [1, 2] 2 two_ne_zero 0 3 (.inl rfl) true true

/-- `C18_dftups_is_interpolation` -/
example := C18_dftups_is_interpolation (ny := 4) (nx := 5) cfg (fun p => (p.1 : ℕ)) (some 7) none 2.5 1 (-3) (by norm_num)

/-- `C18_dftups_formula` -/
example := C18_dftups_formula (nr := 4) (nc := 5) (fun p => (p.1 : ℕ)) (some 7) none 2.5 1 (-3) (by norm_num)

/-- `C18_dftups_nan` -/
example := C18_dftups_nan (toC picNan) (3, 4) rfl (some 7) none 2.5 1 (-3) (by norm_num)

/-- `C19_nan` -/
example := C19_nan cfg (toC picNan) (3, 4) rfl 3 (by norm_num) (.scalar 6) 1 (-3)

/-- `C19_is_interpolation` -/
example := C19_is_interpolation (ny := 4) (nx := 5) cfg (fun p => (p.1 : ℕ)) 3 (by norm_num) (.pair 6 7) 1 (-3)

end ImgReg.Cases
