import Verif.Fourier

/-!
# Small specifications used by the property theorems

Nothing here refers to the model of the repository.
-/

open scoped ComplexConjugate
open Complex

namespace ImgReg.Spec

/-- the array index congruent to the integer `z` (periodic boundary) -/
def wrap (n : ℕ) [NeZero n] (z : ℤ) : Fin n :=
  ⟨(z % (n : ℤ)).toNat, by
    have hn : (0 : ℤ) < n := by exact_mod_cast Nat.pos_of_ne_zero (NeZero.ne n)
    have h1 := Int.emod_nonneg z hn.ne'
    have h2 := Int.emod_lt_of_pos z hn
    omega⟩

/-- periodic shift of an N-D array by whole pixels: `out[i] = x[i - z mod shape]` -/
def rollND {α : Type} {D : ℕ} {s : Fin D → ℕ} [∀ d, NeZero (s d)] (z : Fin D → ℤ)
    (x : (∀ d, Fin (s d)) → α) : (∀ d, Fin (s d)) → α :=
  fun i => x (fun d => wrap (s d) ((((i d : ℕ) : ℤ)) - z d))

/-- periodic shift of an image by `dx` columns and `dy` rows -/
def roll2 {α : Type} {ny nx : ℕ} [NeZero ny] [NeZero nx] (dy dx : ℤ)
    (x : Fin ny × Fin nx → α) : Fin ny × Fin nx → α :=
  fun i => x (wrap ny (((i.1 : ℕ) : ℤ) - dy), wrap nx (((i.2 : ℕ) : ℤ) - dx))

/-- the pixel of a correlation or chi-squared map of size `n` that stands for "no displacement":
`(n-1)//2` -/
def zeroLag (n : ℕ) : ℕ := (n - 1) / 2

/-- the pixel `p + d` (periodic boundary) -/
def move {ny nx : ℕ} [NeZero ny] [NeZero nx] (dy dx : ℤ) (p : Fin ny × Fin nx) : Fin ny × Fin nx :=
  (wrap ny (((p.1 : ℕ) : ℤ) + dy), wrap nx (((p.2 : ℕ) : ℤ) + dx))

/-- weighted sum of squared differences between `a` and `b` displaced by `(dy, dx)`: pixel `p` of `a`
is compared with pixel `p + d` of `b`, which has error `σ` there -/
noncomputable def chi2 {ny nx : ℕ} [NeZero ny] [NeZero nx] (a b σ : Fin ny × Fin nx → ℝ)
    (dy dx : ℤ) : ℝ := ∑ p, (a p - b (move dy dx p)) ^ 2 / σ (move dy dx p) ^ 2

/-- the pixel values with NaN replaced by 0 -/
noncomputable def nan0 {ι : Type} (x : ι → Option ℝ) : ι → ℝ := fun i => (x i).getD 0

theorem wrap_modEq (n : ℕ) [NeZero n] (z : ℤ) : (((wrap n z : Fin n) : ℕ) : ℤ) ≡ z [ZMOD n] := by
  have hn : (0 : ℤ) < n := by exact_mod_cast Nat.pos_of_ne_zero (NeZero.ne n)
  have h1 := Int.emod_nonneg z hn.ne'
  have : (((wrap n z : Fin n) : ℕ) : ℤ) = z % n := by
    simp [wrap, h1]
  rw [this]; exact Int.mod_modEq z n

theorem wrap_eq_iff (n : ℕ) [NeZero n] (z : ℤ) (j : Fin n) :
    wrap n z = j ↔ z ≡ ((j : ℕ) : ℤ) [ZMOD n] := by
  constructor
  · rintro rfl; exact (wrap_modEq n z).symm
  · intro h; exact Fin.eq_of_modEq ((wrap_modEq n z).trans h)

theorem wrap_sub (n : ℕ) [NeZero n] (i : Fin n) (z : ℤ) :
    wrap n (((i : ℕ) : ℤ) - z) = i - wrap n z := by
  rw [wrap_eq_iff]
  exact ((Fin.val_sub_modEq i _).trans ((Int.ModEq.refl _).sub (wrap_modEq n z))).symm

theorem wrap_add (n : ℕ) [NeZero n] (i : Fin n) (z : ℤ) :
    wrap n (((i : ℕ) : ℤ) + z) = i + wrap n z := by
  rw [wrap_eq_iff]
  exact ((Fin.val_add_modEq i _).trans ((Int.ModEq.refl _).add (wrap_modEq n z))).symm

theorem wrap_val (n : ℕ) [NeZero n] (i : Fin n) : wrap n ((i : ℕ) : ℤ) = i :=
  (wrap_eq_iff n _ i).2 rfl

theorem wrap_congr (n : ℕ) [NeZero n] {a b : ℤ} (h : a ≡ b [ZMOD n]) : wrap n a = wrap n b :=
  (wrap_eq_iff n _ _).2 (h.trans (wrap_modEq n b).symm)

end ImgReg.Spec
