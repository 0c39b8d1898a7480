import Verif.Props.FillShift
import Mathlib.Tactic.FinCases
import Mathlib.Tactic.IntervalCases

/-!
# The hypotheses of C92–C94 are met by concrete cases
-/

namespace ImgReg

/-- `psf_pad` alone: the sum of the two sizes -/
def Example.padSum : ℕ × ℕ → ℕ × ℕ → ℕ × ℕ := fun s t => (s.1 + t.1, s.2 + t.2)

/-- `psf_pad` and `fft_pad`: the next power of two above the largest sum, along both axes -/
def Example.padPow2 : ℕ × ℕ → ℕ × ℕ → ℕ × ℕ := fun s t =>
  (2 ^ Nat.clog 2 (max (s.1 + t.1) (s.2 + t.2)), 2 ^ Nat.clog 2 (max (s.1 + t.1) (s.2 + t.2)))

example : Spec.padsEnough Example.padSum := fun _ _ => ⟨le_refl _, le_refl _⟩

example : Spec.padsEnough Example.padPow2 := by
  intro s t
  have h := Nat.le_pow_clog (b := 2) (by norm_num) (max (s.1 + t.1) (s.2 + t.2))
  exact ⟨le_trans (le_max_left _ _) h, le_trans (le_max_right _ _) h⟩

/-- a two-pixel object in a 4 × 5 frame -/
def Example.obj : Fin 4 × Fin 5 → ℝ := fun p => if p = (1, 1) then 2 else if p = (2, 1) then 3 else 0

/-- the hypotheses of C94 hold for the object moved one row down and two columns right (0 < 2·1 < 4, 0 < 2·2 < 5) -/
example : Spec.fits false (Example.padSum (4, 5) (4, 5)).1 (Example.padSum (4, 5) (4, 5)).2 ∧
    (∃ p, Example.obj p ≠ 0) ∧
    (∀ p : Fin 4 × Fin 5, Example.obj p ≠ 0 → (0 ≤ ((p.1 : ℕ) : ℤ) + 1 ∧ ((p.1 : ℕ) : ℤ) + 1 < (4 : ℕ)) ∧
      0 ≤ ((p.2 : ℕ) : ℤ) + 2 ∧ ((p.2 : ℕ) : ℤ) + 2 < (5 : ℕ)) := by
  refine ⟨Or.inr (by norm_num [Example.padSum]), ⟨(1, 1), by norm_num [Example.obj]⟩, fun p hp => ?_⟩
  have : p = (1, 1) ∨ p = (2, 1) := by
    by_contra hc
    push Not at hc
    exact hp (by simp [Example.obj, hc.1, hc.2])
  rcases this with rfl | rfl <;> decide

/-- so `chi2_shift` with `boundary='fill'`, `upsample_factor=1` returns `[2, 1]` for it -/
example (cfg : FFTConfig) (st : Stats) (hst : Spec.validStats st) :
    chi2ShiftB cfg (.fill Example.padSum) st (realArr Example.obj)
      (realArr fun q : Fin 4 × Fin 5 => Spec.plane Example.obj (((q.1 : ℕ) : ℤ) - 1) (((q.2 : ℕ) : ℤ) - 2)) .none (.int 1) false 1 false false false 256 3 false
      = .ok [.num ((2 : ℤ) : ℝ), .num ((1 : ℤ) : ℝ)] := by
  refine C94_recovers_move cfg _ (fun _ _ => ⟨le_refl _, le_refl _⟩) st hst false (Or.inr (by norm_num [Example.padSum])) (by norm_num)
    Example.obj _ ⟨(1, 1), by norm_num [Example.obj]⟩ 1 2 (fun p hp => ?_) (fun _ => rfl) (by norm_num) (by norm_num) (by norm_num)
    (by norm_num) .none (Or.inl ⟨1, one_ne_zero, rfl⟩) 1 256 3
  have : p = (1, 1) ∨ p = (2, 1) := by
    by_contra hc
    push Not at hc
    exact hp (by simp [Example.obj, hc.1, hc.2])
  rcases this with rfl | rfl <;> decide

/-- the hypothesis of `C92_agrees_with_wrap` holds for two nonzero images -/
example : ∀ p q : Fin 4 × Fin 5, Spec.nan0 (realArr Example.obj) p ≠ 0 → Spec.nan0 (realArr Example.obj) q ≠ 0 →
      2 * |((q.1 : ℕ) : ℤ) - ((p.1 : ℕ) : ℤ)| < (4 : ℕ) ∧ 2 * |((q.2 : ℕ) : ℤ) - ((p.2 : ℕ) : ℤ)| < (5 : ℕ) := by
  have key : ∀ p : Fin 4 × Fin 5, Spec.nan0 (realArr Example.obj) p ≠ 0 → p = (1, 1) ∨ p = (2, 1) := by
    intro p hp
    by_contra hc
    push Not at hc
    exact hp (by show Example.obj p = 0; simp [Example.obj, hc.1, hc.2])
  intro p q hp hq
  rcases key p hp with rfl | rfl <;> rcases key q hq with rfl | rfl <;> decide

/-- both outcomes of `Spec.fits` occur for padded arrays -/
example : ¬ Spec.fits false (Example.padSum (10000, 10000) (10000, 10000)).1 (Example.padSum (10000, 10000) (10000, 10000)).2 := by
  rintro (h | h)
  · cases h
  · norm_num [Example.padSum] at h

end ImgReg
