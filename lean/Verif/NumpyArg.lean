import Verif.Py
import Mathlib.Order.WellFounded
import Mathlib.Data.Fintype.Prod
import Mathlib.Data.Finset.Max
import Mathlib.Tactic.Linarith

/-!
# `argmin` / `argmax` / `min` / `max` of 2-D arrays
(trusted transcriptions of numpy's documented behaviour: the first occurrence in C order)
-/

namespace ImgReg.Np

/-- position of a pixel in C (row-major) order -/
def flat {m n : ℕ} (i : Fin m × Fin n) : ℕ := i.1 * n + i.2

theorem flat_injective {m n : ℕ} : Function.Injective (flat : Fin m × Fin n → ℕ) := by
  rintro ⟨⟨a, ha⟩, ⟨b, hb⟩⟩ ⟨⟨c, hc⟩, ⟨d, hd⟩⟩ h
  simp only [flat] at h
  have hn : 0 < n := by omega
  have h1 : a = c := by
    have e1 : (a * n + b) / n = a := by
      rw [mul_comm, Nat.mul_add_div hn, Nat.div_eq_of_lt hb, add_zero]
    have e2 : (c * n + d) / n = c := by
      rw [mul_comm, Nat.mul_add_div hn, Nat.div_eq_of_lt hd, add_zero]
    rw [← e1, h, e2]
  subst h1
  have : b = d := by omega
  subst this; rfl

/-- `i` is the first position (C order) at which `f` is minimal -/
def IsFirstMin {m n : ℕ} (f : Fin m × Fin n → ℝ) (i : Fin m × Fin n) : Prop :=
  (∀ j, f i ≤ f j) ∧ ∀ j, (∀ k, f j ≤ f k) → flat i ≤ flat j

/-- `i` is the first position (C order) at which `f` is maximal -/
def IsFirstMax {m n : ℕ} (f : Fin m × Fin n → ℝ) (i : Fin m × Fin n) : Prop :=
  (∀ j, f j ≤ f i) ∧ ∀ j, (∀ k, f k ≤ f j) → flat i ≤ flat j

theorem exists_firstMin {m n : ℕ} [NeZero m] [NeZero n] (f : Fin m × Fin n → ℝ) :
    ∃ i, IsFirstMin f i := by
  classical
  obtain ⟨i0, -, h0⟩ := Finset.exists_min_image (Finset.univ : Finset (Fin m × Fin n)) f
    ⟨(0, 0), Finset.mem_univ _⟩
  obtain ⟨i, hi, hmin⟩ := Finset.exists_min_image
    (Finset.univ.filter fun i => ∀ j, f i ≤ f j) flat
    ⟨i0, by simpa using fun a b => h0 (a, b) (Finset.mem_univ _)⟩
  refine ⟨i, by simpa using hi, fun j hj => hmin j (by simpa using hj)⟩

theorem exists_firstMax {m n : ℕ} [NeZero m] [NeZero n] (f : Fin m × Fin n → ℝ) :
    ∃ i, IsFirstMax f i := by
  obtain ⟨i, h1, h2⟩ := exists_firstMin (fun j => -f j)
  refine ⟨i, fun j => by have := h1 j; linarith, fun j hj => h2 j fun k => ?_⟩
  have := hj k; linarith

theorem IsFirstMin.unique {m n : ℕ} {f : Fin m × Fin n → ℝ} {i j : Fin m × Fin n}
    (hi : IsFirstMin f i) (hj : IsFirstMin f j) : i = j :=
  flat_injective (le_antisymm (hi.2 j hj.1) (hj.2 i hi.1))

theorem IsFirstMax.unique {m n : ℕ} {f : Fin m × Fin n → ℝ} {i j : Fin m × Fin n}
    (hi : IsFirstMax f i) (hj : IsFirstMax f j) : i = j :=
  flat_injective (le_antisymm (hi.2 j hj.1) (hj.2 i hi.1))

/-- `np.unravel_index(f.argmin(), f.shape)` for an array without NaN -/
noncomputable def argmin {m n : ℕ} [NeZero m] [NeZero n] (f : Fin m × Fin n → ℝ) : Fin m × Fin n :=
  Classical.choose (exists_firstMin f)

/-- `np.unravel_index(f.argmax(), f.shape)` for an array without NaN -/
noncomputable def argmax {m n : ℕ} [NeZero m] [NeZero n] (f : Fin m × Fin n → ℝ) : Fin m × Fin n :=
  Classical.choose (exists_firstMax f)

theorem argmin_spec {m n : ℕ} [NeZero m] [NeZero n] (f : Fin m × Fin n → ℝ) :
    IsFirstMin f (argmin f) := Classical.choose_spec (exists_firstMin f)

theorem argmax_spec {m n : ℕ} [NeZero m] [NeZero n] (f : Fin m × Fin n → ℝ) :
    IsFirstMax f (argmax f) := Classical.choose_spec (exists_firstMax f)

theorem argmin_eq {m n : ℕ} [NeZero m] [NeZero n] {f : Fin m × Fin n → ℝ} {i : Fin m × Fin n}
    (h : IsFirstMin f i) : argmin f = i := (argmin_spec f).unique h

theorem argmax_eq {m n : ℕ} [NeZero m] [NeZero n] {f : Fin m × Fin n → ℝ} {i : Fin m × Fin n}
    (h : IsFirstMax f i) : argmax f = i := (argmax_spec f).unique h

/-- a unique minimiser is the argmin -/
theorem argmin_eq_of_unique {m n : ℕ} [NeZero m] [NeZero n] {f : Fin m × Fin n → ℝ}
    {i : Fin m × Fin n} (h : ∀ j, j ≠ i → f i < f j) : argmin f = i := by
  apply argmin_eq
  have hle : ∀ j, f i ≤ f j := fun j => by
    by_cases hj : j = i
    · rw [hj]
    · exact (h j hj).le
  refine ⟨hle, fun j hj => ?_⟩
  by_cases hji : j = i
  · rw [hji]
  · exact absurd (hj i) (not_le.2 (h j hji))

theorem argmax_eq_of_unique {m n : ℕ} [NeZero m] [NeZero n] {f : Fin m × Fin n → ℝ}
    {i : Fin m × Fin n} (h : ∀ j, j ≠ i → f j < f i) : argmax f = i := by
  apply argmax_eq
  have hle : ∀ j, f j ≤ f i := fun j => by
    by_cases hj : j = i
    · rw [hj]
    · exact (h j hj).le
  refine ⟨hle, fun j hj => ?_⟩
  by_cases hji : j = i
  · rw [hji]
  · exact absurd (hj i) (not_le.2 (h j hji))

/-- the argmin only depends on the order of the values -/
theorem argmin_comp {m n : ℕ} [NeZero m] [NeZero n] {f g : Fin m × Fin n → ℝ}
    (h : ∀ i j, f i ≤ f j ↔ g i ≤ g j) : argmin f = argmin g := by
  apply argmin_eq
  have hg := argmin_spec g
  exact ⟨fun j => (h _ _).2 (hg.1 j), fun j hj => hg.2 j fun k => (h _ _).1 (hj k)⟩

theorem argmax_comp {m n : ℕ} [NeZero m] [NeZero n] {f g : Fin m × Fin n → ℝ}
    (h : ∀ i j, f i ≤ f j ↔ g i ≤ g j) : argmax f = argmax g := by
  apply argmax_eq
  have hg := argmax_spec g
  exact ⟨fun j => (h _ _).2 (hg.1 j), fun j hj => hg.2 j fun k => (h _ _).1 (hj k)⟩

/-- `a[mask].min()` of values `v` over a nonempty selection -/
noncomputable def minOver {ι : Type} (s : Finset ι) (h : s.Nonempty) (v : ι → ℝ) : ℝ := s.inf' h v

/-- `a[mask].max()` of values `v` over a nonempty selection -/
noncomputable def maxOver {ι : Type} (s : Finset ι) (h : s.Nonempty) (v : ι → ℝ) : ℝ := s.sup' h v

end ImgReg.Np
