import Verif.Lemmas.CrossCorr
import Mathlib.Algebra.Order.BigOperators.Ring.Finset

/-! # The autocorrelation of an image around its peak -/

open Finset

namespace ImgReg

/-- no whole-pixel displacement other than a multiple of the size leaves the image unchanged -/
def Spec.aperiodic {ny nx : ℕ} [NeZero ny] [NeZero nx] (a : Fin ny × Fin nx → ℝ) : Prop :=
  ∀ dy dx : ℤ, (∀ p, a (Spec.move dy dx p) = a p) → (ny : ℤ) ∣ dy ∧ (nx : ℤ) ∣ dx

/-- circular autocorrelation at displacement `(dy, dx)` -/
noncomputable def Spec.autocorr {ny nx : ℕ} [NeZero ny] [NeZero nx] (a : Fin ny × Fin nx → ℝ)
    (dy dx : ℤ) : ℝ := ∑ p, a p * a (Spec.move dy dx p)

section
variable {ny nx : ℕ} [NeZero ny] [NeZero nx]

theorem wrap_wrap_add (n : ℕ) [NeZero n] (z w : ℤ) :
    Spec.wrap n (((Spec.wrap n z : ℕ) : ℤ) + w) = Spec.wrap n (z + w) :=
  Spec.wrap_congr n ((Spec.wrap_modEq n z).add_right w)

theorem move_move (a b c d : ℤ) (p : Fin ny × Fin nx) :
    Spec.move a b (Spec.move c d p) = Spec.move (a + c) (b + d) p := by
  unfold Spec.move
  simp only [wrap_wrap_add]
  rw [add_assoc, add_assoc, add_comm c, add_comm d]

theorem move_zero (p : Fin ny × Fin nx) : Spec.move 0 0 p = p := by
  unfold Spec.move
  rw [add_zero, add_zero, Spec.wrap_val, Spec.wrap_val]

theorem autocorr_neg (a : Fin ny × Fin nx → ℝ) (dy dx : ℤ) :
    Spec.autocorr a (-dy) (-dx) = Spec.autocorr a dy dx := by
  unfold Spec.autocorr
  rw [← Spec.sum_move dy dx]
  refine Finset.sum_congr rfl fun p _ => ?_
  rw [move_move, neg_add_cancel, neg_add_cancel, move_zero, mul_comm]

theorem sq_dist (a : Fin ny × Fin nx → ℝ) (dy dx : ℤ) :
    ∑ p, (a p - a (Spec.move dy dx p)) ^ 2 = 2 * (Spec.autocorr a 0 0 - Spec.autocorr a dy dx) := by
  have h1 : ∑ p, a (Spec.move dy dx p) ^ 2 = ∑ p, a p ^ 2 := Spec.sum_move dy dx (fun p => a p ^ 2)
  have h0 : Spec.autocorr a 0 0 = ∑ p, a p ^ 2 := by
    unfold Spec.autocorr
    exact Finset.sum_congr rfl fun p _ => by rw [move_zero, sq]
  have : ∀ p, (a p - a (Spec.move dy dx p)) ^ 2
      = a p ^ 2 + a (Spec.move dy dx p) ^ 2 + -2 * (a p * a (Spec.move dy dx p)) := fun p => by ring
  simp only [this, Finset.sum_add_distrib, ← Finset.mul_sum, h1, h0]
  unfold Spec.autocorr
  ring

/-- the autocorrelation is largest at zero displacement, strictly so for an aperiodic image -/
theorem autocorr_le (a : Fin ny × Fin nx → ℝ) (dy dx : ℤ) :
    Spec.autocorr a dy dx ≤ Spec.autocorr a 0 0 := by
  have := sq_dist a dy dx
  have h : 0 ≤ ∑ p, (a p - a (Spec.move dy dx p)) ^ 2 := Finset.sum_nonneg fun p _ => sq_nonneg _
  linarith

theorem autocorr_lt (a : Fin ny × Fin nx → ℝ) (ha : Spec.aperiodic a) (dy dx : ℤ)
    (h : ¬ ((ny : ℤ) ∣ dy ∧ (nx : ℤ) ∣ dx)) : Spec.autocorr a dy dx < Spec.autocorr a 0 0 := by
  refine lt_of_le_of_ne (autocorr_le a dy dx) fun he => h (ha dy dx fun p => ?_)
  have h1 := sq_dist a dy dx
  rw [he, sub_self, mul_zero, Finset.sum_eq_zero_iff_of_nonneg (fun p _ => sq_nonneg _)] at h1
  have := h1 p (mem_univ _)
  rw [pow_eq_zero_iff two_ne_zero, sub_eq_zero] at this
  exact this.symm

theorem autocorr_congr (a : Fin ny × Fin nx → ℝ) {dy dx ey ex : ℤ} (h1 : dy ≡ ey [ZMOD ny])
    (h2 : dx ≡ ex [ZMOD nx]) : Spec.autocorr a dy dx = Spec.autocorr a ey ex := by
  unfold Spec.autocorr
  exact Finset.sum_congr rfl fun p _ => by rw [Spec.move_congr h1 h2]

/-- a central difference is strictly shorter than twice the forward difference -/
theorem central_lt (a : Fin ny × Fin nx → ℝ) (ha : Spec.aperiodic a) (dy dx : ℤ)
    (h : ¬ ((ny : ℤ) ∣ dy ∧ (nx : ℤ) ∣ dx)) :
    ∑ p, (a p - a (Spec.move (2 * dy) (2 * dx) p)) ^ 2 < 4 * ∑ p, (a p - a (Spec.move dy dx p)) ^ 2 := by
  -- D p = a p - a (p+d); the central difference is D p + D (p+d)
  have hsum : ∑ p, (a p - a (Spec.move (2 * dy) (2 * dx) p)) ^ 2
      + ∑ p, ((a p - a (Spec.move dy dx p)) - (a (Spec.move dy dx p) - a (Spec.move (2 * dy) (2 * dx) p))) ^ 2
      = 4 * ∑ p, (a p - a (Spec.move dy dx p)) ^ 2 := by
    have h2 : ∑ p, (a (Spec.move dy dx p) - a (Spec.move (2 * dy) (2 * dx) p)) ^ 2
        = ∑ p, (a p - a (Spec.move dy dx p)) ^ 2 := by
      rw [← Spec.sum_move dy dx (fun p => (a p - a (Spec.move dy dx p)) ^ 2)]
      refine Finset.sum_congr rfl fun p _ => ?_
      rw [move_move, two_mul, two_mul]
    rw [← Finset.sum_add_distrib]
    have : ∀ p, (a p - a (Spec.move (2 * dy) (2 * dx) p)) ^ 2
        + ((a p - a (Spec.move dy dx p)) - (a (Spec.move dy dx p) - a (Spec.move (2 * dy) (2 * dx) p))) ^ 2
        = 2 * (a p - a (Spec.move dy dx p)) ^ 2
          + 2 * (a (Spec.move dy dx p) - a (Spec.move (2 * dy) (2 * dx) p)) ^ 2 := fun p => by ring
    simp only [this, Finset.sum_add_distrib, ← Finset.mul_sum, h2]
    ring
  have hpos : 0 < ∑ p, ((a p - a (Spec.move dy dx p))
      - (a (Spec.move dy dx p) - a (Spec.move (2 * dy) (2 * dx) p))) ^ 2 := by
    refine lt_of_le_of_ne (Finset.sum_nonneg fun p _ => sq_nonneg _) fun hz => h (ha dy dx fun p => ?_)
    have hz' := (Finset.sum_eq_zero_iff_of_nonneg (fun p _ => sq_nonneg _)).1 hz.symm
    have hD : ∀ p, a p - a (Spec.move dy dx p)
        = a (Spec.move dy dx p) - a (Spec.move (2 * dy) (2 * dx) p) := by
      intro p
      have := hz' p (mem_univ _)
      rwa [pow_eq_zero_iff two_ne_zero, sub_eq_zero] at this
    -- the difference is the same all along the line
    have hk : ∀ k : ℕ, a (Spec.move (k * dy) (k * dx) p)
        = a p - k * (a p - a (Spec.move dy dx p)) ∧
        a (Spec.move ((k + 1 : ℕ) * dy) ((k + 1 : ℕ) * dx) p)
        = a p - (k + 1 : ℕ) * (a p - a (Spec.move dy dx p)) := by
      intro k
      induction k with
      | zero => simp [move_zero]
      | succ k ih =>
        refine ⟨ih.2, ?_⟩
        have := hD (Spec.move (k * dy) (k * dx) p)
        rw [move_move, move_move, show dy + (k : ℤ) * dy = ((k + 1 : ℕ) : ℤ) * dy by push_cast; ring,
          show dx + (k : ℤ) * dx = ((k + 1 : ℕ) : ℤ) * dx by push_cast; ring,
          show 2 * dy + (k : ℤ) * dy = ((k + 1 + 1 : ℕ) : ℤ) * dy by push_cast; ring,
          show 2 * dx + (k : ℤ) * dx = ((k + 1 + 1 : ℕ) : ℤ) * dx by push_cast; ring, ih.1, ih.2] at this
        push_cast at this ⊢
        linarith
    have hn := (hk (ny * nx)).1
    have e : Spec.move (((ny * nx : ℕ) : ℤ) * dy) (((ny * nx : ℕ) : ℤ) * dx) p = p := by
      rw [← move_zero p, move_move, add_zero, add_zero]
      apply Spec.move_congr
      · exact Int.modEq_iff_dvd.2 ⟨-(nx * dy), by push_cast; ring⟩
      · exact Int.modEq_iff_dvd.2 ⟨-(ny * dx), by push_cast; ring⟩
    rw [e] at hn
    have hne : ((ny * nx : ℕ) : ℝ) ≠ 0 := by
      exact_mod_cast Nat.mul_ne_zero (NeZero.ne ny) (NeZero.ne nx)
    have h0 : ((ny * nx : ℕ) : ℝ) * (a p - a (Spec.move dy dx p)) = 0 := by linarith
    have := (mul_eq_zero.1 h0).resolve_left hne
    linarith
  linarith

/-- the Hessian of the autocorrelation at its peak is nondegenerate for every aperiodic image -/
theorem autocorr_hessian (a : Fin ny × Fin nx → ℝ) (ha : Spec.aperiodic a) (hy : 2 ≤ ny) (hx : 2 ≤ nx) :
    ((Spec.autocorr a 1 1 - Spec.autocorr a 1 (-1)) / 2) ^ 2
      < (2 * (Spec.autocorr a 0 1 - Spec.autocorr a 0 0)) * (2 * (Spec.autocorr a 1 0 - Spec.autocorr a 0 0)) := by
  have ndy : ¬ (ny : ℤ) ∣ 1 := by
    intro h
    have := Int.le_of_dvd (by norm_num) h
    omega
  have ndx : ¬ (nx : ℤ) ∣ 1 := by
    intro h
    have := Int.le_of_dvd (by norm_num) h
    omega
  have hX := central_lt a ha 0 1 (fun h => ndx h.2)
  have hY := central_lt a ha 1 0 (fun h => ndy h.1)
  simp only [mul_zero, mul_one] at hX hY
  rw [sq_dist, sq_dist] at hX hY
  -- central differences written symmetrically
  have c1 : ∑ p, (a (Spec.move 0 (-1) p) - a (Spec.move 0 1 p)) ^ 2
      = 2 * (Spec.autocorr a 0 0 - Spec.autocorr a 0 2) := by
    rw [← sq_dist, ← Spec.sum_move 0 (-1) (fun p => (a p - a (Spec.move 0 2 p)) ^ 2)]
    refine Finset.sum_congr rfl fun p _ => ?_
    rw [move_move]; norm_num
  have c2 : ∑ p, (a (Spec.move (-1) 0 p) - a (Spec.move 1 0 p)) ^ 2
      = 2 * (Spec.autocorr a 0 0 - Spec.autocorr a 2 0) := by
    rw [← sq_dist, ← Spec.sum_move (-1) 0 (fun p => (a p - a (Spec.move 2 0 p)) ^ 2)]
    refine Finset.sum_congr rfl fun p _ => ?_
    rw [move_move]; norm_num
  have hcross : ∀ y1 x1 y2 x2 : ℤ, ∑ p, a (Spec.move y1 x1 p) * a (Spec.move y2 x2 p)
      = Spec.autocorr a (y2 - y1) (x2 - x1) := by
    intro y1 x1 y2 x2
    unfold Spec.autocorr
    rw [← Spec.sum_move y1 x1 (fun p => a p * a (Spec.move (y2 - y1) (x2 - x1) p))]
    refine Finset.sum_congr rfl fun p _ => ?_
    rw [move_move, sub_add_cancel, sub_add_cancel]
  have c3 : ∑ p, (a (Spec.move 0 (-1) p) - a (Spec.move 0 1 p))
        * (a (Spec.move (-1) 0 p) - a (Spec.move 1 0 p))
      = 2 * (Spec.autocorr a 1 (-1) - Spec.autocorr a 1 1) := by
    have : ∀ p, (a (Spec.move 0 (-1) p) - a (Spec.move 0 1 p)) * (a (Spec.move (-1) 0 p) - a (Spec.move 1 0 p))
        = a (Spec.move 0 (-1) p) * a (Spec.move (-1) 0 p) - a (Spec.move 0 (-1) p) * a (Spec.move 1 0 p)
          - a (Spec.move 0 1 p) * a (Spec.move (-1) 0 p) + a (Spec.move 0 1 p) * a (Spec.move 1 0 p) :=
      fun p => by ring
    simp only [this, Finset.sum_add_distrib, Finset.sum_sub_distrib, hcross]
    have n1 := autocorr_neg a 1 1
    have n2 := autocorr_neg a 1 (-1)
    norm_num at n1 n2 ⊢
    rw [n1, n2]; ring
  have cs := Finset.sum_mul_sq_le_sq_mul_sq Finset.univ
    (fun p => a (Spec.move 0 (-1) p) - a (Spec.move 0 1 p))
    (fun p => a (Spec.move (-1) 0 p) - a (Spec.move 1 0 p))
  rw [c1, c2, c3] at cs
  have p1 := autocorr_le a 0 2
  have p2 := autocorr_le a 2 0
  have p3 := autocorr_le a 1 0
  have : (2 * (Spec.autocorr a 0 0 - Spec.autocorr a 0 2)) * (2 * (Spec.autocorr a 0 0 - Spec.autocorr a 2 0))
      < (4 * (2 * (Spec.autocorr a 0 0 - Spec.autocorr a 0 1)))
        * (4 * (2 * (Spec.autocorr a 0 0 - Spec.autocorr a 1 0))) :=
    mul_lt_mul'' hX hY (by linarith) (by linarith)
  nlinarith

/-- the correlation map of an image with its rolled copy is its autocorrelation -/
theorem xcorr_roll (a : Fin ny × Fin nx → ℝ) (dy dx : ℤ) (i : Fin ny × Fin nx) :
    Spec.xcorr a (Spec.roll2 dy dx a) i
      = Spec.autocorr a ((Spec.zeroLag ny : ℤ) - ((i.1 : ℕ) : ℤ) - dy)
          ((Spec.zeroLag nx : ℤ) - ((i.2 : ℕ) : ℤ) - dx) := by
  unfold Spec.xcorr Spec.autocorr
  refine Finset.sum_congr rfl fun p _ => ?_
  congr 1
  have := Spec.roll2_move dy dx a
    (Spec.move ((Spec.zeroLag ny : ℤ) - ((i.1 : ℕ) : ℤ) - dy) ((Spec.zeroLag nx : ℤ) - ((i.2 : ℕ) : ℤ) - dx) p)
  rw [← this, move_move]
  congr 2 <;> ring

end

end ImgReg
