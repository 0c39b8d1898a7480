import Verif.Props.Alias
import Mathlib.Analysis.SpecialFunctions.Gaussian.PoissonSummation

/-!
# Sampled Gaussian stars: Poisson summation, aliasing, wrap-around and truncation (for C140)
-/

open Complex Finset

namespace ImgReg

/-- A Gaussian star of unit height, width `σ` and centre `c`. -/
noncomputable def Spec.star (σ c t : ℝ) : ℝ := Real.exp (-(t - c) ^ 2 / (2 * σ ^ 2))

/-- Wrap-around: at most this much light of the star reaches a point at distance `u` of its centre from the neighbouring
copies of the star, in a frame of period `n`. -/
noncomputable def Spec.spill (n : ℕ) (σ u : ℝ) : ℝ :=
  Spec.star σ 0 (n - |u|) + 2 * Real.exp (-(n : ℝ) ^ 2 / (2 * σ ^ 2)) / (1 - Real.exp (-(n : ℝ) ^ 2 / (2 * σ ^ 2)))

/-- Aliasing: a bound on the amplitude of the star at and above the Nyquist frequency of a frame of `n` pixels (counted twice). -/
noncomputable def Spec.aliased (n : ℕ) (σ : ℝ) : ℝ :=
  4 * (σ * Real.sqrt (2 * Real.pi) / n) * Real.exp (-2 * Real.pi ^ 2 * σ ^ 2 * (((n + 1) / 2 : ℕ) : ℝ) ^ 2 / n ^ 2)
    / (1 - Real.exp (-2 * Real.pi ^ 2 * σ ^ 2 * (((n + 1) / 2 : ℕ) : ℝ) / n ^ 2))

/-- The error budget of Fourier interpolation for a star of width `σ` centred at `c` in a frame of `n` pixels, at coordinate `t`:
aliasing, light wrapped around to `t`, and light that the frame cuts off. -/
noncomputable def Spec.starError (n : ℕ) (σ c t : ℝ) : ℝ :=
  Spec.aliased n σ + Spec.spill n σ (t - c) + ∑ j : Fin n, Spec.spill n σ (((j : ℕ) : ℝ) - c)

theorem gauss_pos (σ c t : ℝ) : 0 < Spec.star σ c t := Real.exp_pos _

theorem gauss_le_one (σ c t : ℝ) : Spec.star σ c t ≤ 1 := by
  unfold Spec.star
  rw [Real.exp_le_one_iff, neg_div]
  have := sq_nonneg (t - c)
  have := sq_nonneg σ
  have : 0 ≤ (t - c) ^ 2 / (2 * σ ^ 2) := by positivity
  linarith

/-- geometric series over the integers, from `K` on in both directions -/
theorem hasSum_int_geom {r : ℝ} (h0 : 0 ≤ r) (h1 : r < 1) (K : ℕ) (hK : 0 < K) :
    HasSum (fun m : ℤ => if m.natAbs < K then 0 else r ^ m.natAbs) (2 * r ^ K / (1 - r)) := by
  have hg : HasSum (fun j : ℕ => r ^ (j + K)) (r ^ K / (1 - r)) := by
    have := (hasSum_geometric_of_lt_one h0 h1).mul_right (r ^ K)
    rw [div_eq_mul_inv, mul_comm]
    exact this.congr_fun fun j => by rw [pow_add]
  have ha : ∀ L : ℕ, HasSum (fun j : ℕ => if j < L then 0 else r ^ (j - L + K)) (r ^ K / (1 - r)) := by
    intro L
    rw [← hasSum_nat_add_iff' L]
    have hz : ∑ i ∈ range L, (if i < L then 0 else r ^ (i - L + K)) = 0 :=
      Finset.sum_eq_zero fun i hi => if_pos (Finset.mem_range.1 hi)
    rw [hz, sub_zero]
    refine hg.congr_fun fun j => ?_
    rw [if_neg (by omega)]
    congr 2; omega
  have h1 := ha K
  have h2 := ha (K - 1)
  have := HasSum.of_nat_of_neg_add_one (f := fun m : ℤ => if m.natAbs < K then 0 else r ^ m.natAbs)
    (h1.congr_fun fun j => ?_) (h2.congr_fun fun j => ?_)
  · convert this using 1; ring
  · simp only [Int.natAbs_natCast]
    split_ifs with h
    · rfl
    · congr 1; omega
  · have : (-((j : ℤ) + 1)).natAbs = j + 1 := by omega
    simp only [this]
    by_cases h : j + 1 < K
    · rw [if_pos h, if_pos (by omega)]
    · rw [if_neg h, if_neg (by omega)]
      congr 1; omega

theorem exp_neg_lt_one {x : ℝ} (h : x < 0) : Real.exp x < 1 := by rw [Real.exp_lt_one_iff]; exact h

theorem summable_exp_sq {a : ℝ} (ha : a < 0) : Summable fun m : ℤ => Real.exp (a * (m : ℝ) ^ 2) := by
  refine Summable.of_nonneg_of_le (fun m => (Real.exp_pos _).le) (fun m => ?_)
    ((hasSum_int_geom (Real.exp_pos a).le (exp_neg_lt_one ha) 1 one_pos).summable.add
      (hasSum_ite_eq (0 : ℤ) (1 : ℝ)).summable)
  by_cases hm : m = 0
  · subst hm; simp
  · have : ¬ m.natAbs < 1 := by omega
    rw [if_neg this, if_neg hm, add_zero, ← Real.exp_nat_mul]
    refine Real.exp_le_exp.2 ?_
    have h1 : ((m.natAbs : ℕ) : ℝ) ^ 2 = (m : ℝ) ^ 2 := by
      rw [← Int.cast_natCast (R := ℝ), Int.natCast_natAbs, Int.cast_abs, sq_abs]
    rw [← h1]
    have h2 : (1 : ℝ) ≤ (m.natAbs : ℝ) := by exact_mod_cast Nat.one_le_iff_ne_zero.2 (by omega)
    have h3 : (m.natAbs : ℝ) ≤ (m.natAbs : ℝ) ^ 2 := by nlinarith
    nlinarith

section
variable {n : ℕ} [NeZero n] {σ : ℝ}

theorem summable_gauss (hσ : 0 < σ) (c t : ℝ) : Summable fun k : ℤ => Spec.star σ c (t - n * k) := by
  have hn : (0 : ℝ) < n := Nat.cast_pos.2 (NeZero.pos n)
  have ha : -(n : ℝ) ^ 2 / (4 * σ ^ 2) < 0 := div_neg_of_neg_of_pos (by have := pow_pos hn 2; linarith) (by positivity)
  refine Summable.of_nonneg_of_le (fun k => (gauss_pos _ _ _).le) (fun k => ?_)
    ((summable_exp_sq ha).mul_left (Real.exp ((t - c) ^ 2 / (2 * σ ^ 2))))
  unfold Spec.star
  rw [← Real.exp_add]
  refine Real.exp_le_exp.2 ?_
  have h : -(n : ℝ) ^ 2 / (4 * σ ^ 2) * (k : ℝ) ^ 2 = (-(n * k : ℝ) ^ 2 / 2) / (2 * σ ^ 2) := by field_simp; ring
  rw [h, ← add_div]
  refine div_le_div_of_nonneg_right ?_ (by positivity)
  nlinarith [sq_nonneg (n * (k : ℝ) - 2 * (t - c))]

/-- the Fourier coefficients of the periodic sum of stars -/
noncomputable def gcoef (n : ℕ) (σ c : ℝ) (m : ℤ) : ℂ :=
  ((σ * Real.sqrt (2 * Real.pi) / n * Real.exp (-2 * Real.pi ^ 2 * σ ^ 2 / n ^ 2 * (m : ℝ) ^ 2) : ℝ) : ℂ) * ex (-(m * c / n))

omit [NeZero n] in
theorem norm_gcoef (hσ : 0 < σ) (c : ℝ) (m : ℤ) :
    ‖gcoef n σ c m‖ = σ * Real.sqrt (2 * Real.pi) / n * Real.exp (-2 * Real.pi ^ 2 * σ ^ 2 / n ^ 2 * (m : ℝ) ^ 2) := by
  unfold gcoef
  rw [norm_mul, norm_ex, mul_one, Complex.norm_real, Real.norm_of_nonneg (by positivity)]

theorem gexp_neg (hσ : 0 < σ) : -2 * Real.pi ^ 2 * σ ^ 2 / (n : ℝ) ^ 2 < 0 := by
  have hn : (0 : ℝ) < n := Nat.cast_pos.2 (NeZero.pos n)
  have : 0 < Real.pi ^ 2 * σ ^ 2 := by positivity
  exact div_neg_of_neg_of_pos (by linarith) (by positivity)

theorem summable_gcoef (hσ : 0 < σ) (c : ℝ) : Summable fun m : ℤ => ‖gcoef n σ c m‖ := by
  simp_rw [norm_gcoef hσ]
  exact (summable_exp_sq (gexp_neg hσ)).mul_left _

theorem poisson_gauss (hσ : 0 < σ) (c t : ℝ) :
    HasSum (fun m : ℤ => gcoef n σ c m * ex (m * t / n : ℝ)) ((∑' k : ℤ, Spec.star σ c (t - n * k) : ℝ) : ℂ) := by
  have hn : (0 : ℝ) < n := Nat.cast_pos.2 (NeZero.pos n)
  have hnc : (n : ℂ) ≠ 0 := by exact_mod_cast hn.ne'
  have hsc : (σ : ℂ) ≠ 0 := by exact_mod_cast hσ.ne'
  have hpc : (Real.pi : ℂ) ≠ 0 := by exact_mod_cast Real.pi_ne_zero
  have ha : 0 < 2 * Real.pi * σ ^ 2 / (n : ℝ) ^ 2 := by positivity
  have hsum : Summable fun m : ℤ => gcoef n σ c m * ex (m * t / n : ℝ) := by
    refine Summable.of_norm ?_
    refine (summable_gcoef (n := n) hσ c).congr fun m => ?_
    rw [norm_mul, norm_ex, mul_one]
  have hP := Complex.tsum_exp_neg_quadratic (a := ((2 * Real.pi * σ ^ 2 / (n : ℝ) ^ 2 : ℝ) : ℂ)) (by rw [Complex.ofReal_re]; exact ha)
    (I * (t - c) / n)
  have hroot : (((2 * Real.pi * σ ^ 2 / (n : ℝ) ^ 2 : ℝ) : ℂ)) ^ (1 / 2 : ℂ)
      = ((σ * Real.sqrt (2 * Real.pi) / n : ℝ) : ℂ) := by
    rw [show (1 / 2 : ℂ) = ((1 / 2 : ℝ) : ℂ) by norm_num, ← Complex.ofReal_cpow ha.le, ← Real.sqrt_eq_rpow]
    congr 1
    rw [Real.sqrt_div (by positivity), Real.sqrt_sq hn.le, Real.sqrt_mul' _ (sq_nonneg σ), Real.sqrt_sq hσ.le]
    ring
  rw [hroot] at hP
  have hr0 : ((σ * Real.sqrt (2 * Real.pi) / n : ℝ) : ℂ) ≠ 0 := by
    have : 0 < σ * Real.sqrt (2 * Real.pi) / n := by positivity
    exact_mod_cast this.ne'
  have hL : ∀ m : ℤ, gcoef n σ c m * ex (m * t / n : ℝ) = ((σ * Real.sqrt (2 * Real.pi) / n : ℝ) : ℂ)
      * cexp (-Real.pi * ((2 * Real.pi * σ ^ 2 / (n : ℝ) ^ 2 : ℝ) : ℂ) * m ^ 2 + 2 * Real.pi * (I * (t - c) / n) * m) := by
    intro m
    unfold gcoef ex
    rw [Complex.ofReal_mul, mul_assoc, mul_assoc, ← Complex.exp_add, Complex.ofReal_exp, ← Complex.exp_add]
    congr 2
    push_cast
    field_simp
    ring
  have hR : ∀ k : ℤ, cexp (-Real.pi / ((2 * Real.pi * σ ^ 2 / (n : ℝ) ^ 2 : ℝ) : ℂ) * (k + I * (I * (t - c) / n)) ^ 2)
      = ((Spec.star σ c (t - n * k) : ℝ) : ℂ) := by
    intro k
    unfold Spec.star
    rw [Complex.ofReal_exp]
    congr 1
    have hI : (k : ℂ) + I * (I * (t - c) / n) = -((t - n * k - c) / n) := by
      field_simp
      rw [I_sq]; ring
    rw [hI]
    push_cast
    field_simp
  have key : ∑' m : ℤ, gcoef n σ c m * ex (m * t / n : ℝ) = ((∑' k : ℤ, Spec.star σ c (t - n * k) : ℝ) : ℂ) := by
    simp_rw [hL]
    rw [tsum_mul_left, hP, ← mul_assoc, mul_one_div_cancel hr0, one_mul, Complex.ofReal_tsum]
    simp_rw [hR]
  rw [← key]
  exact hsum.hasSum

/-- light wrapped around to `t` -/
theorem wrapped_le (hσ : 0 < σ) (c t : ℝ) (ht : |t - c| ≤ n) :
    0 ≤ (∑' k : ℤ, Spec.star σ c (t - n * k)) - Spec.star σ c t ∧
    (∑' k : ℤ, Spec.star σ c (t - n * k)) - Spec.star σ c t ≤ Spec.spill n σ (t - c) := by
  have hn : (0 : ℝ) < n := Nat.cast_pos.2 (NeZero.pos n)
  have hs := summable_gauss (n := n) hσ c t
  constructor
  · have := hs.le_tsum (0 : ℤ) (fun k _ => (gauss_pos _ _ _).le)
    simp only [Int.cast_zero, mul_zero, sub_zero] at this
    linarith
  set Q := Real.exp (-(n : ℝ) ^ 2 / (2 * σ ^ 2)) with hQ
  have hQ0 : 0 ≤ Q := (Real.exp_pos _).le
  have hQ1 : Q < 1 := exp_neg_lt_one (div_neg_of_neg_of_pos (by have := pow_pos hn 2; linarith) (by positivity))
  have hg : HasSum (fun j : ℕ => Q ^ (j + 1)) (Q / (1 - Q)) := by
    have := (hasSum_geometric_of_lt_one hQ0 hQ1).mul_right Q
    rw [div_eq_mul_inv, mul_comm]
    exact this.congr_fun fun j => by rw [pow_succ]
  have hw : ∀ w : ℝ, HasSum (fun j : ℕ => if j = 0 then w else Q ^ j) (w + Q / (1 - Q)) := by
    intro w
    rw [← hasSum_nat_add_iff' 1]
    simp only [Finset.range_one, Finset.sum_singleton, if_true, add_sub_cancel_left]
    refine hg.congr_fun fun j => ?_
    simp
  -- a bound for a star whose centre is at distance `u ≥ 0`
  have hfar : ∀ (y : ℝ) (j : ℕ), (n : ℝ) * j ≤ |y| → Real.exp (-y ^ 2 / (2 * σ ^ 2)) ≤ Q ^ j := by
    intro y j hy
    rw [hQ, ← Real.exp_nat_mul]
    refine Real.exp_le_exp.2 ?_
    rw [← mul_div_assoc]
    refine div_le_div_of_nonneg_right ?_ (by positivity)
    have hj : (0 : ℝ) ≤ j := Nat.cast_nonneg j
    have h1 : ((n : ℝ) * j) ^ 2 ≤ y ^ 2 := by rw [← sq_abs y]; exact pow_le_pow_left₀ (by positivity) hy 2
    have h2 : (j : ℝ) ≤ (j : ℝ) ^ 2 := by exact_mod_cast Nat.le_self_pow two_ne_zero j
    nlinarith [sq_nonneg (n : ℝ)]
  have hb : ∀ u : ℝ, 0 ≤ u → u ≤ n → Summable (fun k : ℤ => Real.exp (-(u - n * k) ^ 2 / (2 * σ ^ 2))) →
      ∑' k : ℤ, Real.exp (-(u - n * k) ^ 2 / (2 * σ ^ 2))
        ≤ Real.exp (-u ^ 2 / (2 * σ ^ 2)) + Spec.spill n σ u := by
    intro u hu hun hsu
    have hsu' : Summable (fun k : ℤ => Real.exp (-(u + n * k) ^ 2 / (2 * σ ^ 2))) := by
      refine ((Equiv.neg ℤ).summable_iff.2 hsu).congr fun k => ?_
      simp only [Function.comp, Equiv.neg_apply, Int.cast_neg]
      congr 3; ring
    have he : ∑' k : ℤ, Real.exp (-(u - n * k) ^ 2 / (2 * σ ^ 2)) = ∑' k : ℤ, Real.exp (-(u + n * k) ^ 2 / (2 * σ ^ 2)) := by
      rw [← (Equiv.neg ℤ).tsum_eq (fun k : ℤ => Real.exp (-(u - n * k) ^ 2 / (2 * σ ^ 2)))]
      refine tsum_congr fun k => ?_
      simp only [Equiv.neg_apply, Int.cast_neg]
      congr 3; ring
    rw [he]
    have hbd : HasSum (fun k : ℤ => (if 0 ≤ k then (if k.natAbs = 0 then Real.exp (-u ^ 2 / (2 * σ ^ 2)) else Q ^ k.natAbs)
        else (if k.natAbs - 1 = 0 then Spec.star σ 0 (n - |u|) else Q ^ (k.natAbs - 1))))
        (Real.exp (-u ^ 2 / (2 * σ ^ 2)) + Q / (1 - Q) + (Spec.star σ 0 (n - |u|) + Q / (1 - Q))) := by
      refine HasSum.of_nat_of_neg_add_one ((hw _).congr_fun fun j => ?_) ((hw _).congr_fun fun j => ?_)
      · simp
      · have h1 : ¬ (0 : ℤ) ≤ -((j : ℤ) + 1) := by omega
        have h2 : (-((j : ℤ) + 1)).natAbs - 1 = j := by omega
        simp only [h1, h2, if_false]
    have := hsu'.tsum_le_tsum (fun k => ?_) hbd.summable
    · rw [hbd.tsum_eq] at this
      unfold Spec.spill
      rw [← hQ, mul_div_assoc]
      linarith
    · by_cases hk : 0 ≤ k
      · rw [if_pos hk]
        by_cases h0 : k.natAbs = 0
        · rw [if_pos h0]
          have : k = 0 := by omega
          subst this; simp
        · rw [if_neg h0]
          refine hfar _ _ ?_
          have h3 : ((k.natAbs : ℕ) : ℝ) = (k : ℝ) := by
            rw [← Int.cast_natCast (R := ℝ), Int.natCast_natAbs, abs_of_nonneg hk]
          have h4 : (0 : ℝ) ≤ k := by exact_mod_cast hk
          rw [h3, abs_of_nonneg (by positivity)]
          linarith
      · rw [if_neg hk]
        have h3 : ((k.natAbs : ℕ) : ℝ) = -(k : ℝ) := by
          rw [← Int.cast_natCast (R := ℝ), Int.natCast_natAbs, abs_of_neg (by omega)]; push_cast; rfl
        by_cases h0 : k.natAbs - 1 = 0
        · rw [if_pos h0]
          have : k = -1 := by omega
          subst this
          unfold Spec.star
          refine Real.exp_le_exp.2 (le_of_eq ?_)
          rw [abs_of_nonneg hu]; push_cast; congr 1; ring
        · rw [if_neg h0]
          refine hfar _ _ ?_
          rw [Nat.cast_sub (by omega), h3, Nat.cast_one]
          have : (n : ℝ) * (-(k : ℝ) - 1) ≤ -(u + n * k) := by nlinarith
          exact this.trans (neg_le_abs _)
  have hu : ∀ k : ℤ, Spec.star σ c (t - n * k) = Real.exp (-((t - c) - n * k) ^ 2 / (2 * σ ^ 2)) := by
    intro k; unfold Spec.star; congr 3; ring
  rcases le_total 0 (t - c) with h | h
  · have := hb (t - c) h (by rwa [abs_of_nonneg h] at ht) (hs.congr fun k => hu k)
    simp_rw [hu]
    unfold Spec.star
    linarith
  · have hu' : ∀ k : ℤ, Spec.star σ c (t - n * (-k : ℤ)) = Real.exp (-(-(t - c) - n * k) ^ 2 / (2 * σ ^ 2)) := by
      intro k; rw [hu]; push_cast; congr 2; ring
    have := hb (-(t - c)) (by linarith) (by rwa [abs_of_nonpos h] at ht)
      (((Equiv.neg ℤ).summable_iff.2 hs).congr fun k => hu' k)
    rw [← (Equiv.neg ℤ).tsum_eq (fun k : ℤ => Spec.star σ c (t - n * k))]
    simp only [Equiv.neg_apply]
    simp_rw [hu']
    have hsp : Spec.spill n σ (-(t - c)) = Spec.spill n σ (t - c) := by unfold Spec.spill; rw [abs_neg]
    rw [hsp, neg_sq] at this
    unfold Spec.star
    linarith

/-- the aliased amplitude -/
theorem aliased_bound (hσ : 0 < σ) (c : ℝ) :
    2 * ∑' m : ℤ, (if 2 * |m| < n then 0 else ‖gcoef n σ c m‖) ≤ Spec.aliased n σ := by
  have hn : (0 : ℝ) < n := Nat.cast_pos.2 (NeZero.pos n)
  set K := (n + 1) / 2 with hK
  have hK0 : 0 < K := by have := NeZero.pos n; omega
  set a := 2 * Real.pi ^ 2 * σ ^ 2 / (n : ℝ) ^ 2 with ha
  have ha0 : 0 < a := by positivity
  set r := Real.exp (-(a * K)) with hr
  have hKr : (0 : ℝ) < K := Nat.cast_pos.2 hK0
  have hr0 : 0 ≤ r := (Real.exp_pos _).le
  have hr1 : r < 1 := exp_neg_lt_one (by have := mul_pos ha0 hKr; linarith)
  have hb := (hasSum_int_geom hr0 hr1 K hK0).mul_left (σ * Real.sqrt (2 * Real.pi) / n)
  have hs : Summable fun m : ℤ => if 2 * |m| < n then 0 else ‖gcoef n σ c m‖ := by
    refine (summable_gcoef (n := n) hσ c).of_nonneg_of_le (fun m => ?_) (fun m => ?_) <;> split_ifs <;> simp
  have hle := hs.tsum_le_tsum (fun m => ?_) hb.summable
  · rw [hb.tsum_eq] at hle
    have hrK : r ^ K = Real.exp (-2 * Real.pi ^ 2 * σ ^ 2 * (K : ℝ) ^ 2 / n ^ 2) := by
      rw [hr, ← Real.exp_nat_mul]; congr 1; rw [ha]; ring
    have hr' : r = Real.exp (-2 * Real.pi ^ 2 * σ ^ 2 * (K : ℝ) / n ^ 2) := by
      rw [hr]; congr 1; rw [ha]; ring
    unfold Spec.aliased
    rw [← hK, ← hrK, ← hr']
    refine (mul_le_mul_of_nonneg_left hle zero_le_two).trans (le_of_eq ?_)
    ring
  · by_cases h : 2 * |m| < n
    · rw [if_pos h]
      split_ifs
      · simp
      · positivity
    · have h' : ¬ m.natAbs < K := by
        rw [Int.abs_eq_natAbs] at h
        omega
      rw [if_neg h, if_neg h', norm_gcoef hσ]
      refine mul_le_mul_of_nonneg_left ?_ (by positivity)
      rw [hr, ← Real.exp_nat_mul]
      refine Real.exp_le_exp.2 ?_
      have h1 : ((m.natAbs : ℕ) : ℝ) ^ 2 = (m : ℝ) ^ 2 := by
        rw [← Int.cast_natCast (R := ℝ), Int.natCast_natAbs, Int.cast_abs, sq_abs]
      rw [← h1]
      have h2 : (K : ℝ) ≤ (m.natAbs : ℝ) := by exact_mod_cast not_lt.1 h'
      have h3 : -2 * Real.pi ^ 2 * σ ^ 2 / (n : ℝ) ^ 2 = -a := by rw [ha]; ring
      rw [h3]
      have h4 : (K : ℝ) * m.natAbs ≤ (m.natAbs : ℝ) ^ 2 := by nlinarith
      nlinarith

/-- the interpolant is bounded by the sum of the moduli of the samples -/
theorem norm_interpC_le (x : Fin n → ℂ) (t : ℝ) : ‖interpC x t‖ ≤ ∑ j, ‖x j‖ := by
  have hn : (0 : ℝ) < n := Nat.cast_pos.2 (NeZero.pos n)
  unfold interpC
  refine (norm_sum_le _ _).trans ?_
  have h : ∀ k : Fin n, ‖idft x k * ex (-(Np.fftfreq n k * t))‖ ≤ (1 / n) * ∑ j, ‖x j‖ := by
    intro k
    rw [norm_mul, norm_ex, mul_one]
    unfold idft
    rw [norm_mul, Fintype.card_fin]
    have h1 : ‖(1 / (n : ℂ))‖ = 1 / n := by simp
    rw [h1]
    refine mul_le_mul_of_nonneg_left ((norm_sum_le _ _).trans (Finset.sum_le_sum fun j _ => ?_)) (by positivity)
    rw [norm_mul, norm_e, mul_one]
  refine (Finset.sum_le_sum fun k _ => h k).trans (le_of_eq ?_)
  rw [Finset.sum_const, Finset.card_univ, Fintype.card_fin, nsmul_eq_mul]
  field_simp

/-- the error budget of the interpolant of a sampled star -/
theorem interpC_gauss (hσ : 0 < σ) (c t : ℝ) (hc : ∀ j : Fin n, |((j : ℕ) : ℝ) - c| ≤ n) (ht : |t - c| ≤ n) :
    ‖interpC (fun j : Fin n => ((Spec.star σ c ((j : ℕ) : ℝ) : ℝ) : ℂ)) t - (Spec.star σ c t : ℝ)‖
      ≤ Spec.starError n σ c t := by
  set P : ℝ → ℝ := fun t => ∑' k : ℤ, Spec.star σ c (t - n * k) with hP
  have h1 := interpC_alias (n := n) (fun t => ((P t : ℝ) : ℂ)) (gcoef n σ c) (summable_gcoef hσ c)
    (fun t => poisson_gauss hσ c t) t
  have h2 := h1.trans (aliased_bound hσ c)
  have h3 : interpC (fun j : Fin n => ((Spec.star σ c ((j : ℕ) : ℝ) : ℝ) : ℂ)) t
      = interpC (fun j : Fin n => ((P ((j : ℕ) : ℝ) : ℝ) : ℂ)) t
        + -1 * interpC (fun j : Fin n => (((P ((j : ℕ) : ℝ) - Spec.star σ c ((j : ℕ) : ℝ)) : ℝ) : ℂ)) t := by
    rw [← interpC_smul, ← interpC_add]
    congr 1
    funext j
    push_cast
    ring
  have h4 := norm_interpC_le (fun j : Fin n => (((P ((j : ℕ) : ℝ) - Spec.star σ c ((j : ℕ) : ℝ)) : ℝ) : ℂ)) t
  have h5 : ∑ j : Fin n, ‖(((P ((j : ℕ) : ℝ) - Spec.star σ c ((j : ℕ) : ℝ)) : ℝ) : ℂ)‖
      ≤ ∑ j : Fin n, Spec.spill n σ (((j : ℕ) : ℝ) - c) := by
    refine Finset.sum_le_sum fun j _ => ?_
    obtain ⟨a, b⟩ := wrapped_le (n := n) hσ c ((j : ℕ) : ℝ) (hc j)
    rw [Complex.norm_real, Real.norm_of_nonneg a]
    exact b
  obtain ⟨a, b⟩ := wrapped_le (n := n) hσ c t ht
  have h6 : ‖((P t : ℝ) : ℂ) - (Spec.star σ c t : ℝ)‖ ≤ Spec.spill n σ (t - c) := by
    rw [← Complex.ofReal_sub, Complex.norm_real, Real.norm_of_nonneg a]
    exact b
  rw [h3]
  have h7 : interpC (fun j : Fin n => ((P ((j : ℕ) : ℝ) : ℝ) : ℂ)) t
        + -1 * interpC (fun j : Fin n => (((P ((j : ℕ) : ℝ) - Spec.star σ c ((j : ℕ) : ℝ)) : ℝ) : ℂ)) t - (Spec.star σ c t : ℝ)
      = (interpC (fun j : Fin n => ((P ((j : ℕ) : ℝ) : ℝ) : ℂ)) t - (P t : ℝ)) + (((P t : ℝ) : ℂ) - (Spec.star σ c t : ℝ))
        - interpC (fun j : Fin n => (((P ((j : ℕ) : ℝ) - Spec.star σ c ((j : ℕ) : ℝ)) : ℝ) : ℂ)) t := by ring
  rw [h7]
  refine (norm_sub_le _ _).trans ?_
  have := norm_add_le (interpC (fun j : Fin n => ((P ((j : ℕ) : ℝ) : ℝ) : ℂ)) t - (P t : ℝ))
    (((P t : ℝ) : ℂ) - (Spec.star σ c t : ℝ))
  unfold Spec.starError
  linarith

end

end ImgReg
