import Verif.Lemmas.Gauss
import Mathlib.Analysis.Complex.ExponentialBounds
import Mathlib.Analysis.Real.Pi.Bounds
import Mathlib.Tactic.IntervalCases

/-!
# C140: shifting, interpolating and zooming a Gaussian star
-/

open Complex Finset
open scoped ComplexConjugate

namespace ImgReg

/-! ## products -/

/-- two products of factors that differ by at most `E d`, the second ones at most 1 in modulus -/
theorem norm_prod_sub_prod_le {ι : Type} (T : Finset ι) (F g : ι → ℂ) (E : ι → ℝ) (hg : ∀ d ∈ T, ‖g d‖ ≤ 1)
    (hE : ∀ d ∈ T, ‖F d - g d‖ ≤ E d) :
    ‖∏ d ∈ T, F d - ∏ d ∈ T, g d‖ ≤ ∏ d ∈ T, (1 + E d) - 1 := by
  classical
  induction T using Finset.induction_on with
  | empty => simp
  | insert a T ha ih =>
    rw [Finset.prod_insert ha, Finset.prod_insert ha, Finset.prod_insert ha]
    have ih' := ih (fun d hd => hg d (Finset.mem_insert_of_mem hd)) (fun d hd => hE d (Finset.mem_insert_of_mem hd))
    have h1 := hg a (Finset.mem_insert_self a T)
    have h2 := hE a (Finset.mem_insert_self a T)
    have hE0 : 0 ≤ E a := (norm_nonneg _).trans h2
    have hF : ‖F a‖ ≤ 1 + E a := by
      have := norm_add_le (g a) (F a - g a)
      rw [add_sub_cancel] at this
      linarith
    have hG : ‖∏ d ∈ T, g d‖ ≤ 1 := by
      rw [norm_prod]
      exact Finset.prod_le_one (fun d _ => norm_nonneg _) (fun d hd => hg d (Finset.mem_insert_of_mem hd))
    have he : F a * ∏ d ∈ T, F d - g a * ∏ d ∈ T, g d
        = F a * (∏ d ∈ T, F d - ∏ d ∈ T, g d) + (F a - g a) * ∏ d ∈ T, g d := by ring
    rw [he]
    refine (norm_add_le _ _).trans ?_
    rw [norm_mul, norm_mul]
    have h3 : ‖F a‖ * ‖∏ d ∈ T, F d - ∏ d ∈ T, g d‖ ≤ (1 + E a) * (∏ d ∈ T, (1 + E d) - 1) :=
      mul_le_mul hF ih' (norm_nonneg _) (by linarith)
    have h4 : ‖F a - g a‖ * ‖∏ d ∈ T, g d‖ ≤ E a * 1 := mul_le_mul h2 hG (norm_nonneg _) hE0
    linarith

section nd
variable {D : ℕ} {s : Fin D → ℕ} [∀ d, NeZero (s d)]

theorem dft_pi_prod (x : ∀ d, Fin (s d) → ℂ) (k : ∀ d, Fin (s d)) :
    dft (fun i : (∀ d, Fin (s d)) => ∏ d, x d (i d)) k = ∏ d, dft (x d) (k d) := by
  unfold dft
  rw [Finset.prod_univ_sum, Fintype.piFinset_univ]
  refine Finset.sum_congr rfl fun i _ => ?_
  rw [e_pi, map_prod, Finset.prod_mul_distrib]

theorem idft_pi_prod (x : ∀ d, Fin (s d) → ℂ) (k : ∀ d, Fin (s d)) :
    idft (fun i : (∀ d, Fin (s d)) => ∏ d, x d (i d)) k = ∏ d, idft (x d) (k d) := by
  unfold idft
  rw [Finset.prod_mul_distrib, Finset.prod_univ_sum, Fintype.piFinset_univ, Fintype.card_pi]
  congr 1
  · push_cast
    rw [Finset.prod_div_distrib, Finset.prod_const_one]
  · refine Finset.sum_congr rfl fun i _ => ?_
    rw [e_pi, Finset.prod_mul_distrib]

/-- shifting a separable array shifts each factor -/
theorem filt_pi_prod (x : ∀ d, Fin (s d) → ℂ) (a : Fin D → ℝ) (i : ∀ d, Fin (s d)) :
    filt (fun k => shiftKernel (freqND (List.ofFn a) k) 0) (fun i : (∀ d, Fin (s d)) => ∏ d, x d (i d)) i
      = ∏ d, filt (fun k => ex (-(a d * Np.fftfreq (s d) k))) (x d) (i d) := by
  unfold filt
  rw [← idft_pi_prod]
  congr 1
  funext k
  beta_reduce
  rw [dft_pi_prod, shiftKernel_zero, freqND_eq_sum, Finset.prod_mul_distrib]
  congr 1
  rw [← Finset.sum_neg_distrib, ex_sum]
  refine Finset.prod_congr rfl fun d _ => ?_
  congr 3
  simp

/-- C140 for `shiftnd` in any number of dimensions: a star (a product of Gaussians of widths `σ d`, centred at `c d`) sampled on
the pixels and shifted by the real offsets `a d` is the star centred at `c d + a d`, up to the error budget
`∏ (1 + starError) - 1` (aliasing, wrap-around and truncation on each axis), at every pixel that is no further than the frame
size from the new centre. -/
theorem C140_shiftnd (cfg : FFTConfig) (σ c a : Fin D → ℝ) (hσ : ∀ d, 0 < σ d)
    (hc : ∀ d, 0 ≤ c d ∧ c d ≤ (s d : ℝ) - 1) (ra : Bool) :
    ∃ y : (∀ d, Fin (s d)) → ℝ,
      shiftnd cfg (rArr fun i : (∀ d, Fin (s d)) => ∏ d, Spec.star (σ d) (c d) ((i d : ℕ) : ℝ)) (List.ofFn a) 0 ra true
        = .real (realArr y) ∧
      ∀ i, (∀ d, |((i d : ℕ) : ℝ) - (c d + a d)| ≤ s d) →
        |y i - ∏ d, Spec.star (σ d) (c d + a d) ((i d : ℕ) : ℝ)|
          ≤ ∏ d, (1 + Spec.starError (s d) (σ d) (c d) (((i d : ℕ) : ℝ) - a d)) - 1 := by
  refine ⟨_, by rw [shiftnd_eq, shiftReturn_real, denan_rArr], fun i hi => abs_re_sub_le ?_⟩
  have hprod : (fun i : (∀ d, Fin (s d)) => ((∏ d, Spec.star (σ d) (c d) ((i d : ℕ) : ℝ) : ℝ) : ℂ))
      = fun i => ∏ d, (fun j : Fin (s d) => ((Spec.star (σ d) (c d) ((j : ℕ) : ℝ) : ℝ) : ℂ)) (i d) := by
    funext i; push_cast; rfl
  rw [hprod, filt_pi_prod (fun d (j : Fin (s d)) => ((Spec.star (σ d) (c d) ((j : ℕ) : ℝ) : ℝ) : ℂ)) a i]
  push_cast
  refine norm_prod_sub_prod_le _ _ _ _ (fun d _ => ?_) (fun d _ => ?_)
  · rw [Complex.norm_real, Real.norm_of_nonneg (gauss_pos _ _ _).le]
    exact gauss_le_one _ _ _
  · have h1 := interpC_displaced (fun j : Fin (s d) => Spec.star (σ d) (c d) ((j : ℕ) : ℝ)) (a d) (i d)
    have h2 := interpC_gauss (n := s d) (hσ d) (c d) (((i d : ℕ) : ℝ) - a d) (fun j => ?_)
      (by have := hi d; rwa [show ((i d : ℕ) : ℝ) - a d - c d = ((i d : ℕ) : ℝ) - (c d + a d) by ring])
    · rw [h1] at h2
      have h3 : Spec.star (σ d) (c d) (((i d : ℕ) : ℝ) - a d) = Spec.star (σ d) (c d + a d) ((i d : ℕ) : ℝ) := by
        unfold Spec.star; congr 3; ring
      rw [h3, ← Complex.norm_conj, map_sub, Complex.conj_conj, Complex.conj_ofReal] at h2
      exact h2
    · have hj : ((j : ℕ) : ℝ) ≤ (s d : ℝ) - 1 := by
        have : ((j : ℕ) : ℝ) + 1 ≤ s d := by exact_mod_cast j.isLt
        linarith
      have hj0 : (0 : ℝ) ≤ ((j : ℕ) : ℝ) := Nat.cast_nonneg _
      obtain ⟨hc1, hc2⟩ := hc d
      rw [abs_le]; constructor <;> linarith

end nd

section one
variable {n : ℕ} [NeZero n]

omit [NeZero n] in
theorem centre_ok {c : ℝ} (hc : 0 ≤ c ∧ c ≤ (n : ℝ) - 1) (j : Fin n) : |((j : ℕ) : ℝ) - c| ≤ n := by
  have hj : ((j : ℕ) : ℝ) ≤ (n : ℝ) - 1 := by
    have : ((j : ℕ) : ℝ) + 1 ≤ n := by exact_mod_cast j.isLt
    linarith
  have hj0 : (0 : ℝ) ≤ ((j : ℕ) : ℝ) := Nat.cast_nonneg _
  obtain ⟨hc1, hc2⟩ := hc
  rw [abs_le]; constructor <;> linarith

/-- C140 for `fourier_interp1d`: interpolating a sampled star at any coordinates reads off the star itself, up to the error
budget. -/
theorem C140_interp1d (cfg : FFTConfig) {σ c : ℝ} (hσ : 0 < σ) (hc : 0 ≤ c ∧ c ≤ (n : ℝ) - 1) {M : ℕ} (t : Fin M → ℝ) :
    ∃ y : Fin M → ℝ,
      fourierInterp1d cfg (rArr fun j : Fin n => Spec.star σ c ((j : ℕ) : ℝ)) (Arr.ofVec t) none true
        = .ok ⟨M, .real (realArr y)⟩ ∧
      ∀ i, |t i - c| ≤ n → |y i - Spec.star σ c (t i)| ≤ Spec.starError n σ c (t i) :=
  ⟨fun i => (interpC (fun j : Fin n => (Spec.star σ c ((j : ℕ) : ℝ) : ℂ)) (t i)).re,
    by rw [rArr_eq_cArr, fourierInterp1d_vec, retReal_true],
    fun i hi => abs_re_sub_le (interpC_gauss hσ c (t i) (centre_ok hc) hi)⟩

/-- C140 for `zoom1d`: zooming a sampled star shows the star itself on the returned coordinates, up to the error budget. -/
theorem C140_zoom1d (cfg : FFTConfig) {σ c : ℝ} (hσ : 0 < σ) (hc : 0 ≤ c ∧ c ≤ (n : ℝ) - 1) (us : ℝ) (hus : us ≠ 0)
    (outsize : Option ℕ) (o : ℕ) (ho : outsize.getD n = o) (off : ℝ) :
    ∃ (xs : Fin o → ℝ) (y : Fin o → ℝ),
      zoom1d cfg (rArr fun j : Fin n => Spec.star σ c ((j : ℕ) : ℝ)) us outsize off true true
        = .ok (.withX (Arr.ofVec xs) ⟨o, .real (realArr y)⟩) ∧
      (∀ i, xs i + xs i.rev = 2 * (((n : ℝ) - 1) / 2 + off)) ∧
      (∀ (i : Fin o) (h : (i : ℕ) + 1 < o), xs ⟨i + 1, h⟩ - xs i = 1 / us) ∧
      ∀ i, |xs i - c| ≤ n → |y i - Spec.star σ c (xs i)| ≤ Spec.starError n σ c (xs i) := by
  obtain ⟨xs, r, h1, -, h3, h4, h5⟩ :=
    C14_zoom1d cfg (fun j : Fin n => (Spec.star σ c ((j : ℕ) : ℝ) : ℂ)) us hus outsize o ho off true
  obtain ⟨y, hy, hb⟩ := C140_interp1d (n := n) cfg hσ hc xs
  rw [rArr_eq_cArr] at hy ⊢
  refine ⟨xs, y, ?_, h5, h4, hb⟩
  rw [h1]
  congr 2
  exact Except.ok.inj (h3.symm.trans hy)

end one

section periodic
variable {n : ℕ} [NeZero n] {σ : ℝ}

theorem interpC_gauss_periodic (hσ : 0 < σ) (c t : ℝ) (hc : ∀ j : Fin n, |((j : ℕ) : ℝ) - c| ≤ n) :
    ‖interpC (fun j : Fin n => ((Spec.star σ c ((j : ℕ) : ℝ) : ℝ) : ℂ)) t
        - ((∑' k : ℤ, Spec.star σ c (t - n * k) : ℝ) : ℂ)‖
      ≤ Spec.aliased n σ + ∑ j : Fin n, Spec.spill n σ (((j : ℕ) : ℝ) - c) := by
  set P : ℝ → ℝ := fun t => ∑' k : ℤ, Spec.star σ c (t - n * k) with hP
  have h2 := (interpC_alias (n := n) (fun t => ((P t : ℝ) : ℂ)) (gcoef n σ c) (summable_gcoef hσ c)
    (fun t => poisson_gauss hσ c t) t).trans (aliased_bound hσ c)
  have h3 : interpC (fun j : Fin n => ((P ((j : ℕ) : ℝ) : ℝ) : ℂ)) t
      = interpC (fun j : Fin n => ((Spec.star σ c ((j : ℕ) : ℝ) : ℝ) : ℂ)) t
        + interpC (fun j : Fin n => (((P ((j : ℕ) : ℝ) - Spec.star σ c ((j : ℕ) : ℝ)) : ℝ) : ℂ)) t := by
    rw [← interpC_add]
    congr 1
    funext j
    push_cast
    ring
  have h4 := norm_interpC_le (fun j : Fin n => (((P ((j : ℕ) : ℝ) - Spec.star σ c ((j : ℕ) : ℝ)) : ℝ) : ℂ)) t
  have h5 : ∑ j : Fin n, ‖(((P ((j : ℕ) : ℝ) - Spec.star σ c ((j : ℕ) : ℝ)) : ℝ) : ℂ)‖
      ≤ ∑ j : Fin n, Spec.spill n σ (((j : ℕ) : ℝ) - c) := by
    refine Finset.sum_le_sum fun j _ => ?_
    obtain ⟨a, b⟩ := wrapped_le (n := n) hσ c ((j : ℕ) : ℝ) (hc j)
    rw [Complex.norm_real, Real.norm_of_nonneg a]
    exact b
  have h6 : interpC (fun j : Fin n => ((Spec.star σ c ((j : ℕ) : ℝ) : ℝ) : ℂ)) t - ((P t : ℝ) : ℂ)
      = (interpC (fun j : Fin n => ((P ((j : ℕ) : ℝ) : ℝ) : ℂ)) t - ((P t : ℝ) : ℂ))
        - interpC (fun j : Fin n => (((P ((j : ℕ) : ℝ) - Spec.star σ c ((j : ℕ) : ℝ)) : ℝ) : ℂ)) t := by
    rw [h3]; ring
  show ‖_ - ((P t : ℝ) : ℂ)‖ ≤ _
  rw [h6]
  refine (norm_sub_le _ _).trans ?_
  linarith

/-- C140: what a shift by any real distance `d`, however long, really gives: the star repeated with the period of the frame,
displaced by `d`, up to aliasing and truncation. -/
theorem C140_periodic (cfg : FFTConfig) (hσ : 0 < σ) {c : ℝ} (hc : 0 ≤ c ∧ c ≤ (n : ℝ) - 1) (d : ℝ) (ra : Bool) :
    ∃ y : Fin n → ℝ,
      shiftnd (D := 1) (s := fun _ => n) cfg (rArr fun i => Spec.star σ c (((i 0 : Fin n) : ℕ) : ℝ)) [d] 0 ra true
        = .real (realArr fun i => y (i 0)) ∧
      ∀ i : Fin n, |y i - ∑' k : ℤ, Spec.star σ (c + d + n * k) ((i : ℕ) : ℝ)|
        ≤ Spec.aliased n σ + ∑ j : Fin n, Spec.spill n σ (((j : ℕ) : ℝ) - c) := by
  obtain ⟨y, h1, h2⟩ := C12_interp_eq_shift_1d cfg (fun j : Fin n => Spec.star σ c ((j : ℕ) : ℝ)) d ra
  refine ⟨y, h1, fun i => ?_⟩
  rw [rArr_eq_cArr, fourierInterp1d_vec, retReal_true] at h2
  simp only [Except.ok.injEq, Out1.mk.injEq, heq_eq_eq, true_and, NdOut.real.injEq] at h2
  have h3 := congrFun h2 i
  simp only [realArr, Option.some.injEq] at h3
  rw [← h3]
  have h4 : ∑' k : ℤ, Spec.star σ (c + d + n * k) ((i : ℕ) : ℝ) = ∑' k : ℤ, Spec.star σ c (((i : ℕ) : ℝ) - d - n * k) := by
    refine tsum_congr fun k => ?_
    unfold Spec.star
    congr 3
    ring
  rw [h4]
  exact abs_re_sub_le (interpC_gauss_periodic hσ c (((i : ℕ) : ℝ) - d) (centre_ok hc))

end periodic

/-! ## the project's own test scene -/

theorem exp_neg_le {x b : ℝ} (N : ℕ) (hx : 0 ≤ x) (h : 1 ≤ b * ∑ i ∈ range N, x ^ i / (i.factorial : ℝ)) (hb : 0 ≤ b) :
    Real.exp (-x) ≤ b := by
  have h1 := Real.sum_le_exp_of_nonneg hx N
  rw [Real.exp_neg, inv_le_iff_one_le_mul₀ (Real.exp_pos x)]
  exact h.trans (mul_le_mul_of_nonneg_left h1 hb)

theorem sqrt_two_pi_le : Real.sqrt (2 * Real.pi) ≤ 251 / 100 := by
  rw [Real.sqrt_le_left (by norm_num)]
  have := Real.pi_lt_d4
  linarith

theorem pi_sq_gt : (9869 / 1000 : ℝ) < Real.pi ^ 2 := by
  have := Real.pi_gt_d6
  nlinarith

theorem exp_m40 : Real.exp (-40) ≤ 1 / 5000000 :=
  exp_neg_le 12 (by norm_num) (by norm_num [Finset.sum_range_succ, Nat.factorial]) (by norm_num)

section unit
variable {n : ℕ} [NeZero n]

omit [NeZero n] in
theorem geom_tail_le (h9 : 9 ≤ n) :
    2 * Real.exp (-(n : ℝ) ^ 2 / (2 * (1 : ℝ) ^ 2)) / (1 - Real.exp (-(n : ℝ) ^ 2 / (2 * (1 : ℝ) ^ 2))) ≤ 1 / 1000000 ∧
    2 * Real.exp (-(n : ℝ) ^ 2 / (2 * (1 : ℝ) ^ 2)) / (1 - Real.exp (-(n : ℝ) ^ 2 / (2 * (1 : ℝ) ^ 2)))
      ≤ 3 * Real.exp (-((n : ℝ) + 1) ^ 2 / 8) := by
  have hn : (9 : ℝ) ≤ n := by exact_mod_cast h9
  have hQ : Real.exp (-(n : ℝ) ^ 2 / (2 * (1 : ℝ) ^ 2)) ≤ 1 / 5000000 :=
    (Real.exp_le_exp.2 (by nlinarith)).trans exp_m40
  have hQG : Real.exp (-(n : ℝ) ^ 2 / (2 * (1 : ℝ) ^ 2)) ≤ Real.exp (-((n : ℝ) + 1) ^ 2 / 8) :=
    Real.exp_le_exp.2 (by nlinarith)
  have h0 := Real.exp_pos (-(n : ℝ) ^ 2 / (2 * (1 : ℝ) ^ 2))
  constructor
  · rw [div_le_iff₀ (by linarith)]; nlinarith
  · rw [div_le_iff₀ (by linarith)]; nlinarith

omit [NeZero n] in
/-- light cut off by the frame -/
theorem trunc_le (h9 : 9 ≤ n) :
    ∑ j : Fin n, Spec.spill n 1 (((j : ℕ) : ℝ) - ((n : ℝ) - 1) / 2) ≤ 132 / 100000 := by
  have hn : (9 : ℝ) ≤ n := by exact_mod_cast h9
  set G := Real.exp (-((n : ℝ) + 1) ^ 2 / 8) with hG
  have h1 : ∀ j : Fin n, Spec.spill n 1 (((j : ℕ) : ℝ) - ((n : ℝ) - 1) / 2) ≤ 4 * G := by
    intro j
    unfold Spec.spill
    have h2 := (geom_tail_le h9).2
    have h3 : Spec.star 1 0 (n - |((j : ℕ) : ℝ) - ((n : ℝ) - 1) / 2|) ≤ G := by
      unfold Spec.star
      refine Real.exp_le_exp.2 ?_
      have hj : ((j : ℕ) : ℝ) + 1 ≤ n := by exact_mod_cast j.isLt
      have hj0 : (0 : ℝ) ≤ ((j : ℕ) : ℝ) := Nat.cast_nonneg _
      have hu : |((j : ℕ) : ℝ) - ((n : ℝ) - 1) / 2| ≤ ((n : ℝ) - 1) / 2 := by rw [abs_le]; constructor <;> linarith
      nlinarith
    linarith
  have h2 : ∑ j : Fin n, Spec.spill n 1 (((j : ℕ) : ℝ) - ((n : ℝ) - 1) / 2) ≤ n * (4 * G) := by
    refine (Finset.sum_le_sum fun j _ => h1 j).trans (le_of_eq ?_)
    rw [Finset.sum_const, Finset.card_univ, Fintype.card_fin, nsmul_eq_mul]
  refine h2.trans ?_
  have h3 := Real.pow_div_factorial_le_exp (((n : ℝ) + 1) ^ 2 / 8) (by positivity) 12
  have hG' : G = (Real.exp (((n : ℝ) + 1) ^ 2 / 8))⁻¹ := by
    rw [hG, ← Real.exp_neg]; congr 1; ring
  have h4 : (10 : ℝ) ^ 23 * n ≤ ((n : ℝ) + 1) ^ 24 := by
    have : (10 : ℝ) ^ 23 ≤ ((n : ℝ) + 1) ^ 23 := pow_le_pow_left₀ (by norm_num) (by linarith) 23
    calc (10 : ℝ) ^ 23 * n ≤ ((n : ℝ) + 1) ^ 23 * (n + 1) := mul_le_mul this (by linarith) (by linarith) (by positivity)
      _ = _ := by ring
  have h5 : (((n : ℝ) + 1) ^ 2 / 8) ^ 12 / ((Nat.factorial 12 : ℕ) : ℝ) = ((n : ℝ) + 1) ^ 24 / (8 ^ 12 * 479001600) := by
    rw [show Nat.factorial 12 = 479001600 by rfl]
    push_cast
    ring
  rw [h5] at h3
  rw [hG', ← mul_assoc, ← div_eq_mul_inv, div_le_iff₀ (Real.exp_pos _)]
  have h6 : (10 : ℝ) ^ 23 * n / (8 ^ 12 * 479001600) ≤ Real.exp (((n : ℝ) + 1) ^ 2 / 8) :=
    (div_le_div_of_nonneg_right h4 (by norm_num)).trans h3
  have h7 : (n : ℝ) * 4 ≤ 132 / 100000 * ((10 : ℝ) ^ 23 * n / (8 ^ 12 * 479001600)) := by
    have : 132 / 100000 * ((10 : ℝ) ^ 23 * n / (8 ^ 12 * 479001600)) = n * (132 / 100000 * (10 ^ 23 / (8 ^ 12 * 479001600))) := by ring
    rw [this]
    refine mul_le_mul_of_nonneg_left (by norm_num) (by linarith)
  exact h7.trans (mul_le_mul_of_nonneg_left h6 (by norm_num))

theorem aliased_nine : Spec.aliased 9 1 ≤ 36 / 10000 := by
  unfold Spec.aliased
  have hp := pi_sq_gt
  have h1 : Real.exp (-2 * Real.pi ^ 2 * 1 ^ 2 * (((9 + 1) / 2 : ℕ) : ℝ) ^ 2 / ((9 : ℕ) : ℝ) ^ 2) ≤ 227 / 100000 := by
    refine (Real.exp_le_exp.2 (?_ : _ ≤ -(609 / 100 : ℝ))).trans
      (exp_neg_le 24 (by norm_num) (by norm_num [Finset.sum_range_succ, Nat.factorial]) (by norm_num))
    norm_num
    linarith
  have h2 : Real.exp (-2 * Real.pi ^ 2 * 1 ^ 2 * (((9 + 1) / 2 : ℕ) : ℝ) / ((9 : ℕ) : ℝ) ^ 2) ≤ 296 / 1000 := by
    refine (Real.exp_le_exp.2 (?_ : _ ≤ -(1218 / 1000 : ℝ))).trans
      (exp_neg_le 12 (by norm_num) (by norm_num [Finset.sum_range_succ, Nat.factorial]) (by norm_num))
    norm_num
    linarith
  have h3 := sqrt_two_pi_le
  have h4 := Real.sqrt_nonneg (2 * Real.pi)
  rw [div_le_iff₀ (by linarith)]
  have h5 : 4 * (1 * Real.sqrt (2 * Real.pi) / ((9 : ℕ) : ℝ)) ≤ 4 * (251 / 100) / 9 := by push_cast; linarith
  refine (mul_le_mul h5 h1 (Real.exp_pos _).le (by norm_num)).trans ?_
  linarith

omit [NeZero n] in
theorem aliased_ten (h : 10 ≤ n) : Spec.aliased n 1 ≤ 147 / 10000 := by
  unfold Spec.aliased
  have hp := pi_sq_gt
  have hn : (10 : ℝ) ≤ n := by exact_mod_cast h
  have hn0 : (0 : ℝ) < n := by linarith
  set K : ℝ := (((n + 1) / 2 : ℕ) : ℝ) with hK
  have hKn : (n : ℝ) ≤ 2 * K := by
    rw [hK]
    have : n ≤ 2 * ((n + 1) / 2) := by omega
    exact_mod_cast this
  have h1 : Real.exp (-2 * Real.pi ^ 2 * 1 ^ 2 * K ^ 2 / (n : ℝ) ^ 2) ≤ 72 / 10000 := by
    refine (Real.exp_le_exp.2 (?_ : _ ≤ -(4934 / 1000 : ℝ))).trans
      (exp_neg_le 20 (by norm_num) (by norm_num [Finset.sum_range_succ, Nat.factorial]) (by norm_num))
    rw [div_le_iff₀ (by positivity)]
    have : (n : ℝ) ^ 2 ≤ 4 * K ^ 2 := by nlinarith
    nlinarith
  have h2 : Real.exp (-2 * Real.pi ^ 2 * 1 ^ 2 * K / (n : ℝ) ^ 2) ≤ n / (n + 9869 / 1000) := by
    refine (Real.exp_le_exp.2 (?_ : _ ≤ -((9869 / 1000 : ℝ) / n))).trans ?_
    · rw [div_le_iff₀ (by positivity)]
      have : -((9869 / 1000 : ℝ) / n) * n ^ 2 = -(9869 / 1000 * n) := by field_simp
      rw [this]
      nlinarith
    · rw [Real.exp_neg]
      have h3 := Real.add_one_le_exp ((9869 / 1000 : ℝ) / n)
      have h4 : (n : ℝ) / (n + 9869 / 1000) = ((9869 / 1000 : ℝ) / n + 1)⁻¹ := by field_simp; ring
      rw [h4]
      exact inv_anti₀ (by positivity) h3
  have h3 := sqrt_two_pi_le
  have h4 := Real.sqrt_nonneg (2 * Real.pi)
  have h6 : (9869 / 1000 : ℝ) / (n + 9869 / 1000) ≤ 1 - Real.exp (-2 * Real.pi ^ 2 * 1 ^ 2 * K / (n : ℝ) ^ 2) := by
    have : (n : ℝ) / (n + 9869 / 1000) = 1 - (9869 / 1000 : ℝ) / (n + 9869 / 1000) := by field_simp; ring
    linarith
  have h7 : 0 < (9869 / 1000 : ℝ) / (n + 9869 / 1000) := by positivity
  have h5 : 4 * (1 * Real.sqrt (2 * Real.pi) / (n : ℝ)) ≤ 4 * (251 / 100) / n := by
    rw [one_mul, ← mul_div_assoc]
    exact div_le_div_of_nonneg_right (by linarith) hn0.le
  have h8 := mul_le_mul h5 h1 (Real.exp_pos _).le (by positivity)
  refine (div_le_div₀ (by positivity) h8 h7 h6).trans ?_
  rw [div_le_iff₀ h7]
  rw [div_mul_eq_mul_div, div_le_iff₀ hn0]
  have : 147 / 10000 * (9869 / 1000 / ((n : ℝ) + 9869 / 1000)) * n = 147 / 10000 * (9869 / 1000) * (n / (n + 9869 / 1000)) := by ring
  rw [this]
  have h9 : (10 / (10 + 9869 / 1000) : ℝ) ≤ n / (n + 9869 / 1000) := by
    rw [div_le_div_iff₀ (by norm_num) (by positivity)]
    nlinarith
  refine le_trans (by norm_num) (mul_le_mul_of_nonneg_left h9 (by norm_num))

omit [NeZero n] in
/-- the error of the unit star in a frame of at least nine pixels, at most two and a half pixels outside the frame -/
theorem unit_error (h9 : 9 ≤ n) (t : ℝ) (ht : |t - ((n : ℝ) - 1) / 2| ≤ (n : ℝ) / 2 + 2) :
    Spec.starError n 1 (((n : ℝ) - 1) / 2) t ≤ 489 / 10000 ∧
    (Spec.starError n 1 (((n : ℝ) - 1) / 2) t ≤ 166 / 10000 ∨ Spec.star 1 (((n : ℝ) - 1) / 2) t ≤ 5 / 100000) ∧
    (|t - ((n : ℝ) - 1) / 2| ≤ (n : ℝ) / 2 → Spec.starError n 1 (((n : ℝ) - 1) / 2) t ≤ 166 / 10000) := by
  have hn : (9 : ℝ) ≤ n := by exact_mod_cast h9
  have hT := trunc_le h9
  have hQ := (geom_tail_le h9).1
  set u := |t - ((n : ℝ) - 1) / 2| with hu
  have hu0 : 0 ≤ u := abs_nonneg _
  have hA : Spec.aliased n 1 ≤ 147 / 10000 := by
    by_cases h : n = 9
    · have := aliased_nine
      rw [h]; linarith
    · exact aliased_ten (by omega)
  have h10 : Real.exp (-10) ≤ 5 / 100000 :=
    exp_neg_le 24 (by norm_num) (by norm_num [Finset.sum_range_succ, Nat.factorial]) (by norm_num)
  have hin : u ≤ (n : ℝ) / 2 → Spec.starError n 1 (((n : ℝ) - 1) / 2) t ≤ 166 / 10000 := by
    intro h
    have hg : Spec.star 1 0 (n - u) ≤ 5 / 100000 := by
      refine le_trans (Real.exp_le_exp.2 ?_) h10
      nlinarith
    unfold Spec.starError Spec.spill at *
    rw [← hu]
    linarith
  refine ⟨?_, ?_, hin⟩
  · by_cases h : n = 9
    · have hg : Spec.star 1 0 (n - u) ≤ 4395 / 100000 := by
        refine le_trans (Real.exp_le_exp.2 (?_ : _ ≤ -(3125 / 1000 : ℝ)))
          (exp_neg_le 20 (by norm_num) (by norm_num [Finset.sum_range_succ, Nat.factorial]) (by norm_num))
        have : (n : ℝ) = 9 := by rw [h]; norm_num
        rw [this] at ht ⊢
        nlinarith
      have hA9 : Spec.aliased n 1 ≤ 36 / 10000 := by rw [h]; exact aliased_nine
      unfold Spec.starError Spec.spill at *
      rw [← hu]
      linarith
    · have h10n : (10 : ℝ) ≤ n := by exact_mod_cast (by omega : 10 ≤ n)
      have hg : Spec.star 1 0 (n - u) ≤ 112 / 10000 := by
        refine le_trans (Real.exp_le_exp.2 (?_ : _ ≤ -(45 / 10 : ℝ)))
          (exp_neg_le 20 (by norm_num) (by norm_num [Finset.sum_range_succ, Nat.factorial]) (by norm_num))
        nlinarith
      unfold Spec.starError Spec.spill at *
      rw [← hu]
      linarith
  · by_cases h : u ≤ (n : ℝ) / 2
    · exact Or.inl (hin h)
    · right
      refine le_trans (Real.exp_le_exp.2 ?_) h10
      have h' : (n : ℝ) / 2 < u := not_le.1 h
      rw [← sq_abs, ← hu]
      nlinarith

/-- one axis of the shifted unit star -/
theorem axis_error (h9 : 9 ≤ n) (d : ℝ) (hd : |d| ≤ 5 / 2) (i : Fin n) :
    ‖filt (fun k => ex (-(d * Np.fftfreq n k))) (fun j : Fin n => ((Spec.star 1 (((n : ℝ) - 1) / 2) ((j : ℕ) : ℝ) : ℝ) : ℂ)) i
        - ((Spec.star 1 (((n : ℝ) - 1) / 2 + d) ((i : ℕ) : ℝ) : ℝ) : ℂ)‖ ≤ 489 / 10000 ∧
    (‖filt (fun k => ex (-(d * Np.fftfreq n k))) (fun j : Fin n => ((Spec.star 1 (((n : ℝ) - 1) / 2) ((j : ℕ) : ℝ) : ℝ) : ℂ)) i
        - ((Spec.star 1 (((n : ℝ) - 1) / 2 + d) ((i : ℕ) : ℝ) : ℝ) : ℂ)‖ ≤ 166 / 10000 ∨
      Spec.star 1 (((n : ℝ) - 1) / 2 + d) ((i : ℕ) : ℝ) ≤ 5 / 100000) := by
  have hn : (9 : ℝ) ≤ n := by exact_mod_cast h9
  have hi : ((i : ℕ) : ℝ) + 1 ≤ n := by exact_mod_cast i.isLt
  have hi0 : (0 : ℝ) ≤ ((i : ℕ) : ℝ) := Nat.cast_nonneg _
  obtain ⟨hd1, hd2⟩ := abs_le.1 hd
  have ht : |((i : ℕ) : ℝ) - d - ((n : ℝ) - 1) / 2| ≤ (n : ℝ) / 2 + 2 := by rw [abs_le]; constructor <;> linarith
  obtain ⟨u1, u2, -⟩ := unit_error h9 _ ht
  have h1 := interpC_displaced (fun j : Fin n => Spec.star 1 (((n : ℝ) - 1) / 2) ((j : ℕ) : ℝ)) d i
  have h2 := interpC_gauss (n := n) one_pos (((n : ℝ) - 1) / 2) (((i : ℕ) : ℝ) - d)
    (centre_ok ⟨by linarith, by linarith⟩) (ht.trans (by linarith))
  have h3 : Spec.star 1 (((n : ℝ) - 1) / 2) (((i : ℕ) : ℝ) - d) = Spec.star 1 (((n : ℝ) - 1) / 2 + d) ((i : ℕ) : ℝ) := by
    unfold Spec.star; congr 3; ring
  rw [h1, h3, ← Complex.norm_conj, map_sub, Complex.conj_conj, Complex.conj_ofReal] at h2
  rw [h3] at u2
  exact ⟨h2.trans u1, u2.imp (fun h => h2.trans h) id⟩

/-- C140, the claim of the project's own test for all frame sizes and all real shifts: a Gaussian of width 1 in the middle of a
vector of at least nine pixels, shifted by at most two and a half pixels, is everywhere within 0.05 of the displaced Gaussian. -/
theorem C140_test_1d (cfg : FFTConfig) (h9 : 9 ≤ n) (d : ℝ) (hd : |d| ≤ 5 / 2) (ra : Bool) :
    ∃ y : Fin n → ℝ,
      shiftnd (D := 1) (s := fun _ => n) cfg (rArr fun i => Real.exp (-((((i 0 : Fin n) : ℕ) : ℝ) - ((n : ℝ) - 1) / 2) ^ 2 / 2))
        [d] 0 ra true = .real (realArr fun i => y (i 0)) ∧
      ∀ i, |y i - Real.exp (-(((i : ℕ) : ℝ) - ((n : ℝ) - 1) / 2 - d) ^ 2 / 2)| < 5 / 100 := by
  refine ⟨fun i => (filt (fun k => ex (-(d * Np.fftfreq n k)))
    (fun j : Fin n => ((Spec.star 1 (((n : ℝ) - 1) / 2) ((j : ℕ) : ℝ) : ℝ) : ℂ)) i).re, ?_, fun i => ?_⟩
  · rw [shiftnd_eq, shiftReturn_real, denan_rArr]
    congr 1
    funext i
    simp only [realArr]
    congr 2
    have := filt_pi_prod (D := 1) (s := fun _ => n)
      (fun _ (j : Fin n) => ((Spec.star 1 (((n : ℝ) - 1) / 2) ((j : ℕ) : ℝ) : ℝ) : ℂ)) (fun _ => d) i
    simp only [Fin.prod_univ_one, List.ofFn_succ, List.ofFn_zero] at this
    rw [← this]
    congr 1
    funext j
    unfold Spec.star
    norm_num
  · have h := abs_re_sub_le (axis_error h9 d hd i).1
    have h3 : Spec.star 1 (((n : ℝ) - 1) / 2 + d) ((i : ℕ) : ℝ) = Real.exp (-(((i : ℕ) : ℝ) - ((n : ℝ) - 1) / 2 - d) ^ 2 / 2) := by
      unfold Spec.star
      congr 1
      ring
    rw [← h3]
    exact lt_of_le_of_lt h (by norm_num)

/-- C140 for a full-size zoom: a Gaussian of width 1 in the middle of a vector of at least nine pixels, zoomed by any integer
factor, is everywhere within 0.017 of the Gaussian on the returned coordinates. -/
theorem C140_test_zoom (cfg : FFTConfig) (h9 : 9 ≤ n) (us : ℕ) (hus : 0 < us) :
    ∃ xs y : Fin (n * us) → ℝ,
      zoom1d cfg (rArr fun i : Fin n => Real.exp (-(((i : ℕ) : ℝ) - ((n : ℝ) - 1) / 2) ^ 2 / 2)) us (some (n * us)) 0 true true
        = .ok (.withX (Arr.ofVec xs) ⟨n * us, .real (realArr y)⟩) ∧
      ∀ i, |y i - Real.exp (-(xs i - ((n : ℝ) - 1) / 2) ^ 2 / 2)| < 17 / 1000 := by
  have hn : (9 : ℝ) ≤ n := by exact_mod_cast h9
  have hg : ∀ t : ℝ, Real.exp (-(t - ((n : ℝ) - 1) / 2) ^ 2 / 2) = Spec.star 1 (((n : ℝ) - 1) / 2) t := by
    intro t; unfold Spec.star; congr 1; ring
  simp_rw [hg]
  have hus' : (us : ℝ) ≠ 0 := by exact_mod_cast hus.ne'
  obtain ⟨xs, y, h1, -, -, h4⟩ := C140_zoom1d (n := n) cfg (σ := 1) one_pos (c := ((n : ℝ) - 1) / 2) ⟨by linarith, by linarith⟩
    us hus' (some (n * us)) (n * us) rfl 0
  obtain ⟨xs', r, g1, -, -, g4⟩ := C16_grid_range cfg (fun i : Fin n => ((Spec.star 1 (((n : ℝ) - 1) / 2) ((i : ℕ) : ℝ) : ℝ) : ℂ)) us hus true
  have hx : xs = xs' := by
    rw [rArr_eq_cArr] at h1
    have := Except.ok.inj (h1.symm.trans g1)
    injection this with hA _
    unfold Arr.ofVec at hA
    injection hA with _ hv
    funext i
    have := congrFun hv [(i : ℕ)]
    simpa using this
  subst hx
  refine ⟨xs, y, h1, fun i => ?_⟩
  obtain ⟨a, b⟩ := g4 i
  have ht : |xs i - ((n : ℝ) - 1) / 2| ≤ (n : ℝ) / 2 := by rw [abs_le]; constructor <;> linarith
  have h5 := (unit_error h9 (xs i) (ht.trans (by linarith))).2.2 ht
  exact lt_of_le_of_lt ((h4 i (ht.trans (by linarith))).trans h5) (by norm_num)

end unit

/-- C140: the threshold of the test is nearly attained, because shifts wrap around: in nine pixels, a shift by 2.5 puts more than
0.035 of the star's light on pixel 0, at 6.5 pixels from its new centre, where the star itself is below 0.0001. -/
theorem C140_wraps (cfg : FFTConfig) (ra : Bool) :
    ∃ y : Fin 9 → ℝ,
      shiftnd (D := 1) (s := fun _ => 9) cfg (rArr fun i => Real.exp (-((((i 0 : Fin 9) : ℕ) : ℝ) - 4) ^ 2 / 2))
        [5 / 2] 0 ra true = .real (realArr fun i => y (i 0)) ∧
      35 / 1000 < y 0 ∧ Real.exp (-((0 : ℝ) - 4 - 5 / 2) ^ 2 / 2) < 1 / 10000 := by
  obtain ⟨y, h1, h2⟩ := C140_periodic (n := 9) cfg (σ := 1) one_pos (c := 4) ⟨by norm_num, by norm_num⟩ (5 / 2) ra
  refine ⟨y, ?_, ?_, ?_⟩
  · rw [← h1]
    congr 2
    funext i
    unfold Spec.star
    congr 1
    ring
  · have h3 := h2 0
    have hT := trunc_le (n := 9) le_rfl
    rw [show (((9 : ℕ) : ℝ) - 1) / 2 = 4 by norm_num] at hT
    have hA := aliased_nine
    have hP : Spec.star 1 4 (-(5 / 2 : ℝ) - ((9 : ℕ) : ℝ) * ((-1 : ℤ) : ℝ))
        ≤ ∑' k : ℤ, Spec.star 1 4 (-(5 / 2 : ℝ) - ((9 : ℕ) : ℝ) * k) :=
      (summable_gauss (n := 9) one_pos 4 (-(5 / 2))).le_tsum (-1 : ℤ) (fun k _ => (gauss_pos _ _ _).le)
    have hS : ∑' k : ℤ, Spec.star 1 (4 + 5 / 2 + ((9 : ℕ) : ℝ) * k) (((0 : Fin 9) : ℕ) : ℝ)
        = ∑' k : ℤ, Spec.star 1 4 (-(5 / 2 : ℝ) - ((9 : ℕ) : ℝ) * k) := by
      refine tsum_congr fun k => ?_
      unfold Spec.star
      congr 3
      simp
      ring
    rw [hS] at h3
    have hg : (43 / 1000 : ℝ) ≤ Spec.star 1 4 (-(5 / 2 : ℝ) - ((9 : ℕ) : ℝ) * ((-1 : ℤ) : ℝ)) := by
      unfold Spec.star
      have e1 : -(-(5 / 2 : ℝ) - ((9 : ℕ) : ℝ) * ((-1 : ℤ) : ℝ) - 4) ^ 2 / (2 * 1 ^ 2) = -(25 / 8 : ℝ) := by norm_num
      rw [e1]
      have e2 : Real.exp (25 / 8 : ℝ) = Real.exp 1 ^ 3 * Real.exp (1 / 8) := by
        rw [← Real.exp_nat_mul, ← Real.exp_add]; norm_num
      have e3 := Real.exp_one_lt_d9
      have e4 : Real.exp (1 / 8 : ℝ) ≤ 8 / 7 := by
        have := Real.add_one_le_exp (-(1 / 8) : ℝ)
        rw [Real.exp_neg] at this
        have h0 := Real.exp_pos (1 / 8 : ℝ)
        rw [le_inv_comm₀ (by norm_num) h0] at this
        exact this.trans (by norm_num)
      have e5 : Real.exp 1 ^ 3 ≤ 2.7182818286 ^ 3 := pow_le_pow_left₀ (Real.exp_pos 1).le e3.le 3
      have e6 : Real.exp (25 / 8 : ℝ) ≤ 2.7182818286 ^ 3 * (8 / 7) := by
        rw [e2]; exact mul_le_mul e5 e4 (Real.exp_pos _).le (by norm_num)
      rw [Real.exp_neg, le_inv_comm₀ (by norm_num) (Real.exp_pos _)]
      exact e6.trans (by norm_num)
    have := (abs_le.1 h3).1
    linarith
  · refine lt_of_le_of_lt (Real.exp_le_exp.2 (?_ : _ ≤ -(12 : ℝ))) ?_
    · norm_num
    · refine lt_of_le_of_lt (exp_neg_le (b := 1 / 20000) 24 (by norm_num)
        (by norm_num [Finset.sum_range_succ, Nat.factorial]) (by norm_num)) (by norm_num)

/-- C140, the project's two-dimensional tests for all frame sizes and all real shifts (two-sided: the assertions in
fft_tools/tests/test_shift.py:23,47 bound the error from above only, because of a misplaced parenthesis). -/
theorem C140_test_2d (cfg : FFTConfig) (s : Fin 2 → ℕ) [∀ d, NeZero (s d)] (h9 : ∀ d, 9 ≤ s d) (dy dx : ℝ)
    (hy : |dy| ≤ 5 / 2) (hx : |dx| ≤ 5 / 2) (ra : Bool) :
    ∃ y : (∀ d, Fin (s d)) → ℝ,
      shiftnd cfg (rArr fun i : (∀ d, Fin (s d)) => Real.exp (-((((i 0 : ℕ) : ℝ) - ((s 0 : ℝ) - 1) / 2) ^ 2
          + (((i 1 : ℕ) : ℝ) - ((s 1 : ℝ) - 1) / 2) ^ 2) / 2)) [dy, dx] 0 ra true = .real (realArr y) ∧
      ∀ i, |y i - Real.exp (-((((i 0 : ℕ) : ℝ) - ((s 0 : ℝ) - 1) / 2 - dy) ^ 2
          + (((i 1 : ℕ) : ℝ) - ((s 1 : ℝ) - 1) / 2 - dx) ^ 2) / 2)| < 5 / 100 := by
  refine ⟨_, by rw [shiftnd_eq, shiftReturn_real, denan_rArr], fun i => ?_⟩
  have hprod : (fun i : (∀ d, Fin (s d)) => ((Real.exp (-((((i 0 : ℕ) : ℝ) - ((s 0 : ℝ) - 1) / 2) ^ 2
          + (((i 1 : ℕ) : ℝ) - ((s 1 : ℝ) - 1) / 2) ^ 2) / 2) : ℝ) : ℂ))
      = fun i => ∏ d, (fun j : Fin (s d) => ((Spec.star 1 (((s d : ℝ) - 1) / 2) ((j : ℕ) : ℝ) : ℝ) : ℂ)) (i d) := by
    funext i
    rw [Fin.prod_univ_two, ← Complex.ofReal_mul]
    unfold Spec.star
    rw [← Real.exp_add]
    congr 2
    ring
  have hf := filt_pi_prod (fun d (j : Fin (s d)) => ((Spec.star 1 (((s d : ℝ) - 1) / 2) ((j : ℕ) : ℝ) : ℝ) : ℂ)) ![dy, dx] i
  have hl : List.ofFn ![dy, dx] = [dy, dx] := by simp
  rw [hl, Fin.prod_univ_two] at hf
  simp only [Matrix.cons_val_zero, Matrix.cons_val_one] at hf
  have h0 := axis_error (h9 0) dy hy (i 0)
  have h1 := axis_error (h9 1) dx hx (i 1)
  have ht : Real.exp (-((((i 0 : ℕ) : ℝ) - ((s 0 : ℝ) - 1) / 2 - dy) ^ 2
          + (((i 1 : ℕ) : ℝ) - ((s 1 : ℝ) - 1) / 2 - dx) ^ 2) / 2)
      = Spec.star 1 (((s 0 : ℝ) - 1) / 2 + dy) ((i 0 : ℕ) : ℝ) * Spec.star 1 (((s 1 : ℝ) - 1) / 2 + dx) ((i 1 : ℕ) : ℝ) := by
    unfold Spec.star
    rw [← Real.exp_add]
    congr 1
    ring
  rw [ht]
  refine lt_of_le_of_lt (abs_re_sub_le (b := 4985 / 100000) ?_) (by norm_num)
  rw [hprod, hf, Complex.ofReal_mul]
  have hg0 := gauss_pos 1 (((s 0 : ℝ) - 1) / 2 + dy) ((i 0 : ℕ) : ℝ)
  have hg1 := gauss_pos 1 (((s 1 : ℝ) - 1) / 2 + dx) ((i 1 : ℕ) : ℝ)
  have hG0 := gauss_le_one 1 (((s 0 : ℝ) - 1) / 2 + dy) ((i 0 : ℕ) : ℝ)
  have hG1 := gauss_le_one 1 (((s 1 : ℝ) - 1) / 2 + dx) ((i 1 : ℕ) : ℝ)
  revert h0 h1 hg0 hg1 hG0 hG1
  generalize filt (fun k => ex (-(dy * Np.fftfreq (s 0) k)))
    (fun j : Fin (s 0) => ((Spec.star 1 (((s 0 : ℝ) - 1) / 2) ((j : ℕ) : ℝ) : ℝ) : ℂ)) (i 0) = F
  generalize filt (fun k => ex (-(dx * Np.fftfreq (s 1) k)))
    (fun j : Fin (s 1) => ((Spec.star 1 (((s 1 : ℝ) - 1) / 2) ((j : ℕ) : ℝ) : ℝ) : ℂ)) (i 1) = H
  generalize Spec.star 1 (((s 0 : ℝ) - 1) / 2 + dy) ((i 0 : ℕ) : ℝ) = g
  generalize Spec.star 1 (((s 1 : ℝ) - 1) / 2 + dx) ((i 1 : ℕ) : ℝ) = h
  intro h0 h1 hg0 hg1 hG0 hG1
  have ng : ‖(g : ℂ)‖ = g := by rw [Complex.norm_real, Real.norm_of_nonneg hg0.le]
  have nh : ‖(h : ℂ)‖ = h := by rw [Complex.norm_real, Real.norm_of_nonneg hg1.le]
  have nF : ‖F‖ ≤ g + ‖F - (g : ℂ)‖ := by
    have := norm_add_le (g : ℂ) (F - g)
    rw [add_sub_cancel, ng] at this
    exact this
  have nH : ‖H‖ ≤ h + ‖H - (h : ℂ)‖ := by
    have := norm_add_le (h : ℂ) (H - h)
    rw [add_sub_cancel, nh] at this
    exact this
  have b1 : ‖F * H - (g : ℂ) * (h : ℂ)‖ ≤ ‖F‖ * ‖H‖ + g * h := by
    refine (norm_sub_le _ _).trans (le_of_eq ?_)
    rw [norm_mul, norm_mul, ng, nh]
  have b2 : ‖F * H - (g : ℂ) * (h : ℂ)‖ ≤ ‖F‖ * ‖H - (h : ℂ)‖ + ‖F - (g : ℂ)‖ * h := by
    have : F * H - (g : ℂ) * (h : ℂ) = F * (H - h) + (F - g) * h := by ring
    rw [this]
    refine (norm_add_le _ _).trans (le_of_eq ?_)
    rw [norm_mul, norm_mul, nh]
  have p0 := norm_nonneg (F - (g : ℂ))
  have p1 := norm_nonneg (H - (h : ℂ))
  have pF := norm_nonneg F
  have pH := norm_nonneg H
  obtain ⟨a0, h0⟩ := h0
  obtain ⟨a1, h1⟩ := h1
  rcases h0 with h0 | h0 <;> rcases h1 with h1 | h1
  · refine b2.trans ?_
    have : ‖F‖ ≤ 10166 / 10000 := by linarith
    nlinarith
  · refine b1.trans ?_
    have e1 : ‖F‖ ≤ 10166 / 10000 := by linarith
    have e2 : ‖H‖ ≤ 4895 / 100000 := by linarith
    have e3 := mul_le_mul e1 e2 pH (by norm_num)
    have e4 : g * h ≤ 1 * (5 / 100000) := mul_le_mul hG0 h1 hg1.le (by norm_num)
    linarith
  · refine b1.trans ?_
    have e1 : ‖H‖ ≤ 10166 / 10000 := by linarith
    have e2 : ‖F‖ ≤ 4895 / 100000 := by linarith
    have e3 := mul_le_mul e2 e1 pH (by norm_num)
    have e4 : g * h ≤ (5 / 100000) * 1 := mul_le_mul h0 hG1 hg1.le (by norm_num)
    linarith
  · refine b1.trans ?_
    have e1 : ‖H‖ ≤ 4895 / 100000 := by linarith
    have e2 : ‖F‖ ≤ 4895 / 100000 := by linarith
    have e3 := mul_le_mul e2 e1 pH (by norm_num)
    have e4 : g * h ≤ (5 / 100000) * 1 := mul_le_mul h0 hG1 hg1.le (by norm_num)
    linarith

end ImgReg
