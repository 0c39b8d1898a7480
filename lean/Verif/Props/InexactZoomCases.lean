import Verif.Props.InexactZoom

/-! # Operations and images that meet the hypotheses of C114 -/

open Complex Finset

namespace ImgReg

/-- exact operations -/
noncomputable def ZoomArith.exact : ZoomArith where
  toShiftArith := ShiftArith.exact
  divR := fun x y => x / y
  dot := fun a b i => ∑ l, a (i.1, l) * b (l, i.2)
  linspace := fun a b n i => Np.linspace a b n i

theorem ZoomArith.exact_accurate : Spec.ZoomAccurate ZoomArith.exact 0 where
  base := ShiftArith.exact_accurate
  divR := fun x y _ => by simp [ZoomArith.exact]
  dot := fun a b i => by simp [ZoomArith.exact]
  linspace := fun a b n i => by simp [ZoomArith.exact]

/-- operations that are all wrong by a relative error `δ` -/
noncomputable def ZoomArith.biased (δ : ℝ) : ZoomArith where
  toShiftArith := ShiftArith.biased δ
  divR := fun x y => (1 - δ) * (x / y)
  dot := fun a b i => (1 + δ : ℝ) * ∑ l, a (i.1, l) * b (l, i.2)
  linspace := fun a b n i => (1 - δ) * Np.linspace a b n i

theorem ZoomArith.biased_accurate (δ : ℝ) (h0 : 0 ≤ δ) : Spec.ZoomAccurate (ZoomArith.biased δ) δ where
  base := ShiftArith.biased_accurate δ h0
  divR := fun x y _ => by
    have e : (ZoomArith.biased δ).divR x y - x / y = -(δ * (x / y)) := by simp only [ZoomArith.biased]; ring
    rw [e, abs_neg, abs_mul, abs_of_nonneg h0]
  dot := fun a b i => by
    have e : (ZoomArith.biased δ).dot a b i - ∑ l, a (i.1, l) * b (l, i.2) = (δ : ℂ) * ∑ l, a (i.1, l) * b (l, i.2) := by
      simp only [ZoomArith.biased]; push_cast; ring
    rw [e, norm_mul, Complex.norm_real, Real.norm_of_nonneg h0]
    refine mul_le_mul_of_nonneg_left ((norm_sum_le _ _).trans (le_of_eq ?_)) h0
    exact sum_congr rfl fun l _ => norm_mul _ _
  linspace := fun a b n i => by
    have e : (ZoomArith.biased δ).linspace a b n i - Np.linspace a b n i = -(δ * Np.linspace a b n i) := by
      simp only [ZoomArith.biased]; ring
    rw [e, abs_neg, abs_mul, abs_of_nonneg h0]
    refine mul_le_mul_of_nonneg_left ?_ h0
    obtain ⟨w, w0, w1, hw⟩ := linspace_convex i
    rw [hw]
    refine (abs_add_le _ _).trans ?_
    rw [abs_mul, abs_mul, abs_of_nonneg w0, abs_of_nonneg (by linarith : 0 ≤ 1 - w)]
    have h1 := mul_le_mul_of_nonneg_left (le_max_left |a| |b|) (by linarith : 0 ≤ 1 - w)
    have h2 := mul_le_mul_of_nonneg_left (le_max_right |a| |b|) w0
    linarith

/-- the 2 × 3 image with one bright pixel of the examples below -/
noncomputable def caseImage : Fin 2 × Fin 3 → ℝ := fun p => if p = ((0 : Fin 2), (0 : Fin 3)) then (1 : ℝ) else 0

theorem case_roll (ey ex : ℤ) : Spec.roll2 ey ex caseImage = fun p => if p = (Spec.wrap 2 ey, Spec.wrap 3 ex) then 1 else 0 := by
  funext p
  unfold Spec.roll2
  simp only [caseImage, Prod.ext_iff]
  have key : ∀ (n : ℕ) [NeZero n] (i : Fin n) (e : ℤ), Spec.wrap n (((i : ℕ) : ℤ) - e) = 0 ↔ i = Spec.wrap n e := by
    intro n _ i e
    rw [Spec.wrap_eq_iff, eq_comm (a := i), Spec.wrap_eq_iff]
    simp only [Fin.val_zero, Nat.cast_zero, Int.modEq_iff_dvd]
    constructor
    · rintro ⟨z, hz⟩; exact ⟨-z, by linarith⟩
    · rintro ⟨z, hz⟩; exact ⟨-z, by linarith⟩
  simp only [key]

theorem case_dist (q r : Fin 2 × Fin 3) :
    ∑ p : Fin 2 × Fin 3, ((if p = q then (1 : ℝ) else 0) - (if p = r then 1 else 0)) ^ 2 / 1 ^ 2 = if q = r then 0 else 2 := by
  split_ifs with h
  · rw [h]; simp
  · have e : ∀ p : Fin 2 × Fin 3, ((if p = q then (1 : ℝ) else 0) - (if p = r then 1 else 0)) ^ 2 / 1 ^ 2
          = (if p = q then (1 : ℝ) else 0) + (if p = r then 1 else 0) := by
      intro p
      by_cases hp : p = q
      · rw [if_pos hp, if_neg (by rw [hp]; exact h)]; norm_num
      · rw [if_neg hp]; split_ifs <;> norm_num
    simp only [e]
    rw [Finset.sum_add_distrib]
    simp
    norm_num

/-- The map of `caseImage` and `caseImage` moved one column to the right: 0 at one pixel, 2 at the others; and the error bounds for
`δ = 10⁻⁵`. -/
theorem case_facts (cfg : FFTConfig) : ∃ c : Fin 2 × Fin 3 → ℝ,
    chi2nMap cfg (realArr caseImage) (realArr fun p => Spec.roll2 0 1 caseImage p + 0) .none false false false true = .ok (.only c) ∧
    (∀ i, c i = if i = ((0 : Fin 2), (0 : Fin 3)) then 0 else 2) ∧
    Spec.chi2Err (1 / 10 ^ 5) false (realArr caseImage) (realArr fun p => Spec.roll2 0 1 caseImage p + 0) (.none : ErrArg 2 3) ≤ 1 / 2000 ∧
    Spec.zoomErr (1 / 10 ^ 5)
      (Spec.chi2Err (1 / 10 ^ 5) false (realArr caseImage) (realArr fun p => Spec.roll2 0 1 caseImage p + 0) (.none : ErrArg 2 3))
      c ((0 : Fin 2), (0 : Fin 3)) 1 2 3 ≤ 1 / 10 ∧
    Spec.zoomReach (Spec.zoomCentre 2 (0 : Fin 2)) 1 2 = 1 ∧ Spec.zoomReach (Spec.zoomCentre 3 (0 : Fin 3)) 1 3 = 1 := by
  obtain ⟨cm, hcm, hchi⟩ := chi2nMapBody_chi2 cfg (realArr caseImage) (realArr fun p => Spec.roll2 0 1 caseImage p + 0) .none false true (.inl rfl)
  have hc : chi2nMap cfg (realArr caseImage) (realArr fun p => Spec.roll2 0 1 caseImage p + 0) .none false false false true
      = .ok (.only cm.chi2) := by
    rw [chi2nMap_same, hcm]; rfl
  have hone : ∀ q : Fin 2 × Fin 3, ∑ p : Fin 2 × Fin 3, (if p = q then (1 : ℝ) else 0) ^ 2 = 1 := by
    intro q; simp
  have hceq : ∀ i, cm.chi2 i = if i = ((0 : Fin 2), (0 : Fin 3)) then 0 else 2 := by
    intro i
    have e : cm.chi2 i = ∑ p, (Spec.roll2 (Spec.lag 2 i.1) (Spec.lag 3 i.2) caseImage p - (Spec.roll2 0 1 caseImage p + 0)) ^ 2 / 1 ^ 2 := by
      rw [hchi, chi2_eq_roll]
      have pr : ∀ a : Fin 2 × Fin 3 → ℝ, prep false (realArr a) = a := by
        intro a; rw [prep_real]; funext p; simp
      rw [pr, pr]
      rfl
    rw [e]
    simp only [case_roll, add_zero]
    rw [case_dist]
    have k : ∀ i : Fin 2 × Fin 3, (Spec.wrap 2 (Spec.lag 2 i.1), Spec.wrap 3 (Spec.lag 3 i.2)) = ((Spec.wrap 2 0, Spec.wrap 3 1) : Fin 2 × Fin 3)
        ↔ i = ((0 : Fin 2), (0 : Fin 3)) := by decide
    simp only [k]
  have hcle : ∀ i, 0 ≤ cm.chi2 i ∧ cm.chi2 i ≤ 2 := by
    intro i; rw [hceq]; split_ifs <;> norm_num
  have hnorm : Real.sqrt (∑ i, cm.chi2 i ^ 2) ≤ 5 := by
    rw [Real.sqrt_le_left (by norm_num)]
    refine (sum_le_sum (g := fun _ => (4 : ℝ)) fun i _ => ?_).trans ?_
    · have := hcle i; nlinarith [this.1, this.2]
    · simp; norm_num
  have hnorm0 := Real.sqrt_nonneg (∑ i, cm.chi2 i ^ 2)
  have hT : Spec.chi2Err (1 / 10 ^ 5) false (realArr caseImage) (realArr fun p => Spec.roll2 0 1 caseImage p + 0) (.none : ErrArg 2 3) ≤ 1 / 2000 ∧
      0 ≤ Spec.chi2Err (1 / 10 ^ 5) false (realArr caseImage) (realArr fun p => Spec.roll2 0 1 caseImage p + 0) (.none : ErrArg 2 3) := by
    rw [chi2Err_false]
    simp only [add_zero, case_roll]
    rw [hone]
    have h1 : ∑ p, caseImage p ^ 2 = 1 := hone _
    rw [h1]
    have hw : Spec.maxWeight (ErrArg.none : ErrArg 2 3) = 1 := by
      unfold Spec.maxWeight Spec.errOf
      simp only [one_pow, div_one]
      exact Finset.sup'_const _ _
    have hq : Spec.errSpread (ErrArg.none : ErrArg 2 3) = 1 := rfl
    rw [hw, hq]
    norm_num
  have r2' : Spec.zoomReach (Spec.zoomCentre 2 (0 : Fin 2)) 1 2 = 1 := by
    norm_num [Spec.zoomReach, Spec.zoomCentre, Spec.zeroLag]
  have r3' : Spec.zoomReach (Spec.zoomCentre 3 (0 : Fin 3)) 1 3 = 1 := by
    norm_num [Spec.zoomReach, Spec.zoomCentre, Spec.zeroLag]
  have hK : Spec.kernelErr (1 / 10 ^ 5) 7 (Real.pi * 1) ≤ 1 / 3000 ∧ 0 ≤ Spec.kernelErr (1 / 10 ^ 5) 7 (Real.pi * 1) := by
    refine ⟨?_, kernelErr_nonneg (by norm_num) 7 zero_le_one⟩
    unfold Spec.kernelErr
    have := Real.pi_le_four
    have h2 : ((1 + 1 / 10 ^ 5 : ℝ) ^ 7 - 1) * (Real.pi * 1) ≤ ((1 + 1 / 10 ^ 5 : ℝ) ^ 7 - 1) * 4 :=
      mul_le_mul_of_nonneg_left (by linarith) (by norm_num)
    refine (add_le_add_right h2 _).trans ?_
    norm_num
  have hz : Spec.zoomErr (1 / 10 ^ 5) (Spec.chi2Err (1 / 10 ^ 5) false (realArr caseImage) (realArr fun p => Spec.roll2 0 1 caseImage p + 0) (.none : ErrArg 2 3))
      cm.chi2 ((0 : Fin 2), (0 : Fin 3)) 1 2 3 ≤ 1 / 10 := by
    unfold Spec.zoomErr
    simp only [r2', r3']
    unfold Spec.interp2Err
    obtain ⟨k1, k0⟩ := hK
    obtain ⟨t1, t0⟩ := hT
    generalize Spec.kernelErr (1 / 10 ^ 5) 7 (Real.pi * 1) = k at k1 k0
    generalize Spec.chi2Err (1 / 10 ^ 5) false (realArr caseImage) (realArr fun p => Spec.roll2 0 1 caseImage p + 0) (.none : ErrArg 2 3) = t at t1 t0
    generalize Real.sqrt (∑ i, cm.chi2 i ^ 2) = w at hnorm hnorm0
    have s6 : Real.sqrt (((2 : ℕ) : ℝ) * ((3 : ℕ) : ℝ)) ≤ 3 := by
      rw [Real.sqrt_le_left (by norm_num)]; norm_num
    have s60 := Real.sqrt_nonneg (((2 : ℕ) : ℝ) * ((3 : ℕ) : ℝ))
    generalize Real.sqrt (((2 : ℕ) : ℝ) * ((3 : ℕ) : ℝ)) = v at s6 s60
    have e1 : (1 + 1 / 10 ^ 5 : ℝ) ^ 3 * (1 + k) * (1 + k) ≤ 1 + 1 / 1000 := by
      have : (1 + k) * (1 + k) ≤ (1 + 1 / 3000) * (1 + 1 / 3000) := by nlinarith
      nlinarith
    have e2 : v * t ≤ 3 * (1 / 2000) := mul_le_mul s6 t1 t0 (by norm_num)
    have e3 : 0 ≤ v * t := mul_nonneg s60 t0
    nlinarith
  exact ⟨cm.chi2, hc, hceq, hT.1, hz, r2', r3'⟩

/-- The hypotheses of `C114_recovers_roll` can be met with operations that are all off by one part in a hundred thousand: a 2 × 3 image with one
bright pixel, moved one column to the right, and `chi2_shift` reports `(1, 0)` to three digits. -/
example (st : Stats) (hst : Spec.validStats st) (nf : ℝ) (mas : ℕ) (mns : ℝ) :
    ∃ x y, chi2ShiftA (Chi2Arith.biased (1 / 10 ^ 5)) (ZoomArith.biased (1 / 10 ^ 5)) st
      (realArr caseImage) (realArr fun p => Spec.roll2 0 1 caseImage p + 0)
      .none (.int 1) false nf false false mas mns = .ok [.num x, .num y] ∧ |x - 1| ≤ 1 / 10 ^ 3 ∧ |y| ≤ 1 / 10 ^ 3 := by
  have cfg : FFTConfig := ⟨false, false, 1⟩
  obtain ⟨c, hc, hceq, hT, hz, r2', r3'⟩ := case_facts cfg
  have hw2 : Spec.wrap 2 (((2 - 1) / 2 : ℕ) - 0) = (0 : Fin 2) := by decide
  have hw3 : Spec.wrap 3 (((3 - 1) / 2 : ℕ) - 1) = (0 : Fin 3) := by decide
  have hrep : ∀ (n : ℕ) [NeZero n] (q : Fin n), Spec.zoomReach (Spec.zoomCentre n q) 1 n = 1 → Spec.zeroLag n ≤ 1 →
      Spec.reportErr (1 / 10 ^ 5) n q 1 n ≤ 1 / 10 ^ 3 := by
    intro n _ q h1 h2
    unfold Spec.reportErr
    rw [h1]
    have : ((Spec.zeroLag n : ℕ) : ℝ) ≤ 1 := by exact_mod_cast h2
    have h3 : ((1 + 1 / 10 ^ 5 : ℝ) ^ 4 - 1) * (1 + (Spec.zeroLag n : ℕ)) ≤ ((1 + 1 / 10 ^ 5 : ℝ) ^ 4 - 1) * 2 :=
      mul_le_mul_of_nonneg_left (by linarith) (by norm_num)
    exact h3.trans (by norm_num)
  obtain ⟨x, y, h1, h2, h3⟩ := C114_recovers_roll (Chi2Arith.biased (1 / 10 ^ 5)) (ZoomArith.biased (1 / 10 ^ 5)) (1 / 10 ^ 5)
    (Chi2Arith.biased_accurate _ (by norm_num) (by norm_num)) (ZoomArith.biased_accurate _ (by norm_num)) st hst caseImage (fun _ => 0) 0 1
    (by norm_num) (by norm_num) (by norm_num) (by norm_num) (by norm_num) .none (fun _ => 1) (fun _ => one_ne_zero)
    (.inl ⟨1, rfl, fun _ => rfl⟩) cfg c hc ((0 : Fin 2), (0 : Fin 3)) (by rw [hw2, hw3]) (by
      intro ey ex hne
      have hdiff : (Spec.wrap 2 ey, Spec.wrap 3 ex) ≠ ((Spec.wrap 2 0, Spec.wrap 3 1) : Fin 2 × Fin 3) := by
        intro h
        apply hne
        have e1 := congrArg Prod.fst h
        have e2 := congrArg Prod.snd h
        simp only at e1 e2
        have b1 := Spec.wrap_modEq 2 ey
        have b2 := Spec.wrap_modEq 3 ex
        rw [e1] at b1
        rw [e2] at b2
        exact ⟨b1.symm.trans (Spec.wrap_modEq 2 0), b2.symm.trans (Spec.wrap_modEq 3 1)⟩
      have h3 : ∑ p, (Spec.roll2 ey ex caseImage p - Spec.roll2 0 1 caseImage p) ^ 2 / (1 : ℝ) ^ 2 = 2 := by
        simp only [case_roll]; rw [case_dist, if_neg hdiff]
      rw [h3]
      have h4 : ∑ p : Fin 2 × Fin 3, (0 : ℝ) ^ 2 / 1 ^ 2 = 0 := by simp
      rw [h4]
      linarith) nf mas mns
  refine ⟨x, y, h1, ?_, ?_⟩
  · have := h2.trans (hrep 3 0 r3' (by decide))
    simpa using this
  · have := h3.trans (hrep 2 0 r2' (by decide))
    simpa using this

end ImgReg
