import Verif.Lemmas.InexactChi2
import Verif.Props.Inexact
import Verif.Props.Chi2

/-!
# `correlate2d` and `chi2n_map` in floating point (C113)

What is left of the exact results when every operation has a relative error of at most `δ < 1` (`Spec.Chi2Accurate A δ`).  The map is
a difference of large numbers (`term1 + term3` against `2·correlation`), so its relative error is unbounded near the minimum; these theorems
bound the absolute error of every entry by `Spec.chi2Err δ …`, and say what this does to the minimum.
-/

open Complex Finset

namespace ImgReg

/-- exact arithmetic -/
noncomputable def Chi2Arith.exact : Chi2Arith where
  toArith := Arith.exact
  mulR := fun x y => x * y
  addR := fun x y => x + y
  divR := fun x y => x / y
  sum := fun f => ∑ p, f p
  kernelScale := fun _ => 1

theorem Chi2Arith.exact_accurate : Spec.Chi2Accurate Chi2Arith.exact 0 where
  base := Arith.exact_accurate
  lt_one := zero_lt_one
  mulR := fun x y => by simp [Chi2Arith.exact]
  addR := fun x y => by simp [Chi2Arith.exact]
  divR := fun x y _ => by simp [Chi2Arith.exact]
  sum := fun f => by simp [Chi2Arith.exact]
  kernelScale := fun _ => by simp [Chi2Arith.exact]

theorem Spec.Accurate.mono {A : Arith} {δ ε : ℝ} (h : Spec.Accurate A δ) (hle : δ ≤ ε) : Spec.Accurate A ε where
  fft := fun x => (h.fft x).trans (mul_le_mul_of_nonneg_right hle (Real.sqrt_nonneg _))
  ifft := fun y i => (h.ifft y i).trans (mul_le_mul_of_nonneg_right hle (by positivity))
  dftups := fun y s us roff coff o ho i => (h.dftups y s us roff coff o ho i).trans (mul_le_mul_of_nonneg_right hle (by positivity))
  mul := fun z w => (h.mul z w).trans (mul_le_mul_of_nonneg_right hle (norm_nonneg _))
  div := fun z r hr => (h.div z r hr).trans (mul_le_mul_of_nonneg_right hle (norm_nonneg _))
  abs := fun z => (h.abs z).trans (mul_le_mul_of_nonneg_right hle (norm_nonneg _))
  sub := fun x y => (h.sub x y).trans (mul_le_mul_of_nonneg_right hle (abs_nonneg _))
  mean := fun im him => (h.mean im him).trans (mul_le_mul_of_nonneg_right hle (by positivity))

/-- an arithmetic whose every real operation is off by the relative error `δ` (and which scales kernels by 7) -/
noncomputable def Chi2Arith.biased (δ : ℝ) : Chi2Arith where
  toArith := Arith.exact
  mulR := fun x y => x * y * (1 + δ)
  addR := fun x y => (x + y) * (1 + δ)
  divR := fun x y => x / y * (1 - δ)
  sum := fun f => (∑ p, f p) * (1 + δ)
  kernelScale := fun _ => 7

theorem Chi2Arith.biased_accurate (δ : ℝ) (h0 : 0 ≤ δ) (h1 : δ < 1) : Spec.Chi2Accurate (Chi2Arith.biased δ) δ where
  base := Arith.exact_accurate.mono h0
  lt_one := h1
  mulR := fun x y => by
    have e : x * y * (1 + δ) - x * y = δ * (x * y) := by ring
    simp only [Chi2Arith.biased, e]
    rw [abs_mul, abs_of_nonneg h0]
  addR := fun x y => by
    have e : (x + y) * (1 + δ) - (x + y) = δ * (x + y) := by ring
    simp only [Chi2Arith.biased, e]
    rw [abs_mul, abs_of_nonneg h0]
  divR := fun x y _ => by
    have e : x / y * (1 - δ) - x / y = -(δ * (x / y)) := by ring
    simp only [Chi2Arith.biased, e]
    rw [abs_neg, abs_mul, abs_of_nonneg h0]
  sum := fun f => by
    have e : (∑ p, f p) * (1 + δ) - ∑ p, f p = δ * ∑ p, f p := by ring
    simp only [Chi2Arith.biased, e]
    rw [abs_mul, abs_of_nonneg h0]
    exact mul_le_mul_of_nonneg_left (Finset.abs_sum_le_sum_abs _ _) h0
  kernelScale := fun _ => by simp [Chi2Arith.biased]

section
variable {ny nx : ℕ} [NeZero ny] [NeZero nx]

/-- C113: `correlate2d` in floating point. Every entry is within `((1+δ)^6 - 1)·‖im1‖·‖im2‖` of the sum of the products of `im1` with `im2`
displaced by the lag of the entry: pixel `[(n-1)/2 - d]` stands for the displacement `d`. -/
theorem C113_correlate2d (A : Chi2Arith) (δ : ℝ) (hA : Spec.Chi2Accurate A δ) (im1 im2 : Fin ny × Fin nx → ℝ) (dy dx : ℤ) :
    |corrA A im1 im2 (Spec.wrap ny (((ny - 1) / 2 : ℕ) - dy), Spec.wrap nx (((nx - 1) / 2 : ℕ) - dx))
        - ∑ p, im1 p * Spec.roll2 (-dy) (-dx) im2 p|
      ≤ ((1 + δ) ^ 6 - 1) * (Real.sqrt (∑ p, im1 p ^ 2) * Real.sqrt (∑ p, im2 p ^ 2)) := by
  have hr : ∀ a : Fin ny × Fin nx → ℝ, NearV a a (r2 a) (r2 a) := fun a => ⟨le_rfl, le_rfl, by simp [r2]⟩
  have h := (corrA_near hA (hr im1) (hr im2) (Spec.wrap ny (((ny - 1) / 2 : ℕ) - dy), Spec.wrap nx (((nx - 1) / 2 : ℕ) - dx))).dist
  have e : Spec.xcorr im1 im2 (Spec.wrap ny (((ny - 1) / 2 : ℕ) - dy), Spec.wrap nx (((nx - 1) / 2 : ℕ) - dx))
      = ∑ p, im1 p * Spec.roll2 (-dy) (-dx) im2 p := by
    unfold Spec.xcorr
    refine Finset.sum_congr rfl fun p _ => ?_
    have := Spec.move_congr (Spec.lag_wrap ny dy) (Spec.lag_wrap nx dx) (p := p)
    unfold Spec.lag at this
    rw [this]
    unfold Spec.move Spec.roll2
    simp only [sub_neg_eq_add]
  rw [e] at h
  refine h.trans (le_of_eq ?_)
  unfold r2; ring

/-- C113: every entry of the computed map is within `Spec.chi2Err` of the exact chi-squared of its displacement, for all images (NaNs included),
no error, a nonzero scalar error or any error image (its zeros and NaNs are replaced by 1). -/
theorem C113_map_error (A : Chi2Arith) (δ : ℝ) (hA : Spec.Chi2Accurate A δ) (cfg : FFTConfig) (im1 im2 : Fin ny × Fin nx → Pix)
    (err : ErrArg ny nx) (hs : ∀ s, err = .scalar s → s ≠ 0) (zm : Bool) :
    ∃ c : Fin ny × Fin nx → ℝ, chi2nMap cfg im1 im2 err zm false false true = .ok (.only c) ∧
      ∀ i, |chi2MapA A im1 im2 err zm i - c i| ≤ Spec.chi2Err δ zm im1 im2 err := by
  obtain ⟨m, h1, h2⟩ := chi2nMapBody_chi2 cfg im1 im2 err zm true (.inl rfl)
  refine ⟨m.chi2, by rw [chi2nMap_same, h1]; rfl, fun i => ?_⟩
  rw [h2]
  refine chi2MapA_near hA im1 im2 err zm ?_ i
  intro p
  cases err with
  | none => exact one_ne_zero
  | scalar s => exact hs s rfl
  | image e => simp only [Spec.errOf]; split_ifs with h <;> [exact one_ne_zero; exact h]

/-- C113: with error-free operations the inexact model is the exact one. -/
theorem C113_exact_arithmetic (A : Chi2Arith) (hA : Spec.Chi2Accurate A 0) (cfg : FFTConfig) (im1 im2 : Fin ny × Fin nx → Pix)
    (err : ErrArg ny nx) (hs : ∀ s, err = .scalar s → s ≠ 0) (zm : Bool) :
    chi2nMap cfg im1 im2 err zm false false true = .ok (.only (chi2MapA A im1 im2 err zm)) := by
  obtain ⟨c, h1, h2⟩ := C113_map_error A 0 hA cfg im1 im2 err hs zm
  have h0 : Spec.chi2Err 0 zm im1 im2 err = 0 := by
    unfold Spec.chi2Err Spec.prepNorm'
    cases zm <;> simp
  rw [h1]
  congr 2
  funext i
  have := h2 i
  rw [h0, abs_nonpos_iff, sub_eq_zero] at this
  exact this.symm

theorem argmin_near {m n : ℕ} [NeZero m] [NeZero n] {f g : Fin m × Fin n → ℝ} {t : ℝ} (h : ∀ i, |g i - f i| ≤ t) (i : Fin m × Fin n) :
    f (Np.argmin g) ≤ f i + 2 * t := by
  have h1 := (Np.argmin_spec g).1 i
  have a1 := abs_le.1 (h i)
  have a2 := abs_le.1 (h (Np.argmin g))
  linarith [a1.1, a1.2, a2.1, a2.2]

/-- C113: however the rounding errors fall, the pixel at which the computed map is smallest stands for a displacement whose exact chi-squared is
within twice the error bound of the smallest one. -/
theorem C113_near_optimal (A : Chi2Arith) (δ : ℝ) (hA : Spec.Chi2Accurate A δ) (cfg : FFTConfig) (im1 im2 : Fin ny × Fin nx → Pix)
    (err : ErrArg ny nx) (hs : ∀ s, err = .scalar s → s ≠ 0) (zm : Bool) :
    ∃ c : Fin ny × Fin nx → ℝ, chi2nMap cfg im1 im2 err zm false false true = .ok (.only c) ∧
      ∀ i, c (Np.argmin (chi2MapA A im1 im2 err zm)) ≤ c i + 2 * Spec.chi2Err δ zm im1 im2 err := by
  obtain ⟨c, h1, h2⟩ := C113_map_error A δ hA cfg im1 im2 err hs zm
  exact ⟨c, h1, argmin_near h2⟩

/-- C113: rounding does not move the minimum when it is clear: if the exact map has a pixel below all others by more than twice the error bound,
the computed map is smallest at exactly this pixel. -/
theorem C113_same_pixel (A : Chi2Arith) (δ : ℝ) (hA : Spec.Chi2Accurate A δ) (cfg : FFTConfig) (im1 im2 : Fin ny × Fin nx → Pix)
    (err : ErrArg ny nx) (hs : ∀ s, err = .scalar s → s ≠ 0) (zm : Bool) (c : Fin ny × Fin nx → ℝ)
    (hc : chi2nMap cfg im1 im2 err zm false false true = .ok (.only c)) (q : Fin ny × Fin nx)
    (hq : ∀ i, i ≠ q → c q + 2 * Spec.chi2Err δ zm im1 im2 err < c i) :
    Np.argmin (chi2MapA A im1 im2 err zm) = q ∧ Np.argmin c = q := by
  obtain ⟨c', h1, h2⟩ := C113_map_error A δ hA cfg im1 im2 err hs zm
  have e : c = c' := by
    have := hc.symm.trans h1
    simpa using this
  subst e
  have ht : 0 ≤ Spec.chi2Err δ zm im1 im2 err := (abs_nonneg _).trans (h2 q)
  constructor
  · apply Np.argmin_eq_of_unique
    intro j hj
    have a1 := abs_le.1 (h2 j)
    have a2 := abs_le.1 (h2 q)
    have := hq j hj
    linarith [a1.1, a1.2, a2.1, a2.2]
  · apply Np.argmin_eq_of_unique
    intro j hj
    have := hq j hj
    linarith

/-- C113: whole-pixel displacements survive rounding and noise. Let `im2` be `im1` rolled by `(dy, dx)` plus any disturbance `noise`, and let
`σ` be the errors (one nonzero number, or an error image without zero or NaN pixels). If `im1` rolled by `(dy, dx)` differs from every
other roll of `im1` by more than four times the noise plus four times the rounding error bound (sums of squares in units of `σ`), then the
computed map is smallest at the pixel that stands for `(dy, dx)`. -/
theorem C113_recovers_roll (A : Chi2Arith) (δ : ℝ) (hA : Spec.Chi2Accurate A δ) (im1 noise : Fin ny × Fin nx → ℝ) (dy dx : ℤ)
    (err : ErrArg ny nx) (σ : Fin ny × Fin nx → ℝ) (hσ : ∀ p, σ p ≠ 0)
    (he : (∃ s, Spec.isScalarErr err s ∧ ∀ p, σ p = s) ∨ err = .image (realArr σ))
    (hnoise : ∀ ey ex : ℤ, ¬ (ey ≡ dy [ZMOD ny] ∧ ex ≡ dx [ZMOD nx]) →
      4 * ∑ p, noise p ^ 2 / σ p ^ 2 + 4 * Spec.chi2Err δ false (realArr im1) (realArr fun p => Spec.roll2 dy dx im1 p + noise p) err
        < ∑ p, (Spec.roll2 ey ex im1 p - Spec.roll2 dy dx im1 p) ^ 2 / σ p ^ 2) :
    Np.argmin (chi2MapA A (realArr im1) (realArr fun p => Spec.roll2 dy dx im1 p + noise p) err false)
      = (Spec.wrap ny (((ny - 1) / 2 : ℕ) - dy), Spec.wrap nx (((nx - 1) / 2 : ℕ) - dx)) := by
  have cfg : FFTConfig := ⟨false, false, 1⟩
  obtain ⟨cm, hcm, hchi⟩ := chi2nMapBody_chi2 cfg (realArr im1) (realArr fun p => Spec.roll2 dy dx im1 p + noise p) err false true (.inl rfl)
  have hchi' : ∀ i, cm.chi2 i = ∑ p, (Spec.roll2 (Spec.lag ny i.1) (Spec.lag nx i.2) im1 p
      - (Spec.roll2 dy dx im1 p + noise p)) ^ 2 / σ p ^ 2 := by
    intro i
    rw [hchi, chi2_eq_roll]
    have pr : ∀ a : Fin ny × Fin nx → ℝ, prep false (realArr a) = a := by
      intro a; rw [prep_real]; funext p; simp
    rw [pr, pr]
    rcases he with ⟨s, hs, hs'⟩ | rfl
    · rw [scalarErr_errOf hs, scalarErr_maskOf hs, scalarErr_maskOf hs]
      simp only [hs']
    · have e1 : Spec.errOf (.image (realArr σ)) = σ := by
        funext p; simp [Spec.errOf, realArr, Spec.nan0, hσ p]
      have e2 : ∀ a : Fin ny × Fin nx → ℝ, Spec.maskOf (.image (realArr σ)) a = a := by
        intro a; funext p; simp [Spec.maskOf, realArr, Spec.nan0, hσ p]
      rw [e1, e2, e2]
  have hs : ∀ s, err = .scalar s → s ≠ 0 := by
    rintro s rfl
    rcases he with ⟨t, ht, ht'⟩ | h
    · have h1 : t = s := ht
      rw [← h1, ← ht' ((0 : Fin ny), (0 : Fin nx))]
      exact hσ _
    · cases h
  refine (C113_same_pixel A δ hA cfg _ _ err hs false cm.chi2 (by rw [chi2nMap_same, hcm]; rfl) _ ?_).1
  intro i hi
  have l1 := Spec.lag_wrap ny dy
  have l2 := Spec.lag_wrap nx dx
  have h0 : cm.chi2 (Spec.wrap ny (((ny - 1) / 2 : ℕ) - dy), Spec.wrap nx (((nx - 1) / 2 : ℕ) - dx)) = ∑ p, noise p ^ 2 / σ p ^ 2 := by
    rw [hchi']
    refine Finset.sum_congr rfl fun p _ => ?_
    rw [roll2_congr l1 l2]
    ring
  have hne : ¬ (Spec.lag ny i.1 ≡ dy [ZMOD ny] ∧ Spec.lag nx i.2 ≡ dx [ZMOD nx]) := by
    rintro ⟨c1, c2⟩
    apply hi
    have back : ∀ (n : ℕ) [NeZero n] (i q : Fin n) (d : ℤ), Spec.lag n i ≡ d [ZMOD n] → Spec.lag n q ≡ d [ZMOD n] → i = q := by
      intro n _ i q d h1 h2
      have h3 := (Int.ModEq.refl (Spec.zeroLag n : ℤ)).sub (h1.trans h2.symm)
      unfold Spec.lag at h3
      rw [sub_sub_cancel, sub_sub_cancel] at h3
      exact Fin.eq_of_modEq h3
    exact Prod.ext (back ny i.1 _ dy c1 l1) (back nx i.2 _ dx c2 l2)
  have hn := hnoise _ _ hne
  rw [h0, hchi']
  have hb : ∑ p, (Spec.roll2 (Spec.lag ny i.1) (Spec.lag nx i.2) im1 p - Spec.roll2 dy dx im1 p) ^ 2 / σ p ^ 2
      ≤ 2 * (∑ p, (Spec.roll2 (Spec.lag ny i.1) (Spec.lag nx i.2) im1 p
        - (Spec.roll2 dy dx im1 p + noise p)) ^ 2 / σ p ^ 2) + 2 * ∑ p, noise p ^ 2 / σ p ^ 2 := by
    rw [Finset.mul_sum, Finset.mul_sum, ← Finset.sum_add_distrib]
    refine Finset.sum_le_sum fun p _ => ?_
    have hp : 0 < σ p ^ 2 := by have := hσ p; positivity
    rw [← mul_div_assoc, ← mul_div_assoc, ← add_div]
    apply div_le_div_of_nonneg_right _ hp.le
    nlinarith [sq_nonneg (Spec.roll2 (Spec.lag ny i.1) (Spec.lag nx i.2) im1 p
        - (Spec.roll2 dy dx im1 p + noise p) - noise p)]
  linarith

/-- the bound, without `zeromean`, is `(1+δ)^9/(1-δ) - 1` times the largest weight times the squared norms -/
theorem chi2Err_false (δ : ℝ) (im1 im2 : Fin ny × Fin nx → ℝ) (err : ErrArg ny nx) :
    Spec.chi2Err δ false (realArr im1) (realArr im2) err = ((1 + δ) ^ 9 / (1 - δ) - 1) * (Spec.maxWeight err *
      (∑ p, im2 p ^ 2 + 2 * (Real.sqrt (∑ p, im1 p ^ 2) * Real.sqrt (∑ p, im2 p ^ 2)) + Spec.errSpread err * ∑ p, im1 p ^ 2)) := by
  have pr : ∀ a : Fin ny × Fin nx → ℝ, prep false (realArr a) = a := by
    intro a; rw [prep_real]; funext p; simp
  unfold Spec.chi2Err Spec.prepNorm' Spec.prepNorm
  simp only [Bool.false_eq_true, if_false, pr]
  rw [Real.sq_sqrt (by positivity), Real.sq_sqrt (by positivity)]
  ring

end

/-- The hypotheses of `C113_recovers_roll` can be met with an arithmetic that is off by one part in a thousand at every operation: a
2 × 3 image with one bright pixel, moved one column to the right. -/
example : Np.argmin (chi2MapA (Chi2Arith.biased (1 / 1000))
      (realArr fun p : Fin 2 × Fin 3 => if p = ((0 : Fin 2), (0 : Fin 3)) then (1 : ℝ) else 0)
      (realArr fun p : Fin 2 × Fin 3 => Spec.roll2 0 1 (fun p : Fin 2 × Fin 3 => if p = ((0 : Fin 2), (0 : Fin 3)) then (1 : ℝ) else 0) p + 0)
      .none false) = (Spec.wrap 2 (((2 - 1) / 2 : ℕ) - 0), Spec.wrap 3 (((3 - 1) / 2 : ℕ) - 1)) := by
  set a : Fin 2 × Fin 3 → ℝ := fun p => if p = ((0 : Fin 2), (0 : Fin 3)) then (1 : ℝ) else 0 with ha
  refine C113_recovers_roll (Chi2Arith.biased (1 / 1000)) (1 / 1000) (Chi2Arith.biased_accurate _ (by norm_num) (by norm_num)) a (fun _ => 0) 0 1 .none (fun _ => 1)
    (fun _ => one_ne_zero) (.inl ⟨1, rfl, fun _ => rfl⟩) ?_
  have hsq : ∀ ey ex : ℤ, Spec.roll2 ey ex a = fun p => if p = (Spec.wrap 2 ey, Spec.wrap 3 ex) then 1 else 0 := by
    intro ey ex
    funext p
    unfold Spec.roll2
    simp only [ha, Prod.ext_iff]
    have key : ∀ (n : ℕ) [NeZero n] (i : Fin n) (e : ℤ), Spec.wrap n (((i : ℕ) : ℤ) - e) = 0 ↔ i = Spec.wrap n e := by
      intro n _ i e
      rw [Spec.wrap_eq_iff, eq_comm (a := i), Spec.wrap_eq_iff]
      simp only [Fin.val_zero, Nat.cast_zero, Int.modEq_iff_dvd]
      constructor
      · rintro ⟨z, hz⟩; exact ⟨-z, by linarith⟩
      · rintro ⟨z, hz⟩; exact ⟨-z, by linarith⟩
    simp only [key]
  have hone : ∀ q : Fin 2 × Fin 3, ∑ p : Fin 2 × Fin 3, (if p = q then (1 : ℝ) else 0) ^ 2 = 1 := by
    intro q; simp
  intro ey ex hne
  rw [chi2Err_false]
  simp only [add_zero, hsq]
  rw [hone]
  have h1 : ∑ p, a p ^ 2 = 1 := by rw [ha]; exact hone _
  rw [h1]
  have hw : Spec.maxWeight (ErrArg.none : ErrArg 2 3) = 1 := by
    unfold Spec.maxWeight Spec.errOf
    simp only [one_pow, div_one]
    exact Finset.sup'_const _ _
  have hq : Spec.errSpread (ErrArg.none : ErrArg 2 3) = 1 := rfl
  rw [hw, hq]
  have hdiff : (Spec.wrap 2 ey, Spec.wrap 3 ex) ≠ ((Spec.wrap 2 0, Spec.wrap 3 1) : Fin 2 × Fin 3) := by
    intro h
    apply hne
    have e1 := congrArg Prod.fst h
    have e2 := congrArg Prod.snd h
    simp only at e1 e2
    have b1 := Spec.wrap_modEq 2 ey
    have b2 := Spec.wrap_modEq 3 ex
    rw [e1] at b1
    rw [e2] at b2
    exact ⟨b1.symm.trans (Spec.wrap_modEq 2 0), b2.symm.trans (Spec.wrap_modEq 3 1)⟩
  have h2 : ∑ p : Fin 2 × Fin 3, ((if p = (Spec.wrap 2 ey, Spec.wrap 3 ex) then (1 : ℝ) else 0)
      - (if p = (Spec.wrap 2 0, Spec.wrap 3 1) then 1 else 0)) ^ 2 / 1 ^ 2 = 2 := by
    have e : ∀ p : Fin 2 × Fin 3, ((if p = (Spec.wrap 2 ey, Spec.wrap 3 ex) then (1 : ℝ) else 0)
      - (if p = (Spec.wrap 2 0, Spec.wrap 3 1) then 1 else 0)) ^ 2 / 1 ^ 2
        = (if p = (Spec.wrap 2 ey, Spec.wrap 3 ex) then (1 : ℝ) else 0) + (if p = (Spec.wrap 2 0, Spec.wrap 3 1) then 1 else 0) := by
      intro p
      by_cases hp : p = (Spec.wrap 2 ey, Spec.wrap 3 ex)
      · rw [if_pos hp, if_neg (by rw [hp]; exact hdiff)]; norm_num
      · rw [if_neg hp]; split_ifs <;> norm_num
    simp only [e]
    rw [Finset.sum_add_distrib]
    simp
    norm_num
  rw [h2]
  norm_num

end ImgReg
