import Verif.Lemmas.StarCorr
import Verif.Props.RegisterAccuracy
import Verif.Props.RegisterSymm
import Verif.Lemmas.Inexact

/-!
# C141: `register_images` on two images of a Gaussian star
-/

open Complex Finset
open scoped ComplexConjugate

namespace ImgReg

/-- How far the image of the moved star is from the Fourier-shifted image of the star, per pixel and in units of its height, if the star
stays `h` pixels away from the edges. -/
noncomputable def Spec.starMoved (ny nx : ℕ) (σ h : ℝ) : ℝ :=
  (1 + (Spec.starBlur ny σ h + Spec.starEdge ny σ h)) * (1 + (Spec.starBlur nx σ h + Spec.starEdge nx σ h)) - 1

/-- The loss of correlation (peak = 1) that sampling, the frame and additional noise of norm `r` (in units of the height of the star) can fake. -/
noncomputable def Spec.starBudget (ny nx : ℕ) (σ h r : ℝ) : ℝ :=
  2 * ((1 + max (Spec.starEps ny σ h) (Spec.starEps nx σ h)) ^ 2 - 1)
    + 2 * ((1 + max (Spec.starEps ny σ h) (Spec.starEps nx σ h)) * (Real.sqrt (ny * nx) * Spec.starMoved ny nx σ h + r)
        / (σ * Real.sqrt Real.pi))

/-- The part of the correlation that the subtraction of the mean removes, at most. -/
noncomputable def Spec.starMean (ny nx : ℕ) (σ : ℝ) (zm : Bool) : ℝ :=
  if zm then 4 * Real.pi * σ ^ 2 * (1 + Spec.starTheta σ) ^ 4 / (ny * nx) else 0

section
variable {ny nx : ℕ} [NeZero ny] [NeZero nx]

theorem sum_cshift (a : Fin ny × Fin nx → ℝ) (t u : ℝ) : ∑ p, cshift t u a p = ∑ p, (a p : ℂ) := by
  have h := sum_filt (fun k => ex (-(freq2 u t k))) (fun i : Fin ny × Fin nx => (a i : ℂ))
  rw [freq2_zero, neg_zero, ex_zero, mul_one] at h
  exact h

/-- subtracting the mean lowers the whole self-correlation by a constant -/
theorem cc_sub_mean (a : Fin ny × Fin nx → ℝ) (t u : ℝ) :
    Spec.cc (fun p => a p - Spec.mean a) (fun p => a p - Spec.mean a) t u
      = Spec.cc a a t u - (((∑ p, a p) ^ 2 / ((ny : ℝ) * nx) : ℝ) : ℂ) := by
  unfold Spec.cc
  simp only [cshift_sub_const, map_sub, Complex.conj_ofReal, Complex.ofReal_sub]
  have h1 := congrArg conj (sum_cshift a t u)
  rw [map_sum, map_sum] at h1
  simp only [Complex.conj_ofReal] at h1
  have h2 : ∀ p, ((a p : ℂ) - (Spec.mean a : ℂ)) * (conj (cshift t u a p) - (Spec.mean a : ℂ))
      = (a p : ℂ) * conj (cshift t u a p) - (Spec.mean a : ℂ) * conj (cshift t u a p) - (Spec.mean a : ℂ) * (a p : ℂ)
        + (Spec.mean a : ℂ) ^ 2 := by intro p; ring
  simp only [h2]
  rw [Finset.sum_add_distrib, Finset.sum_sub_distrib, Finset.sum_sub_distrib, ← Finset.mul_sum, ← Finset.mul_sum, h1]
  simp only [Finset.sum_const, Finset.card_univ, Fintype.card_prod, Fintype.card_fin, nsmul_eq_mul]
  have c0 : (ny : ℂ) * nx ≠ 0 := mul_ne_zero (by exact_mod_cast NeZero.ne ny) (by exact_mod_cast NeZero.ne nx)
  unfold Spec.mean
  push_cast
  field_simp
  ring

omit [NeZero ny] [NeZero nx] in
theorem starEps_nonneg' {n : ℕ} [NeZero n] {σ h c : ℝ} (hσ : 0 < σ) (h0 : 0 ≤ h) (hc : Spec.inside n h c) : 0 ≤ Spec.starEps n σ h := by
  have hM : 0 < σ * Real.sqrt Real.pi := by have := Real.pi_pos; positivity
  have := (norm_nonneg _).trans (corr1_law hσ h0 hc 0 (by rw [abs_zero]; positivity))
  by_contra hne
  push Not at hne
  nlinarith

/-- the self-correlation of a star, with or without its mean -/
theorem star_cc_law {σ h A cy cx : ℝ} (hσ : 0 < σ) (h0 : 0 ≤ h) (hcy : Spec.inside ny h cy) (hcx : Spec.inside nx h cx) (zm : Bool)
    (im a : Fin ny × Fin nx → ℝ) (him : ∀ p, im p = A * (Spec.star σ cy ((p.1 : ℕ) : ℝ) * Spec.star σ cx ((p.2 : ℕ) : ℝ)))
    (ha : ∀ p, a p = im p - if zm then Spec.mean im else 0) :
    ∃ k : ℝ, 0 ≤ k ∧ k ≤ Spec.starMean ny nx σ zm ∧ ∀ t u : ℝ, |t| ≤ (ny : ℝ) / 2 → |u| ≤ (nx : ℝ) / 2 →
      ‖Spec.cc a a t u - ((A ^ 2 * (Real.pi * σ ^ 2) * (Real.exp (-(t ^ 2 + u ^ 2) / (4 * σ ^ 2)) - k) : ℝ) : ℂ)‖
        ≤ A ^ 2 * (Real.pi * σ ^ 2) * ((1 + max (Spec.starEps ny σ h) (Spec.starEps nx σ h)) ^ 2 - 1) := by
  set ε := max (Spec.starEps ny σ h) (Spec.starEps nx σ h) with hε
  have hp := Real.pi_pos
  have hsp : Real.sqrt Real.pi ^ 2 = Real.pi := Real.sq_sqrt hp.le
  set M := σ * Real.sqrt Real.pi with hM
  have hM0 : 0 < M := by positivity
  have hM2 : M ^ 2 = Real.pi * σ ^ 2 := by rw [hM, mul_pow, hsp]; ring
  have hny : (0 : ℝ) < ny := Nat.cast_pos.2 (NeZero.pos ny)
  have hnx : (0 : ℝ) < nx := Nat.cast_pos.2 (NeZero.pos nx)
  have hθ := starTheta_nonneg hσ
  have hε0 : 0 ≤ ε := (starEps_nonneg' hσ h0 hcy).trans (le_max_left _ _)
  have himf : im = fun p => A * (Spec.star σ cy ((p.1 : ℕ) : ℝ) * Spec.star σ cx ((p.2 : ℕ) : ℝ)) := funext him
  have hcc : ∀ t u : ℝ, |t| ≤ (ny : ℝ) / 2 → |u| ≤ (nx : ℝ) / 2 →
      ‖Spec.cc im im t u - ((A ^ 2 * M ^ 2 * Real.exp (-(t ^ 2 + u ^ 2) / (4 * σ ^ 2)) : ℝ) : ℂ)‖
        ≤ A ^ 2 * M ^ 2 * ((1 + ε) ^ 2 - 1) := by
    intro t u ht hu
    have e1 := corr1_law hσ h0 hcy t ht
    have e2 := corr1_law hσ h0 hcx u hu
    rw [← hM] at e1 e2
    have hx1 : Real.exp (-t ^ 2 / (4 * σ ^ 2)) ≤ 1 := by
      rw [Real.exp_le_one_iff, neg_div]
      have : 0 ≤ t ^ 2 / (4 * σ ^ 2) := by positivity
      linarith
    have hx2 : Real.exp (-u ^ 2 / (4 * σ ^ 2)) ≤ 1 := by
      rw [Real.exp_le_one_iff, neg_div]
      have : 0 ≤ u ^ 2 / (4 * σ ^ 2) := by positivity
      linarith
    have hxx : Real.exp (-(t ^ 2 + u ^ 2) / (4 * σ ^ 2)) = Real.exp (-t ^ 2 / (4 * σ ^ 2)) * Real.exp (-u ^ 2 / (4 * σ ^ 2)) := by
      rw [← Real.exp_add]; congr 1; ring
    have p1 := Real.exp_pos (-t ^ 2 / (4 * σ ^ 2))
    have p2 := Real.exp_pos (-u ^ 2 / (4 * σ ^ 2))
    rw [hxx, himf, cc_smul, cc_star]
    set X := Real.exp (-t ^ 2 / (4 * σ ^ 2))
    set Y := Real.exp (-u ^ 2 / (4 * σ ^ 2))
    have e1' : ‖corr1 ny σ cy t - ((M * X : ℝ) : ℂ)‖ ≤ M * ε := e1.trans (mul_le_mul_of_nonneg_left (le_max_left _ _) hM0.le)
    have e2' : ‖corr1 nx σ cx u - ((M * Y : ℝ) : ℂ)‖ ≤ M * ε := e2.trans (mul_le_mul_of_nonneg_left (le_max_right _ _) hM0.le)
    generalize corr1 ny σ cy t = c1 at *
    generalize corr1 nx σ cx u = c2 at *
    have e3 : ‖c1‖ ≤ M * (1 + ε) := by
      have := norm_add_le (c1 - ((M * X : ℝ) : ℂ)) ((M * X : ℝ) : ℂ)
      rw [sub_add_cancel, Complex.norm_real, Real.norm_of_nonneg (by positivity)] at this
      nlinarith
    have e4 : ((A * A : ℝ) : ℂ) * (c1 * c2) - ((A ^ 2 * M ^ 2 * (X * Y) : ℝ) : ℂ)
        = ((A ^ 2 : ℝ) : ℂ) * (c1 * (c2 - ((M * Y : ℝ) : ℂ)) + (c1 - ((M * X : ℝ) : ℂ)) * ((M * Y : ℝ) : ℂ)) := by
      push_cast; ring
    rw [e4, norm_mul, Complex.norm_real, Real.norm_of_nonneg (sq_nonneg A), mul_assoc (A ^ 2)]
    refine mul_le_mul_of_nonneg_left ((norm_add_le (_ : ℂ) _).trans ?_) (sq_nonneg A)
    rw [norm_mul, norm_mul, Complex.norm_real, Real.norm_of_nonneg (by positivity)]
    have e5 : ‖c1‖ * ‖c2 - ((M * Y : ℝ) : ℂ)‖ ≤ (M * (1 + ε)) * (M * ε) := mul_le_mul e3 e2' (norm_nonneg _) (by positivity)
    have e6 : ‖c1 - ((M * X : ℝ) : ℂ)‖ * (M * Y) ≤ (M * ε) * (M * 1) :=
      mul_le_mul e1' (mul_le_mul_of_nonneg_left hx2 hM0.le) (by positivity) (by positivity)
    nlinarith
  rw [← hM2]
  cases zm with
  | false =>
    refine ⟨0, le_rfl, by simp [Spec.starMean], fun t u ht hu => ?_⟩
    have : a = im := by funext p; rw [ha]; simp
    rw [this, sub_zero]
    exact hcc t u ht hu
  | true =>
    have ha' : a = fun p => im p - Spec.mean im := by funext p; rw [ha]; simp
    by_cases hA : A = 0
    · refine ⟨0, le_rfl, by unfold Spec.starMean; simp only [if_true]; positivity, fun t u ht hu => ?_⟩
      have him0 : ∀ p, im p = 0 := fun p => by rw [him, hA, zero_mul]
      have ha0 : ∀ p, a p = 0 := fun p => by rw [ha, him0]; simp [Spec.mean, him0]
      have : Spec.cc a a t u = 0 := by unfold Spec.cc; simp [ha0]
      rw [this, hA]; simp
    have hA2 : 0 < A ^ 2 := by positivity
    set S := ∑ p, im p with hS
    refine ⟨S ^ 2 / ((ny : ℝ) * nx) / (A ^ 2 * M ^ 2), by positivity, ?_, fun t u ht hu => ?_⟩
    · unfold Spec.starMean
      simp only [if_true]
      have hS' : S = A * ((∑ j : Fin ny, Spec.star σ cy ((j : ℕ) : ℝ)) * ∑ j : Fin nx, Spec.star σ cx ((j : ℕ) : ℝ)) := by
        rw [hS, himf, ← Finset.mul_sum, Finset.sum_mul_sum, ← Finset.sum_product', Finset.univ_product_univ]
      have s1 := sum_star_le (n := ny) hσ cy
      have s2 := sum_star_le (n := nx) hσ cx
      have p1 : 0 ≤ ∑ j : Fin ny, Spec.star σ cy ((j : ℕ) : ℝ) := Finset.sum_nonneg fun j _ => (gauss_pos _ _ _).le
      have p2 : 0 ≤ ∑ j : Fin nx, Spec.star σ cx ((j : ℕ) : ℝ) := Finset.sum_nonneg fun j _ => (gauss_pos _ _ _).le
      rw [← hM] at s1 s2
      have s3 := mul_le_mul s1 s2 p2 (by positivity)
      have s4 : ((∑ j : Fin ny, Spec.star σ cy ((j : ℕ) : ℝ)) * ∑ j : Fin nx, Spec.star σ cx ((j : ℕ) : ℝ)) ^ 2
          ≤ (2 * M ^ 2 * (1 + Spec.starTheta σ) ^ 2) ^ 2 := by
        refine pow_le_pow_left₀ (mul_nonneg p1 p2) (s3.trans (le_of_eq ?_)) 2
        have : Real.sqrt 2 ^ 2 = 2 := Real.sq_sqrt (by norm_num)
        linear_combination (M ^ 2 * (1 + Spec.starTheta σ) ^ 2) * this
      rw [hS', mul_pow, div_div, div_le_div_iff₀ (by positivity) (by positivity)]
      have e : 4 * Real.pi * σ ^ 2 * (1 + Spec.starTheta σ) ^ 4 * ((ny : ℝ) * nx * (A ^ 2 * M ^ 2))
          = A ^ 2 * (2 * M ^ 2 * (1 + Spec.starTheta σ) ^ 2) ^ 2 * ((ny : ℝ) * nx) := by
        rw [hM2]; ring
      rw [e]
      exact mul_le_mul_of_nonneg_right (mul_le_mul_of_nonneg_left s4 hA2.le) (by positivity)
    · rw [ha', cc_sub_mean, ← hS]
      have e : A ^ 2 * M ^ 2 * (Real.exp (-(t ^ 2 + u ^ 2) / (4 * σ ^ 2)) - S ^ 2 / ((ny : ℝ) * nx) / (A ^ 2 * M ^ 2))
          = A ^ 2 * M ^ 2 * Real.exp (-(t ^ 2 + u ^ 2) / (4 * σ ^ 2)) - S ^ 2 / ((ny : ℝ) * nx) := by
        rw [mul_sub, mul_div_cancel₀ _ (by positivity)]
      rw [e, Complex.ofReal_sub, sub_sub_sub_cancel_right]
      exact hcc t u ht hu

/-- the norm of the star, with or without its mean -/
theorem star_norm_le {σ h A cy cx : ℝ} (hσ : 0 < σ) (h0 : 0 ≤ h) (hcy : Spec.inside ny h cy) (hcx : Spec.inside nx h cx) (zm : Bool)
    (im a : Fin ny × Fin nx → ℝ) (him : ∀ p, im p = A * (Spec.star σ cy ((p.1 : ℕ) : ℝ) * Spec.star σ cx ((p.2 : ℕ) : ℝ)))
    (ha : ∀ p, a p = im p - if zm then Spec.mean im else 0) :
    Real.sqrt (∑ p, a p ^ 2) ≤ |A| * (σ * Real.sqrt Real.pi) * (1 + max (Spec.starEps ny σ h) (Spec.starEps nx σ h)) := by
  have hp := Real.pi_pos
  have hε0 : 0 ≤ max (Spec.starEps ny σ h) (Spec.starEps nx σ h) := (starEps_nonneg' hσ h0 hcy).trans (le_max_left _ _)
  have h1 : Real.sqrt (∑ p, a p ^ 2) ≤ Real.sqrt (∑ p, im p ^ 2) := by
    cases zm with
    | false => simp only [ha]; simp
    | true =>
      have h2 := l2_sub_mean (fun p => (im p : ℂ)) (Spec.mean im : ℂ) (by
        have c0 : (ny : ℂ) * nx ≠ 0 := mul_ne_zero (by exact_mod_cast NeZero.ne ny) (by exact_mod_cast NeZero.ne nx)
        unfold Spec.mean
        simp only [Fintype.card_prod, Fintype.card_fin]
        push_cast
        rw [mul_div_cancel₀ _ c0])
      rw [l2_real] at h2
      refine le_trans (le_of_eq ?_) h2
      unfold l2
      congr 1
      refine Finset.sum_congr rfl fun p _ => ?_
      beta_reduce
      rw [← Complex.ofReal_sub, Complex.norm_real, Real.norm_eq_abs, sq_abs, ha]; simp
  refine h1.trans ?_
  obtain ⟨k, hk0, hk1, hk⟩ := star_cc_law hσ h0 hcy hcx false im im him (fun p => by simp)
  have hk' : k = 0 := le_antisymm (by simpa [Spec.starMean] using hk1) hk0
  have h2 := hk 0 0 (by rw [abs_zero]; positivity) (by rw [abs_zero]; positivity)
  have h3 : Spec.cc im im 0 0 = ((∑ p, im p ^ 2 : ℝ) : ℂ) := by
    have := cc_eq im im 0 0 0 0 (fun p => ?_) ⟨⟨0, by simp⟩, 0, by simp⟩
    · have hr : Spec.cc im im 0 0 = ∑ p, (im p : ℂ) * conj ((im p : ℂ)) := by
        unfold Spec.cc
        refine Finset.sum_congr rfl fun p _ => ?_
        have := cshift_period im 0 0 p
        simp only [Int.cast_zero, zero_mul] at this
        rw [this]
      rw [hr]; push_cast
      refine Finset.sum_congr rfl fun p _ => ?_
      rw [Complex.conj_ofReal]; ring
    · have := cshift_period im 0 0 p
      simp only [Int.cast_zero, zero_mul] at this
      exact this.symm
  rw [h3, hk', ← Complex.ofReal_sub, Complex.norm_real] at h2
  have h4 := (abs_le.1 h2).2
  rw [Real.sqrt_le_left (by positivity), mul_pow, mul_pow, mul_pow, sq_abs, Real.sq_sqrt hp.le]
  have h5 : Real.exp (-((0 : ℝ) ^ 2 + 0 ^ 2) / (4 * σ ^ 2)) = 1 := by simp
  rw [h5] at h4
  linarith

/-- the image of the moved star, compared with the Fourier-shifted image of the star -/
theorem star_moved_le {σ h A cy cx dy dx : ℝ} (hσ : 0 < σ) (h0 : 0 ≤ h) (hcy : Spec.inside ny h cy) (hcx : Spec.inside nx h cx)
    (hcy' : Spec.inside ny h (cy + dy)) (hcx' : Spec.inside nx h (cx + dx))
    (im1 im2 η : Fin ny × Fin nx → ℝ) (h1 : ∀ p, im1 p = A * (Spec.star σ cy ((p.1 : ℕ) : ℝ) * Spec.star σ cx ((p.2 : ℕ) : ℝ)))
    (h2 : ∀ p, im2 p = A * (Spec.star σ (cy + dy) ((p.1 : ℕ) : ℝ) * Spec.star σ (cx + dx) ((p.2 : ℕ) : ℝ)) + η p) :
    Real.sqrt (∑ p, ‖(im2 p : ℂ) - cshift dy dx im1 p‖ ^ 2)
      ≤ |A| * (Real.sqrt (ny * nx) * Spec.starMoved ny nx σ h) + Real.sqrt (∑ p, η p ^ 2) := by
  have hpt : ∀ p, ‖(im2 p : ℂ) - (η p : ℂ) - cshift dy dx im1 p‖ ≤ |A| * Spec.starMoved ny nx σ h := by
    intro p
    have e1 : cshift dy dx im1 p = conj (((A : ℝ) : ℂ) * interp2C (fun p : Fin ny × Fin nx =>
        ((Spec.star σ cy ((p.1 : ℕ) : ℝ) * Spec.star σ cx ((p.2 : ℕ) : ℝ) : ℝ) : ℂ)) (((p.1 : ℕ) : ℝ) - dy) (((p.2 : ℕ) : ℝ) - dx)) := by
      rw [interp2C_displaced (fun p : Fin ny × Fin nx => Spec.star σ cy ((p.1 : ℕ) : ℝ) * Spec.star σ cx ((p.2 : ℕ) : ℝ)), map_mul,
        Complex.conj_conj, Complex.conj_ofReal]
      unfold cshift
      have e := filt_smul (fun k => ex (-(freq2 dx dy k))) (fun p : Fin ny × Fin nx =>
        ((Spec.star σ cy ((p.1 : ℕ) : ℝ) * Spec.star σ cx ((p.2 : ℕ) : ℝ) : ℝ) : ℂ)) ((A : ℝ) : ℂ)
      have e' : (fun i => (im1 i : ℂ)) = fun p : Fin ny × Fin nx => ((A : ℝ) : ℂ) *
          ((Spec.star σ cy ((p.1 : ℕ) : ℝ) * Spec.star σ cx ((p.2 : ℕ) : ℝ) : ℝ) : ℂ) := by
        funext p
        rw [h1]; push_cast; ring
      rw [e', e]
    have e2 : (im2 p : ℂ) - (η p : ℂ) = conj (((A : ℝ) : ℂ) * ((Spec.star σ cy (((p.1 : ℕ) : ℝ) - dy) * Spec.star σ cx (((p.2 : ℕ) : ℝ) - dx) : ℝ) : ℂ)) := by
      rw [← Complex.ofReal_mul, Complex.conj_ofReal, h2]
      have : ∀ c d t : ℝ, Spec.star σ (c + d) t = Spec.star σ c (t - d) := by
        intro c d t; unfold Spec.star; congr 2; ring
      rw [this, this]; push_cast; ring
    rw [e1, e2, ← map_sub, RCLike.norm_conj, ← mul_sub, norm_mul, Complex.norm_real, Real.norm_eq_abs, norm_sub_rev]
    refine mul_le_mul_of_nonneg_left ?_ (abs_nonneg A)
    have d1 := inside_dist hcy' p.1
    have d2 := inside_dist hcx' p.2
    have e3 : ∀ t d c : ℝ, t - d - c = t - (c + d) := by intro t d c; ring
    have := interp2C_gauss (ny := ny) (nx := nx) hσ hσ ⟨h0.trans hcy.1, hcy.2.trans (by linarith)⟩ ⟨h0.trans hcx.1, hcx.2.trans (by linarith)⟩
      (((p.1 : ℕ) : ℝ) - dy) (((p.2 : ℕ) : ℝ) - dx) (by rw [e3]; exact d1.trans (by linarith)) (by rw [e3]; exact d2.trans (by linarith))
    refine this.trans ?_
    have hb : ∀ (n : ℕ) [NeZero n] (c d t : ℝ), Spec.inside n h c → |t - (c + d)| ≤ (n : ℝ) - 1 - h →
        0 ≤ Spec.starError n σ c (t - d) ∧ Spec.starError n σ c (t - d) ≤ Spec.starBlur n σ h + Spec.starEdge n σ h := by
      intro n _ c d t hc ht
      have hcn : ∀ j : Fin n, |((j : ℕ) : ℝ) - c| ≤ n := fun j => (inside_dist hc j).trans (by linarith)
      constructor
      · exact (norm_nonneg _).trans (interpC_gauss hσ c (t - d) hcn (by rw [e3]; exact ht.trans (by linarith)))
      · have := trunc_edge hσ h0 hc
        have := edge_spill (n := n) hσ h0 (t - (c + d)) ht
        unfold Spec.starError Spec.starBlur
        rw [e3]
        linarith
    obtain ⟨a1, b1⟩ := hb ny cy dy _ hcy d1
    obtain ⟨a2, b2⟩ := hb nx cx dx _ hcx d2
    unfold Spec.starMoved
    have := mul_le_mul (add_le_add_right b1 1) (add_le_add_right b2 1) (by linarith) (by linarith)
    linarith
  have hW : 0 ≤ |A| * Spec.starMoved ny nx σ h := (norm_nonneg _).trans (hpt 0)
  have h3 : (fun p => (im2 p : ℂ) - cshift dy dx im1 p) = fun p => ((im2 p : ℂ) - (η p : ℂ) - cshift dy dx im1 p) + (η p : ℂ) := by
    funext p; ring
  have h4 := l2_add (fun p => (im2 p : ℂ) - (η p : ℂ) - cshift dy dx im1 p) (fun p => (η p : ℂ))
  rw [l2_real, ← h3] at h4
  refine h4.trans (add_le_add_left ?_ _)
  unfold l2
  rw [Real.sqrt_le_iff]
  constructor
  · have := mul_nonneg (Real.sqrt_nonneg ((ny : ℝ) * nx)) hW
    linarith
  · refine (Finset.sum_le_sum fun p _ => pow_le_pow_left₀ (norm_nonneg _) (hpt p) 2).trans (le_of_eq ?_)
    rw [Finset.sum_const, Finset.card_univ, Fintype.card_prod, Fintype.card_fin, Fintype.card_fin, nsmul_eq_mul]
    have : Real.sqrt ((ny : ℝ) * nx) ^ 2 = (ny : ℝ) * nx := Real.sq_sqrt (by positivity)
    push_cast
    linear_combination (-(|A| * Spec.starMoved ny nx σ h) ^ 2) * this

theorem quarter : Real.sqrt (1 / 4) = 1 / 2 := by
  rw [show (1 / 4 : ℝ) = (1 / 2) ^ 2 by norm_num, Real.sqrt_sq (by norm_num)]

theorem near_period (n : ℕ) [NeZero n] (t : ℝ) : ∃ z : ℤ, |t - z * n| ≤ (n : ℝ) / 2 := by
  have hn : (0 : ℝ) < n := Nat.cast_pos.2 (NeZero.pos n)
  refine ⟨round (t / n), ?_⟩
  have h := abs_sub_round (t / n)
  have e : t - (round (t / n) : ℝ) * n = n * (t / n - round (t / n)) := by field_simp
  rw [e, abs_mul, abs_of_pos hn]
  nlinarith

theorem near_multiple (u : ℕ) (hu : 1 ≤ u) (d : ℝ) : ∃ m : ℤ, |(m : ℝ) / u - d| ≤ 1 / (2 * u) := by
  have hu0 : (0 : ℝ) < u := by exact_mod_cast hu
  refine ⟨round (d * u), ?_⟩
  have h := abs_sub_round (d * u)
  rw [abs_sub_comm] at h
  have e : (round (d * u) : ℝ) / u - d = (round (d * u) - d * u) / u := by field_simp
  rw [e, abs_div, abs_of_pos hu0, div_le_iff₀ hu0]
  refine h.trans (le_of_eq ?_)
  field_simp

set_option maxHeartbeats 1600000 in
/-- the position of the best displacement of a star, from a comparison of correlations up to `2N` -/
theorem star_core {σ h A cy cx dy dx : ℝ} (hσ : 0 < σ) (h0 : 0 ≤ h) (hA : A ≠ 0)
    (hcy : Spec.inside ny h cy) (hcx : Spec.inside nx h cx)
    (im1 a : Fin ny × Fin nx → ℝ) (h1 : ∀ p, im1 p = A * (Spec.star σ cy ((p.1 : ℕ) : ℝ) * Spec.star σ cx ((p.2 : ℕ) : ℝ)))
    (zm : Bool) (ha : ∀ p, a p = im1 p - if zm then Spec.mean im1 else 0) (usfac : ℕ) (hu : 1 ≤ usfac) (hy : 2 ≤ ny) (hx : 2 ≤ nx)
    (P : ℝ → ℝ → Prop) (N ν κ : ℝ) (hN0 : 0 ≤ N) (hN1 : N ≤ A ^ 2 * (Real.pi * σ ^ 2) * ν)
    (hκ' : κ = 2 * ((1 + max (Spec.starEps ny σ h) (Spec.starEps nx σ h)) ^ 2 - 1) + 2 * ν)
    (hcoarse : usfac ≤ 2 → ∃ rx ry : ℝ, P rx ry ∧ ∀ m l : ℤ,
        ‖Spec.cc a a ((m : ℝ) / usfac - dy) ((l : ℝ) / usfac - dx)‖ ≤ ‖Spec.cc a a (ry - dy) (rx - dx)‖ + 2 * N)
    (hfine : 2 < usfac → (∃ j0 k0 : ℤ, ∀ j k : ℤ,
      ¬ ((∃ z : ℤ, |(j : ℝ) / 2 - dy - z * ny| ≤ 1 / 2) ∧ ∃ z : ℤ, |(k : ℝ) / 2 - dx - z * nx| ≤ 1 / 2) →
      ‖Spec.cc a a ((j : ℝ) / 2 - dy) ((k : ℝ) / 2 - dx)‖ + 2 * N < ‖Spec.cc a a ((j0 : ℝ) / 2 - dy) ((k0 : ℝ) / 2 - dx)‖) →
      ∃ rx ry : ℝ, P rx ry ∧ ∀ m l : ℤ, |(m : ℝ) / usfac - dy| ≤ 1 / (2 * usfac) → |(l : ℝ) / usfac - dx| ≤ 1 / (2 * usfac) →
        ‖Spec.cc a a ((m : ℝ) / usfac - dy) ((l : ℝ) / usfac - dx)‖ ≤ ‖Spec.cc a a (ry - dy) (rx - dx)‖ + 2 * N)
    (hclear : 2 * Spec.starMean ny nx σ zm + κ < Real.exp (-1 / (8 * σ ^ 2)))
    (hsharp : 2 < usfac → Real.exp (-1 / (16 * σ ^ 2)) + κ < Real.exp (-1 / (32 * σ ^ 2))) :
    ∃ rx ry : ℝ, P rx ry ∧
      ∃ z w : ℤ, (ry - dy - z * ny) ^ 2 + (rx - dx - w * nx) ^ 2
        ≤ 1 / (2 * usfac ^ 2) + 4 * σ ^ 2 * κ / (Real.exp (-1 / (8 * usfac ^ 2 * σ ^ 2)) - κ) := by
  have hp := Real.pi_pos
  have hu0 : (1 : ℝ) ≤ usfac := by exact_mod_cast hu
  have hy0 : (2 : ℝ) ≤ ny := by exact_mod_cast hy
  have hx0 : (2 : ℝ) ≤ nx := by exact_mod_cast hx
  obtain ⟨k, hk0, hk1, hlaw⟩ := star_cc_law hσ h0 hcy hcx zm im1 a h1 ha
  set ε := max (Spec.starEps ny σ h) (Spec.starEps nx σ h) with hε
  have hε0 : 0 ≤ ε := (starEps_nonneg' hσ h0 hcy).trans (le_max_left _ _)
  set β := (1 + ε) ^ 2 - 1 with hβ
  have hβ0 : 0 ≤ β := by nlinarith
  set S := A ^ 2 * (Real.pi * σ ^ 2) with hS
  have hS0 : 0 < S := by positivity
  have hν0 : 0 ≤ ν := by
    by_contra hne
    push Not at hne
    nlinarith
  have hκ0 : 0 ≤ κ := by linarith
  -- bounds on the correlation, modulo the size of the frame
  have hlow : ∀ t u D : ℝ, |t| ≤ (ny : ℝ) / 2 → |u| ≤ (nx : ℝ) / 2 → t ^ 2 + u ^ 2 ≤ D →
      S * (Real.exp (-D / (4 * σ ^ 2)) - k - β) ≤ ‖Spec.cc a a t u‖ := by
    intro t u D ht hu' hD
    have e := hlaw t u ht hu'
    have e1 := norm_sub_norm_le (((S * (Real.exp (-(t ^ 2 + u ^ 2) / (4 * σ ^ 2)) - k) : ℝ) : ℂ)) (Spec.cc a a t u)
    rw [norm_sub_rev] at e1
    have e2 := (Complex.re_le_norm (((S * (Real.exp (-(t ^ 2 + u ^ 2) / (4 * σ ^ 2)) - k) : ℝ) : ℂ)))
    rw [Complex.ofReal_re] at e2
    have e3 : Real.exp (-D / (4 * σ ^ 2)) ≤ Real.exp (-(t ^ 2 + u ^ 2) / (4 * σ ^ 2)) :=
      Real.exp_le_exp.2 (div_le_div_of_nonneg_right (by linarith) (by positivity))
    have e4 := mul_le_mul_of_nonneg_left e3 hS0.le
    linarith
  have hupp : ∀ t u : ℝ, |t| ≤ (ny : ℝ) / 2 → |u| ≤ (nx : ℝ) / 2 →
      ‖Spec.cc a a t u‖ ≤ S * (|Real.exp (-(t ^ 2 + u ^ 2) / (4 * σ ^ 2)) - k| + β) := by
    intro t u ht hu'
    have e := hlaw t u ht hu'
    have e1 := norm_sub_norm_le (Spec.cc a a t u) (((S * (Real.exp (-(t ^ 2 + u ^ 2) / (4 * σ ^ 2)) - k) : ℝ) : ℂ))
    rw [Complex.norm_real, Real.norm_eq_abs, abs_mul, abs_of_pos hS0] at e1
    linarith
  have hkey : ∃ rx ry : ℝ, P rx ry ∧
      ∀ m l : ℤ, |(m : ℝ) / usfac - dy| ≤ 1 / (2 * usfac) → |(l : ℝ) / usfac - dx| ≤ 1 / (2 * usfac) →
        ‖Spec.cc a a ((m : ℝ) / usfac - dy) ((l : ℝ) / usfac - dx)‖ ≤ ‖Spec.cc a a (ry - dy) (rx - dx)‖ + 2 * N := by
    rcases Nat.lt_or_ge 2 usfac with h3 | h3
    · refine hfine h3 ?_
      obtain ⟨j0, hj0⟩ := near_multiple 2 (by norm_num) dy
      obtain ⟨k0, hk0'⟩ := near_multiple 2 (by norm_num) dx
      norm_num at hj0 hk0'
      refine ⟨j0, k0, fun j l hfar => ?_⟩
      have hbest := hlow ((j0 : ℝ) / 2 - dy) ((k0 : ℝ) / 2 - dx) (1 / 8) (by linarith) (by linarith) (by
        have e1 := sq_abs ((j0 : ℝ) / 2 - dy)
        have e2 := sq_abs ((k0 : ℝ) / 2 - dx)
        have e3 := pow_le_pow_left₀ (abs_nonneg _) hj0 2
        have e4 := pow_le_pow_left₀ (abs_nonneg _) hk0' 2
        norm_num at e3 e4
        linarith)
      have e8 : Real.exp (-(1 / 8) / (4 * σ ^ 2)) = Real.exp (-1 / (32 * σ ^ 2)) := by
        congr 1; field_simp; norm_num
      rw [e8] at hbest
      obtain ⟨z, hz⟩ := near_period ny ((j : ℝ) / 2 - dy)
      obtain ⟨w, hw⟩ := near_period nx ((l : ℝ) / 2 - dx)
      rw [cc_period a a ((j : ℝ) / 2 - dy) ((l : ℝ) / 2 - dx) ((j : ℝ) / 2 - dy - z * ny) ((l : ℝ) / 2 - dx - w * nx) ⟨z, by ring⟩ ⟨w, by ring⟩]
      have hother := hupp _ _ hz hw
      have hbig : 1 / 4 ≤ ((j : ℝ) / 2 - dy - z * ny) ^ 2 + ((l : ℝ) / 2 - dx - w * nx) ^ 2 := by
        by_contra hne
        push Not at hne
        apply hfar
        refine ⟨⟨z, Real.abs_le_sqrt (y := 1 / 4) ?_ |>.trans (le_of_eq quarter)⟩, w, Real.abs_le_sqrt (y := 1 / 4) ?_ |>.trans (le_of_eq quarter)⟩ <;>
        · nlinarith [sq_nonneg ((j : ℝ) / 2 - dy - z * ny), sq_nonneg ((l : ℝ) / 2 - dx - w * nx)]
      generalize ((j : ℝ) / 2 - dy - z * ny) ^ 2 + ((l : ℝ) / 2 - dx - w * nx) ^ 2 = D at hbig hother
      have eD : Real.exp (-D / (4 * σ ^ 2)) ≤ Real.exp (-1 / (16 * σ ^ 2)) := by
        refine Real.exp_le_exp.2 ?_
        rw [div_le_div_iff₀ (by positivity) (by positivity)]
        nlinarith [sq_nonneg σ]
      have eD0 := Real.exp_pos (-D / (4 * σ ^ 2))
      have e832 : Real.exp (-1 / (8 * σ ^ 2)) ≤ Real.exp (-1 / (32 * σ ^ 2)) := by
        refine Real.exp_le_exp.2 ?_
        rw [div_le_div_iff₀ (by positivity) (by positivity)]
        nlinarith [sq_nonneg σ]
      have hs := hsharp h3
      have habs : |Real.exp (-D / (4 * σ ^ 2)) - k| + κ < Real.exp (-1 / (32 * σ ^ 2)) - k := by
        rcases abs_cases (Real.exp (-D / (4 * σ ^ 2)) - k) with ⟨e, -⟩ | ⟨e, -⟩ <;> rw [e] <;> linarith
      have : S * (|Real.exp (-D / (4 * σ ^ 2)) - k| + κ) < S * (Real.exp (-1 / (32 * σ ^ 2)) - k) := mul_lt_mul_of_pos_left habs hS0
      rw [hκ'] at this
      linarith
    · obtain ⟨rx, ry, hr, hb⟩ := hcoarse h3
      exact ⟨rx, ry, hr, fun m l _ _ => hb m l⟩
  obtain ⟨rx, ry, hr, hb⟩ := hkey
  obtain ⟨z, hz⟩ := near_period ny (ry - dy)
  obtain ⟨w, hw⟩ := near_period nx (rx - dx)
  refine ⟨rx, ry, hr, z, w, ?_⟩
  obtain ⟨m, hm⟩ := near_multiple usfac hu dy
  obtain ⟨l, hl⟩ := near_multiple usfac hu dx
  have hcomp := hb m l hm hl
  rw [cc_period a a (ry - dy) (rx - dx) (ry - dy - z * ny) (rx - dx - w * nx) ⟨z, by ring⟩ ⟨w, by ring⟩] at hcomp
  have hother := hupp _ _ hz hw
  have hhalf : 1 / (2 * (usfac : ℝ)) ≤ 1 / 2 := one_div_le_one_div_of_le (by norm_num) (by linarith)
  have hbest := hlow ((m : ℝ) / usfac - dy) ((l : ℝ) / usfac - dx) (1 / (2 * usfac ^ 2)) (by linarith) (by linarith) (by
    have e1 := sq_abs ((m : ℝ) / usfac - dy)
    have e2 := sq_abs ((l : ℝ) / usfac - dx)
    have e3 := pow_le_pow_left₀ (abs_nonneg _) hm 2
    have e4 := pow_le_pow_left₀ (abs_nonneg _) hl 2
    have e5 : (1 / (2 * (usfac : ℝ))) ^ 2 + (1 / (2 * (usfac : ℝ))) ^ 2 = 1 / (2 * (usfac : ℝ) ^ 2) := by field_simp; norm_num
    linarith)
  have e8 : Real.exp (-(1 / (2 * (usfac : ℝ) ^ 2)) / (4 * σ ^ 2)) = Real.exp (-1 / (8 * usfac ^ 2 * σ ^ 2)) := by
    congr 1; field_simp; norm_num
  rw [e8] at hbest
  generalize hD : (ry - dy - z * ny) ^ 2 + (rx - dx - w * nx) ^ 2 = D at *
  have hX8 : Real.exp (-1 / (8 * σ ^ 2)) ≤ Real.exp (-1 / (8 * usfac ^ 2 * σ ^ 2)) := by
    refine Real.exp_le_exp.2 ?_
    rw [div_le_div_iff₀ (by positivity) (by positivity)]
    have : (1 : ℝ) ≤ (usfac : ℝ) ^ 2 := by nlinarith
    nlinarith [mul_nonneg (sub_nonneg.2 this) (sq_nonneg σ)]
  set X := Real.exp (-1 / (8 * usfac ^ 2 * σ ^ 2)) with hX
  have hD0 := Real.exp_pos (-D / (4 * σ ^ 2))
  have hfin : X - κ ≤ Real.exp (-D / (4 * σ ^ 2)) := by
    have h3 : S * (X - k - β) ≤ S * (|Real.exp (-D / (4 * σ ^ 2)) - k| + β + 2 * ν) := by
      have := mul_le_mul_of_nonneg_left hN1 (by norm_num : (0 : ℝ) ≤ 2)
      nlinarith
    have h4 := le_of_mul_le_mul_left h3 hS0
    rcases abs_cases (Real.exp (-D / (4 * σ ^ 2)) - k) with ⟨e, -⟩ | ⟨e, -⟩ <;> rw [e] at h4 <;> linarith
  have hXκ : 0 < X - κ := by linarith
  -- take logarithms
  have hlog := Real.log_le_log hXκ hfin
  rw [Real.log_exp] at hlog
  have hXp : 0 < X := Real.exp_pos _
  have hl1 : Real.log X = -1 / (8 * usfac ^ 2 * σ ^ 2) := by rw [hX, Real.log_exp]
  have hl2 : Real.log X - Real.log (X - κ) ≤ κ / (X - κ) := by
    rw [← Real.log_div hXp.ne' hXκ.ne']
    have := Real.log_le_sub_one_of_pos (div_pos hXp hXκ)
    refine this.trans (le_of_eq ?_)
    field_simp; ring
  have hl3 : D / (4 * σ ^ 2) ≤ 1 / (8 * usfac ^ 2 * σ ^ 2) + κ / (X - κ) := by
    rw [hl1, neg_div] at hl2
    rw [neg_div] at hlog
    linarith
  have hl4 := mul_le_mul_of_nonneg_left hl3 (by positivity : (0 : ℝ) ≤ 4 * σ ^ 2)
  have e1 : 4 * σ ^ 2 * (D / (4 * σ ^ 2)) = D := by field_simp
  have e2 : 4 * σ ^ 2 * (1 / (8 * usfac ^ 2 * σ ^ 2) + κ / (X - κ)) = 1 / (2 * usfac ^ 2) + 4 * σ ^ 2 * κ / (X - κ) := by
    field_simp; ring
  rw [e1, e2] at hl4
  exact hl4

set_option maxHeartbeats 1600000 in
/-- C141: two images of a star of width `σ` and height `A` (of any sign), the second one moved by `(dx, dy)` pixels and with additional noise
`η`; the star stays at least `h` pixels away from the edges. With `κ = Spec.starBudget …` the error budget (sampling, frame, noise), small
enough, `register_images` reports a displacement whose distance from `(dx, dy)` (modulo the size of the frame) is, squared, at most
`1/(2·usfac²)` (the nearest point of the grid of step `1/usfac`), up to `4σ²·κ/(exp(-1/(8·usfac²·σ²)) - κ)`. With or without `zeromean`. -/
theorem C141_register (cfg : FFTConfig) {σ h A cy cx dy dx : ℝ} (hσ : 0 < σ) (h0 : 0 ≤ h) (hA : A ≠ 0)
    (hcy : Spec.inside ny h cy) (hcx : Spec.inside nx h cx) (hcy' : Spec.inside ny h (cy + dy)) (hcx' : Spec.inside nx h (cx + dx))
    (im1 im2 η : Fin ny × Fin nx → ℝ) (h1 : ∀ p, im1 p = A * (Spec.star σ cy ((p.1 : ℕ) : ℝ) * Spec.star σ cx ((p.2 : ℕ) : ℝ)))
    (h2 : ∀ p, im2 p = A * (Spec.star σ (cy + dy) ((p.1 : ℕ) : ℝ) * Spec.star σ (cx + dx) ((p.2 : ℕ) : ℝ)) + η p)
    (zm : Bool) (usfac : ℕ) (hu : 1 ≤ usfac) (hy : 2 ≤ ny) (hx : 2 ≤ nx) (κ : ℝ)
    (hκ : κ = Spec.starBudget ny nx σ h (Real.sqrt (∑ p, η p ^ 2) / |A|))
    (hclear : 2 * Spec.starMean ny nx σ zm + κ < Real.exp (-1 / (8 * σ ^ 2)))
    (hsharp : 2 < usfac → Real.exp (-1 / (16 * σ ^ 2)) + κ < Real.exp (-1 / (32 * σ ^ 2))) :
    ∃ rx ry : ℝ, registerImages cfg (realArr im1) (realArr im2) usfac false false zm none = .ok [.num rx, .num ry] ∧
      ∃ z w : ℤ, (ry - dy - z * ny) ^ 2 + (rx - dx - w * nx) ^ 2
        ≤ 1 / (2 * usfac ^ 2) + 4 * σ ^ 2 * κ / (Real.exp (-1 / (8 * usfac ^ 2 * σ ^ 2)) - κ) := by
  have hp := Real.pi_pos
  obtain ⟨a, ha⟩ : ∃ a : Fin ny × Fin nx → ℝ, ∀ p, a p = im1 p - if zm then Spec.mean im1 else 0 := ⟨_, fun p => rfl⟩
  have hnorm := star_norm_le hσ h0 hcy hcx zm im1 a h1 ha
  have hmoved := star_moved_le hσ h0 hcy hcx hcy' hcx' im1 im2 η h1 h2
  set ε := max (Spec.starEps ny σ h) (Spec.starEps nx σ h) with hε
  have hε0 : 0 ≤ ε := (starEps_nonneg' hσ h0 hcy).trans (le_max_left _ _)
  set S := A ^ 2 * (Real.pi * σ ^ 2) with hS
  set ν := (1 + ε) * (Real.sqrt (ny * nx) * Spec.starMoved ny nx σ h + Real.sqrt (∑ p, η p ^ 2) / |A|) / (σ * Real.sqrt Real.pi) with hν
  set N := Real.sqrt (∑ p, a p ^ 2) * Real.sqrt (∑ p, ‖(im2 p : ℂ) - cshift dy dx im1 p‖ ^ 2) with hN
  have hN1 : N ≤ S * ν := by
    refine (mul_le_mul hnorm hmoved (Real.sqrt_nonneg _) (by positivity)).trans (le_of_eq ?_)
    have hA' : |A| ≠ 0 := abs_ne_zero.2 hA
    have hs : Real.sqrt Real.pi ≠ 0 := by positivity
    have hsp : Real.sqrt Real.pi ^ 2 = Real.pi := Real.sq_sqrt hp.le
    have hS' : S = |A| ^ 2 * (Real.sqrt Real.pi ^ 2 * σ ^ 2) := by rw [hS, sq_abs, hsp]
    rw [hS', hν]
    field_simp
  have hN0 : 0 ≤ N := mul_nonneg (Real.sqrt_nonneg _) (Real.sqrt_nonneg _)
  obtain ⟨o, ho⟩ : ∃ o : Fin ny × Fin nx → ℂ, shift2d cfg (rArr im1) dx dy 0 false false = .cplx (cArr o) := by
    refine ⟨filt (fun k => ex (-freq2 dx dy k)) fun i => (im1 i : ℂ), ?_⟩
    rw [shift2d_eq, denan_rArr]
    simp only [shiftKernel_zero]
    rw [shiftReturn_cplx]
  have hoc := shift2d_cplx ho
  refine star_core hσ h0 hA hcy hcx im1 a h1 zm ha usfac hu hy hx
    (fun rx ry => registerImages cfg (realArr im1) (realArr im2) usfac false false zm none = .ok [.num rx, .num ry]) N ν κ hN0 hN1 hκ
    (fun h3 => ?_) (fun h3 hmar => ?_) hclear hsharp
  · have hq : (usfac = 1 ∧ usfac = 1) ∨ (usfac = 2 ∧ usfac = 2) ∨ (2 < usfac ∧ Even usfac ∧ usfac = 2 ∧ 2 ≤ ny ∧ 2 ≤ nx) := by omega
    obtain ⟨rx, ry, hr, hb⟩ := C103_near_best cfg cfg im1 im2 a zm ha usfac usfac hq
    refine ⟨rx, ry, hr, fun m l => ?_⟩
    have := hb dy dx o ho m l
    rw [hoc, ← hN] at this
    exact this
  · have := C103_near_best_fine cfg cfg im1 im2 a zm ha usfac h3 hy hx dy dx o ho
    rw [hoc, ← hN] at this
    exact this hmar

end

/-! ## a concrete star: 100 × 100 pixels, `σ = 3`, at least 25 pixels away from the edges -/

theorem exp_tiny {x : ℝ} (h : x ≤ -30) : Real.exp x ≤ 1 / 10 ^ 12 :=
  (Real.exp_le_exp.2 h).trans (exp_neg_le 30 (by norm_num) (by norm_num [Finset.sum_range_succ, Nat.factorial]) (by norm_num))

theorem ratio_tiny {x : ℝ} (h : x ≤ 1 / 10 ^ 12) : 2 * x / (1 - x) ≤ 3 / 10 ^ 12 :=
  (ratio_mono h (by norm_num)).trans (by norm_num)

theorem sqrt_pi_gt : (17 / 10 : ℝ) < Real.sqrt Real.pi := by
  rw [Real.lt_sqrt (by norm_num)]
  have := Real.pi_gt_three
  linarith

theorem star3_edge_nonneg : 0 ≤ Spec.starEdge 100 3 25 :=
  add_nonneg (gauss_pos 3 0 (25 + 1)).le (ratio_nonneg (Real.exp_pos _).le (exp_neg_lt_one (by norm_num)))

theorem star3_bounds : 0 ≤ Spec.starTheta 3 ∧ Spec.starTheta 3 ≤ 3 / 10 ^ 12 ∧ Spec.starEdge 100 3 25 ≤ 4 / 10 ^ 12 ∧
    Spec.starBlur 100 3 25 ≤ 401 / 10 ^ 12 ∧ Spec.starEps 100 3 25 ≤ 2 / 10 ^ 9 := by
  have hp := pi_sq_gt
  have hsp := sqrt_pi_gt
  have t0 : 0 ≤ Spec.starTheta 3 := starTheta_nonneg (by norm_num)
  have t1 : Spec.starTheta 3 ≤ 3 / 10 ^ 12 := ratio_tiny (exp_tiny (by linarith))
  have e1 : Spec.starEdge 100 3 25 ≤ 4 / 10 ^ 12 := by
    unfold Spec.starEdge
    have a := ratio_tiny (exp_tiny (x := -((100 : ℕ) : ℝ) ^ 2 / (2 * 3 ^ 2)) (by norm_num))
    have b : Spec.star 3 0 (25 + 1) ≤ 1 / 10 ^ 12 := exp_tiny (by norm_num)
    linarith
  have al : Spec.aliased 100 3 ≤ 1 / 10 ^ 12 := by
    unfold Spec.aliased
    have a : Real.exp (-2 * Real.pi ^ 2 * 3 ^ 2 * (((100 + 1) / 2 : ℕ) : ℝ) ^ 2 / ((100 : ℕ) : ℝ) ^ 2) ≤ 1 / 10 ^ 12 :=
      exp_tiny (by norm_num; linarith)
    have b : Real.exp (-2 * Real.pi ^ 2 * 3 ^ 2 * (((100 + 1) / 2 : ℕ) : ℝ) / ((100 : ℕ) : ℝ) ^ 2) ≤ 1 / 2 := by
      refine (Real.exp_le_exp.2 (?_ : _ ≤ -(8 / 10 : ℝ))).trans
        (exp_neg_le 8 (by norm_num) (by norm_num [Finset.sum_range_succ, Nat.factorial]) (by norm_num))
      norm_num
      linarith
    have h3 := sqrt_two_pi_le
    have h4 := Real.sqrt_nonneg (2 * Real.pi)
    rw [div_le_iff₀ (by linarith)]
    have h5 : 4 * (3 * Real.sqrt (2 * Real.pi) / ((100 : ℕ) : ℝ)) ≤ 4 / 10 := by push_cast; linarith
    refine (mul_le_mul h5 a (Real.exp_pos _).le (by norm_num)).trans ?_
    linarith
  have e0 := star3_edge_nonneg
  have b1 : Spec.starBlur 100 3 25 ≤ 401 / 10 ^ 12 := by
    unfold Spec.starBlur
    push_cast
    linarith
  refine ⟨t0, t1, e1, b1, ?_⟩
  unfold Spec.starEps
  have r := ratio_tiny (exp_tiny (x := -((100 : ℕ) : ℝ) ^ 2 / (16 * 3 ^ 2)) (by norm_num))
  have r0 := ratio_nonneg (Real.exp_pos (-((100 : ℕ) : ℝ) ^ 2 / (16 * 3 ^ 2))).le (exp_neg_lt_one (by norm_num))
  have s2 : Real.sqrt 2 ≤ 3 / 2 := by rw [Real.sqrt_le_left (by norm_num)]; norm_num
  have q1 := mul_le_mul (by linarith : 1 + Spec.starTheta 3 ≤ 2) r r0 (by norm_num)
  have q2 : ((100 : ℕ) : ℝ) * Spec.starEdge 100 3 25 / (3 * Real.sqrt Real.pi) ≤ 400 / 10 ^ 12 := by
    rw [div_le_iff₀ (by linarith)]
    push_cast
    nlinarith
  have q3 : Real.sqrt 2 * (1 + Spec.starTheta 3) ≤ 3 := by
    have := mul_le_mul s2 (by linarith : 1 + Spec.starTheta 3 ≤ 2) (by linarith) (by norm_num)
    linarith
  have q4 : Real.sqrt 2 * (1 + Spec.starTheta 3) * Spec.starBlur 100 3 25 ≤ 3 * (401 / 10 ^ 12) := by
    have q5 : 0 ≤ Real.sqrt 2 * (1 + Spec.starTheta 3) := by positivity
    nlinarith
  linarith

/-- the budget of this star is `10⁻⁷ + 0.4·r` -/
theorem star3_budget {r : ℝ} (hr : 0 ≤ r) : Spec.starBudget 100 100 3 25 r ≤ 1 / 10 ^ 7 + 4 / 10 * r := by
  obtain ⟨t0, t1, e1, b1, p1⟩ := star3_bounds
  have hsp := sqrt_pi_gt
  have e0 : 0 ≤ Spec.starEps 100 3 25 := starEps_nonneg' (c := 50) (by norm_num) (by norm_num) (by unfold Spec.inside; norm_num)
  have eb0 : 0 ≤ Spec.starBlur 100 3 25 + Spec.starEdge 100 3 25 := by
    have ha := star3_edge_nonneg
    have hb : 0 ≤ Spec.aliased 100 3 := by
      unfold Spec.aliased
      have : Real.exp (-2 * Real.pi ^ 2 * 3 ^ 2 * (((100 + 1) / 2 : ℕ) : ℝ) / ((100 : ℕ) : ℝ) ^ 2) < 1 :=
        exp_neg_lt_one (by have := pi_sq_gt; norm_num; linarith)
      exact div_nonneg (by positivity) (by linarith)
    unfold Spec.starBlur
    positivity
  have hW : Spec.starMoved 100 100 3 25 ≤ 1 / 10 ^ 9 := by
    unfold Spec.starMoved
    have hB : Spec.starBlur 100 3 25 + Spec.starEdge 100 3 25 ≤ 405 / 10 ^ 12 := by linarith
    nlinarith
  unfold Spec.starBudget
  rw [max_self]
  have hs : Real.sqrt (((100 : ℕ) : ℝ) * ((100 : ℕ) : ℝ)) = 100 := by
    rw [Real.sqrt_mul_self (by norm_num)]; norm_num
  rw [hs]
  have h1 : (1 + Spec.starEps 100 3 25) ^ 2 - 1 ≤ 5 / 10 ^ 9 := by nlinarith
  have h2 : (1 + Spec.starEps 100 3 25) * (100 * Spec.starMoved 100 100 3 25 + r) / (3 * Real.sqrt Real.pi)
      ≤ 4 / 10 ^ 8 + 2 / 10 * r := by
    rw [div_le_iff₀ (by linarith)]
    have h3 : (1 + Spec.starEps 100 3 25) * (100 * Spec.starMoved 100 100 3 25 + r) ≤ (1 + Spec.starEps 100 3 25) * (1 / 10 ^ 7 + r) :=
      mul_le_mul_of_nonneg_left (by linarith) (by linarith)
    have h4 : (1 + Spec.starEps 100 3 25) * (1 / 10 ^ 7 + r) ≤ (1 + 2 / 10 ^ 9) * (1 / 10 ^ 7 + r) :=
      mul_le_mul_of_nonneg_right (by linarith) (by positivity)
    have h5 : (4 / 10 ^ 8 + 2 / 10 * r) * (51 / 10) ≤ (4 / 10 ^ 8 + 2 / 10 * r) * (3 * Real.sqrt Real.pi) :=
      mul_le_mul_of_nonneg_left (by linarith) (by positivity)
    linarith
  linarith

/-- C141 (a case that meets the conditions): a star of width 3, of any height, anywhere in a 100 × 100 image but at least 25 pixels away from
the edges, moved by any amount that keeps it there, with additional noise of norm up to `0.005` heights: `register_images` finds the
displacement up to `√(1/(2·usfac²) + 10⁻⁵ + 15·noise)` pixels, for every `usfac ≥ 1`. -/
theorem C141_register_example (cfg : FFTConfig) {A cy cx dy dx : ℝ} (hA : A ≠ 0)
    (hcy : 25 ≤ cy ∧ cy ≤ 74) (hcx : 25 ≤ cx ∧ cx ≤ 74) (hcy' : 25 ≤ cy + dy ∧ cy + dy ≤ 74) (hcx' : 25 ≤ cx + dx ∧ cx + dx ≤ 74)
    (im1 im2 η : Fin 100 × Fin 100 → ℝ) (h1 : ∀ p, im1 p = A * (Spec.star 3 cy ((p.1 : ℕ) : ℝ) * Spec.star 3 cx ((p.2 : ℕ) : ℝ)))
    (h2 : ∀ p, im2 p = A * (Spec.star 3 (cy + dy) ((p.1 : ℕ) : ℝ) * Spec.star 3 (cx + dx) ((p.2 : ℕ) : ℝ)) + η p)
    (zm : Bool) (usfac : ℕ) (hu : 1 ≤ usfac) (r : ℝ) (hr : r = Real.sqrt (∑ p, η p ^ 2) / |A|) (hr1 : r ≤ 1 / 200) :
    ∃ rx ry : ℝ, registerImages cfg (realArr im1) (realArr im2) usfac false false zm none = .ok [.num rx, .num ry] ∧
      ∃ z w : ℤ, (ry - dy - z * 100) ^ 2 + (rx - dx - w * 100) ^ 2 ≤ 1 / (2 * usfac ^ 2) + 1 / 100000 + 15 * r := by
  have hr0 : 0 ≤ r := by rw [hr]; exact div_nonneg (Real.sqrt_nonneg _) (abs_nonneg _)
  have hb := star3_budget hr0
  obtain ⟨t0, t1, -⟩ := star3_bounds
  have hin : ∀ c : ℝ, 25 ≤ c ∧ c ≤ 74 → Spec.inside 100 25 c := by
    intro c hc; unfold Spec.inside; push_cast; exact ⟨hc.1, by linarith [hc.2]⟩
  have hm : Spec.starMean 100 100 3 zm ≤ 12 / 1000 := by
    unfold Spec.starMean
    cases zm with
    | false => norm_num
    | true =>
      simp only [if_true]
      have h3 : (1 + Spec.starTheta 3) ^ 4 ≤ 101 / 100 :=
        (pow_le_pow_left₀ (by linarith) (by linarith : 1 + Spec.starTheta 3 ≤ 1 + 3 / 10 ^ 12) 4).trans (by norm_num)
      have h4 := Real.pi_lt_d4
      have h5 := Real.pi_pos
      have h6 := mul_le_mul h4.le h3 (by positivity) (by norm_num)
      push_cast
      linarith
  have hX : ∀ x : ℝ, 1 - x ≤ Real.exp (-x) := fun x => by have := Real.add_one_le_exp (-x); linarith
  have h8 : 98 / 100 ≤ Real.exp (-1 / (8 * (3 : ℝ) ^ 2)) := by
    have := hX (1 / 72)
    rw [show (-1 / (8 * (3 : ℝ) ^ 2)) = -(1 / 72) by norm_num]
    linarith
  obtain ⟨rx, ry, hreg, z, w, hD⟩ := C141_register cfg (σ := 3) (h := 25) (by norm_num) (by norm_num) hA (hin _ hcy) (hin _ hcx)
    (hin _ hcy') (hin _ hcx') im1 im2 η h1 h2 zm usfac hu (by norm_num) (by norm_num) _ rfl (by rw [← hr]; linarith) (fun _ => by
      rw [← hr]
      have e1 : Real.exp (-1 / (16 * (3 : ℝ) ^ 2)) = Real.exp (-(1 / 288)) ^ 2 := by
        rw [← Real.exp_nat_mul]; congr 1; norm_num
      have e2 : (-1 / (32 * (3 : ℝ) ^ 2)) = -(1 / 288) := by norm_num
      rw [e1, e2]
      have e3 := hX (1 / 288)
      have e4 : Real.exp (-(1 / 288)) ≤ 288 / 289 := by
        rw [Real.exp_neg, inv_le_comm₀ (Real.exp_pos _) (by norm_num)]
        have := Real.add_one_le_exp (1 / 288 : ℝ)
        norm_num at this ⊢
        linarith
      nlinarith)
  refine ⟨rx, ry, hreg, z, w, ?_⟩
  rw [← hr] at hD
  push_cast at hD
  refine hD.trans ?_
  have hu0 : (1 : ℝ) ≤ usfac := by exact_mod_cast hu
  have hX8 : Real.exp (-1 / (8 * (3 : ℝ) ^ 2)) ≤ Real.exp (-1 / (8 * (usfac : ℝ) ^ 2 * 3 ^ 2)) := by
    refine Real.exp_le_exp.2 ?_
    rw [div_le_div_iff₀ (by positivity) (by positivity)]
    nlinarith
  have : 4 * 3 ^ 2 * Spec.starBudget 100 100 3 25 r / (Real.exp (-1 / (8 * (usfac : ℝ) ^ 2 * 3 ^ 2)) - Spec.starBudget 100 100 3 25 r)
      ≤ 1 / 100000 + 15 * r := by
    rw [div_le_iff₀ (by linarith)]
    have h3 : (1 / 100000 + 15 * r) * (977 / 1000)
        ≤ (1 / 100000 + 15 * r) * (Real.exp (-1 / (8 * (usfac : ℝ) ^ 2 * 3 ^ 2)) - Spec.starBudget 100 100 3 25 r) :=
      mul_le_mul_of_nonneg_left (by linarith) (by positivity)
    linarith
  linarith

end ImgReg
