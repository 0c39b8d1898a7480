import Verif.Props.StarChi2
import Verif.Props.RandomNoise

/-!
# C143: `chi2_shift` on a Gaussian star with random noise
-/

open Complex Finset MeasureTheory
open scoped ComplexConjugate

namespace ImgReg

/-! ## real arithmetic -/

/-- comparing two displacements whose correlations differ by a noise proportional to their distance -/
theorem noisy_dist {σ κ β m q ρ U T W : ℝ} (hσ : 0 < σ) (hκ : 0 ≤ κ) (hβ : 0 ≤ β) (hm : 0 ≤ m) (hU0 : 0 ≤ U) (hU : U ^ 2 ≤ 1 / 2)
    (hT : 0 ≤ T) (hW0 : 0 ≤ W) (hW : W ≤ T + U)
    (h : Real.exp (-U ^ 2 / (4 * σ ^ 2)) ≤ Real.exp (-T ^ 2 / (4 * σ ^ 2)) + κ
      + m * Real.sqrt (2 * (1 - Real.exp (-W ^ 2 / (4 * σ ^ 2)) + 2 * β)))
    (hq : q = Real.exp (-1 / (8 * σ ^ 2)) - κ - m * Real.sqrt (2 + 4 * β)) (hq0 : 0 < q)
    (hρ : ρ = 2 * Real.sqrt 2 * σ * m / q + 2 * σ * Real.sqrt ((κ + 2 * m * Real.sqrt β) / q)) : T ≤ U + ρ := by
  by_contra hne
  push Not at hne
  have hs2 : 0 < Real.sqrt 2 := by positivity
  have hsβ := Real.sqrt_nonneg β
  set κ1 := κ + 2 * m * Real.sqrt β with hκ1
  have hκ10 : 0 ≤ κ1 := by positivity
  set b := 2 * Real.sqrt 2 * σ * m with hb
  have hb0 : 0 ≤ b := by positivity
  set c := 2 * σ * Real.sqrt (κ1 / q) with hc
  have hc0 : 0 ≤ c := by positivity
  have hcc : q * c ^ 2 = 4 * σ ^ 2 * κ1 := by
    rw [hc, mul_pow, Real.sq_sqrt (by positivity)]
    field_simp
    ring
  have hρ0 : 0 ≤ ρ := by rw [hρ]; positivity
  have hTU : U < T := by linarith
  -- the correlation at the reported displacement is not small
  have hEW := Real.exp_pos (-W ^ 2 / (4 * σ ^ 2))
  have hEU : Real.exp (-1 / (8 * σ ^ 2)) ≤ Real.exp (-U ^ 2 / (4 * σ ^ 2)) := by
    refine Real.exp_le_exp.2 ?_
    rw [div_le_div_iff₀ (by positivity) (by positivity)]
    nlinarith [mul_le_mul_of_nonneg_right hU (sq_nonneg σ)]
  have hET : q ≤ Real.exp (-T ^ 2 / (4 * σ ^ 2)) := by
    have h1 : Real.sqrt (2 * (1 - Real.exp (-W ^ 2 / (4 * σ ^ 2)) + 2 * β)) ≤ Real.sqrt (2 + 4 * β) :=
      Real.sqrt_le_sqrt (by linarith)
    have h2 := mul_le_mul_of_nonneg_left h1 hm
    rw [hq]; linarith
  -- the loss of correlation
  have hloss : q * ((T ^ 2 - U ^ 2) / (4 * σ ^ 2)) ≤ Real.exp (-U ^ 2 / (4 * σ ^ 2)) - Real.exp (-T ^ 2 / (4 * σ ^ 2)) := by
    have e1 : Real.exp (-U ^ 2 / (4 * σ ^ 2)) = Real.exp (-T ^ 2 / (4 * σ ^ 2)) * Real.exp ((T ^ 2 - U ^ 2) / (4 * σ ^ 2)) := by
      rw [← Real.exp_add]; congr 1; field_simp; ring
    have e2 := Real.add_one_le_exp ((T ^ 2 - U ^ 2) / (4 * σ ^ 2))
    have e3 : 0 ≤ (T ^ 2 - U ^ 2) / (4 * σ ^ 2) := div_nonneg (by nlinarith) (by positivity)
    have e4 := mul_le_mul_of_nonneg_left e2 (Real.exp_pos (-T ^ 2 / (4 * σ ^ 2))).le
    have e5 := mul_le_mul_of_nonneg_right hET e3
    rw [e1]; linarith
  -- the noise
  have hnoise : Real.sqrt (2 * (1 - Real.exp (-W ^ 2 / (4 * σ ^ 2)) + 2 * β)) ≤ (T + U) / (Real.sqrt 2 * σ) + 2 * Real.sqrt β := by
    rw [Real.sqrt_le_left (by positivity)]
    have e1 := Real.add_one_le_exp (-W ^ 2 / (4 * σ ^ 2))
    have e2 : -W ^ 2 / (4 * σ ^ 2) = -(W ^ 2 / (4 * σ ^ 2)) := neg_div _ _
    have e3 : W ^ 2 / (4 * σ ^ 2) ≤ (T + U) ^ 2 / (4 * σ ^ 2) :=
      div_le_div_of_nonneg_right (pow_le_pow_left₀ hW0 hW 2) (by positivity)
    have e4 : ((T + U) / (Real.sqrt 2 * σ)) ^ 2 = 2 * ((T + U) ^ 2 / (4 * σ ^ 2)) := by
      rw [div_pow, mul_pow, Real.sq_sqrt (by norm_num)]; field_simp; norm_num
    have e5 : (2 * Real.sqrt β) ^ 2 = 4 * β := by rw [mul_pow, Real.sq_sqrt hβ]; norm_num
    have e6 : 0 ≤ (T + U) / (Real.sqrt 2 * σ) * (2 * Real.sqrt β) := by positivity
    have e7 : ((T + U) / (Real.sqrt 2 * σ) + 2 * Real.sqrt β) ^ 2 = ((T + U) / (Real.sqrt 2 * σ)) ^ 2
      + 2 * ((T + U) / (Real.sqrt 2 * σ) * (2 * Real.sqrt β)) + (2 * Real.sqrt β) ^ 2 := by ring
    rw [e7, e4, e5]
    rw [e2] at e1 ⊢
    linarith
  have hall : q * ((T ^ 2 - U ^ 2) / (4 * σ ^ 2)) ≤ κ1 + m * ((T + U) / (Real.sqrt 2 * σ)) := by
    have := mul_le_mul_of_nonneg_left hnoise hm
    rw [hκ1]; linarith
  have hall2 : q * ((T - U) * (T + U)) ≤ q * c ^ 2 + b * (T + U) := by
    have h4 := mul_le_mul_of_nonneg_left hall (by positivity : (0 : ℝ) ≤ 4 * σ ^ 2)
    have e1 : 4 * σ ^ 2 * (q * ((T ^ 2 - U ^ 2) / (4 * σ ^ 2))) = q * ((T - U) * (T + U)) := by field_simp; ring
    have e2 : 4 * σ ^ 2 * (κ1 + m * ((T + U) / (Real.sqrt 2 * σ))) = q * c ^ 2 + b * (T + U) := by
      rw [hcc, hb]
      have : Real.sqrt 2 ^ 2 = 2 := Real.sq_sqrt (by norm_num)
      field_simp
      linear_combination (2 * σ ^ 2 * m * (T + U)) * this * 0 - 2 * (T + U) * m * this
    rw [e1, e2] at h4
    exact h4
  have hρ' : q * ρ = b + q * c := by rw [hρ]; field_simp
  have h5 : q * ρ < q * (T - U) := mul_lt_mul_of_pos_left (by linarith) hq0
  have hTUp : 0 < T + U := by linarith
  have h6 := mul_lt_mul_of_pos_right h5 hTUp
  have hcρ : c ≤ ρ := by
    rw [hρ]; have : 0 ≤ b / q := by positivity
    linarith
  have h7 : q * c * c ≤ q * c * (T + U) := mul_le_mul_of_nonneg_left (by linarith) (by positivity)
  rw [hρ'] at h6
  nlinarith

/-- the nearest representative modulo the period is the smallest one -/
theorem rep_min (n : ℕ) [NeZero n] (x : ℝ) (z w : ℤ) (h : |x - z * n| ≤ (n : ℝ) / 2) : |x - z * n| ≤ |x - w * n| := by
  have hn : (0 : ℝ) < n := by exact_mod_cast NeZero.pos n
  rcases eq_or_ne z w with rfl | hne
  · exact le_rfl
  · have h1 : (1 : ℝ) ≤ |((z - w : ℤ) : ℝ)| := by
      rw [← Int.cast_abs]
      exact_mod_cast Int.one_le_abs (sub_ne_zero.2 hne)
    have h2 : |((z - w : ℤ) : ℝ) * n| ≤ |x - z * n| + |x - w * n| := by
      have : ((z - w : ℤ) : ℝ) * n = (x - w * n) - (x - z * n) := by push_cast; ring
      rw [this]
      linarith [abs_sub (x - w * n) (x - z * n)]
    rw [abs_mul, abs_of_pos hn] at h2
    nlinarith

/-- the triangle inequality for pairs -/
theorem pair_triangle (a b c d : ℝ) :
    Real.sqrt ((a - c) ^ 2 + (b - d) ^ 2) ≤ Real.sqrt (a ^ 2 + b ^ 2) + Real.sqrt (c ^ 2 + d ^ 2) := by
  have e : ∀ x y : ℝ, Real.sqrt (x ^ 2 + y ^ 2) = ‖(⟨x, y⟩ : ℂ)‖ := by
    intro x y
    rw [Complex.norm_def, Complex.normSq_mk]
    congr 1; ring
  rw [e, e, e]
  exact norm_sub_le (⟨a, b⟩ : ℂ) ⟨c, d⟩

section
variable {ny nx : ℕ} [NeZero ny] [NeZero nx]

/-! ## noise in the correlation -/

/-- the correlation with `b` as a linear form in the pixels of `b` -/
theorem cc_adjoint (a b : Fin ny × Fin nx → ℝ) (t u : ℝ) : Spec.cc a b (-t) (-u) = ∑ p, cshift t u a p * (b p : ℂ) := by
  have h := parseval (cshift t u a) (fun p => (b p : ℂ))
  simp only [Complex.conj_ofReal] at h
  rw [h, cc_fourier, dft_cshift]
  congr 1
  refine Finset.sum_congr rfl fun k _ => ?_
  have : freq2 (-u) (-t) k = -freq2 u t k := by unfold freq2; ring
  rw [this]; ring

/-- how the weights of the noise differ between two displacements -/
noncomputable def noiseWeight (a : Fin ny × Fin nx → ℝ) (ry rx gy gx : ℝ) (p : Fin ny × Fin nx) : ℝ := (cshift ry rx a p - cshift gy gx a p).re

theorem noiseWeight_energy (a : Fin ny × Fin nx → ℝ) (ry rx gy gx : ℝ) :
    ∑ p, noiseWeight a ry rx gy gx p ^ 2 ≤ 2 * (∑ p, a p ^ 2) - 2 * (Spec.cc a a (ry - gy) (rx - gx)).re := by
  have h1 : ∑ p, noiseWeight a ry rx gy gx p ^ 2 ≤ ∑ p, ‖cshift ry rx a p - cshift gy gx a p‖ ^ 2 := by
    refine Finset.sum_le_sum fun p _ => ?_
    unfold noiseWeight
    rw [← sq_abs]
    exact pow_le_pow_left₀ (abs_nonneg _) (Complex.abs_re_le_norm _) 2
  refine h1.trans (le_of_eq ?_)
  have h2 : ∀ p, ‖cshift ry rx a p - cshift gy gx a p‖ ^ 2
      = ‖cshift ry rx a p‖ ^ 2 + ‖cshift gy gx a p‖ ^ 2 - 2 * (cshift ry rx a p * conj (cshift gy gx a p)).re := by
    intro p
    rw [← Complex.normSq_eq_norm_sq, ← Complex.normSq_eq_norm_sq, ← Complex.normSq_eq_norm_sq, Complex.normSq_sub]
  have h3 : ∑ p, cshift ry rx a p * conj (cshift gy gx a p) = Spec.cc a a (gy - ry) (gx - rx) := by
    rw [parseval, cc_fourier, dft_cshift, dft_cshift]
    congr 1
    refine Finset.sum_congr rfl fun k _ => ?_
    rw [map_mul, conj_ex, neg_neg]
    have : freq2 (gx - rx) (gy - ry) k = -freq2 rx ry k + freq2 gx gy k := by unfold freq2; ring
    rw [this, ex_add]; ring
  simp only [h2]
  rw [Finset.sum_sub_distrib, Finset.sum_add_distrib, cshift_energy, cshift_energy, ← Finset.mul_sum, ← Complex.re_sum, h3,
    ← cc_self_neg_re, neg_sub, neg_sub]
  ring

/-- comparing two displacements through systematic errors and noise: chi-squared -/
theorem near_best_noise (zm : Bool) (im1 g η im2 : Fin ny × Fin nx → ℝ) (h2 : ∀ p, im2 p = g p + η p) (s : ℝ) (hs : s ≠ 0)
    (dy dx ry rx gy gx : ℝ)
    (h : Spec.resid (prep zm (realArr im1)) (prep zm (realArr im2)) s (-ry) (-rx)
      ≤ Spec.resid (prep zm (realArr im1)) (prep zm (realArr im2)) s (-gy) (-gx)) :
    (Spec.cc (prep zm (realArr im1)) (prep zm (realArr im1)) (gy - dy) (gx - dx)).re
      ≤ (Spec.cc (prep zm (realArr im1)) (prep zm (realArr im1)) (ry - dy) (rx - dx)).re
        + 2 * (Real.sqrt (∑ p, prep zm (realArr im1) p ^ 2) * Real.sqrt (∑ p, ‖(g p : ℂ) - cshift dy dx im1 p‖ ^ 2))
        + ∑ p, η p * noiseWeight (prep zm (realArr im1)) ry rx gy gx p := by
  have hn := noise_sub_mean zm im1 g dy dx
  obtain ⟨c, hc⟩ : ∃ c : ℝ, ∀ p, prep zm (realArr im2) p = prep zm (realArr g) p + (η p - c) := by
    refine ⟨if zm then Spec.mean η else 0, fun p => ?_⟩
    rw [prep_real, prep_real]
    cases zm with
    | false => simp [h2]
    | true =>
      have hm : Spec.mean im2 = Spec.mean g + Spec.mean η := by
        unfold Spec.mean
        rw [← add_div, ← Finset.sum_add_distrib]
        simp only [h2]
      simp only [if_true, h2, hm]; ring
  rw [resid_cc, resid_cc, div_le_div_iff_of_pos_right (by positivity)] at h
  generalize prep zm (realArr im1) = a at *
  have hb : prep zm (realArr im2) = fun p => prep zm (realArr g) p + (η p - c) := funext hc
  rw [hb] at h
  generalize prep zm (realArr g) = b at *
  have hE : ∀ t u : ℝ, |(Spec.cc a b (-t) (-u)).re - (Spec.cc a a (t - dy) (u - dx)).re|
      ≤ Real.sqrt (∑ p, a p ^ 2) * Real.sqrt (∑ p, ‖(g p : ℂ) - cshift dy dx im1 p‖ ^ 2) := by
    intro t u
    have := cc_noise a b dy dx (-t) (-u)
    rw [show -t + dy = -(t - dy) by ring, show -u + dx = -(u - dx) by ring] at this
    rw [← cc_self_neg_re a (t - dy), ← Complex.sub_re]
    exact (Complex.abs_re_le_norm _).trans (this.trans (mul_le_mul_of_nonneg_left hn (Real.sqrt_nonneg _)))
  have hN : (Spec.cc a (fun p => η p - c) (-ry) (-rx)).re - (Spec.cc a (fun p => η p - c) (-gy) (-gx)).re
      = ∑ p, η p * noiseWeight a ry rx gy gx p := by
    have key : ∀ t u : ℝ, Spec.cc a (fun p => η p - c) (-t) (-u) = ∑ p, (η p : ℂ) * cshift t u a p - (c : ℂ) * ∑ p, (a p : ℂ) := by
      intro t u
      rw [cc_adjoint, ← sum_cshift a t u, Finset.mul_sum, ← Finset.sum_sub_distrib]
      refine Finset.sum_congr rfl fun p _ => ?_
      push_cast; ring
    rw [← Complex.sub_re, key, key, sub_sub_sub_cancel_right, ← Finset.sum_sub_distrib, Complex.re_sum]
    refine Finset.sum_congr rfl fun p _ => ?_
    unfold noiseWeight
    rw [← mul_sub, Complex.re_ofReal_mul]
  rw [cc_add, cc_add, Complex.add_re, Complex.add_re] at h
  have h1 := abs_le.1 (hE gy gx)
  have h2' := abs_le.1 (hE ry rx)
  linarith [h1.1, h2'.2]

/-- a star and noise: what a smaller chi-squared says about two displacements -/
theorem star_compare_noise {σ h A cy cx dy dx : ℝ} (hσ : 0 < σ) (h0 : 0 ≤ h) (hA : A ≠ 0)
    (hcy : Spec.inside ny h cy) (hcx : Spec.inside nx h cx) (hcy' : Spec.inside ny h (cy + dy)) (hcx' : Spec.inside nx h (cx + dx))
    (im1 im2 η : Fin ny × Fin nx → ℝ) (h1 : ∀ p, im1 p = A * (Spec.star σ cy ((p.1 : ℕ) : ℝ) * Spec.star σ cx ((p.2 : ℕ) : ℝ)))
    (h2 : ∀ p, im2 p = A * (Spec.star σ (cy + dy) ((p.1 : ℕ) : ℝ) * Spec.star σ (cx + dx) ((p.2 : ℕ) : ℝ)) + η p)
    (zm : Bool) (s : ℝ) (hs : s ≠ 0) (κ β M : ℝ) (hM : 0 ≤ M) (hκ : κ = Spec.starBudget ny nx σ h 0)
    (hβ : β = (1 + max (Spec.starEps ny σ h) (Spec.starEps nx σ h)) ^ 2 - 1) :
    0 ≤ κ ∧ 0 ≤ β ∧ ∀ (ry rx gy gx ty tx uy ux : ℝ),
      Spec.resid (prep zm (realArr im1)) (prep zm (realArr im2)) s (-ry) (-rx)
        ≤ Spec.resid (prep zm (realArr im1)) (prep zm (realArr im2)) s (-gy) (-gx) →
      ∑ p, η p * noiseWeight (prep zm (realArr im1)) ry rx gy gx p
        ≤ M * Real.sqrt (∑ p, noiseWeight (prep zm (realArr im1)) ry rx gy gx p ^ 2) →
      |ty| ≤ (ny : ℝ) / 2 → |tx| ≤ (nx : ℝ) / 2 → |uy| ≤ (ny : ℝ) / 2 → |ux| ≤ (nx : ℝ) / 2 →
      (∃ z : ℤ, ry - dy - ty = z * ny) → (∃ z : ℤ, rx - dx - tx = z * nx) → (∃ z : ℤ, gy - dy - uy = z * ny) →
      (∃ z : ℤ, gx - dx - ux = z * nx) →
      ∃ W : ℝ, 0 ≤ W ∧ W ≤ Real.sqrt (ty ^ 2 + tx ^ 2) + Real.sqrt (uy ^ 2 + ux ^ 2) ∧
        Real.exp (-(Real.sqrt (uy ^ 2 + ux ^ 2)) ^ 2 / (4 * σ ^ 2)) ≤ Real.exp (-(Real.sqrt (ty ^ 2 + tx ^ 2)) ^ 2 / (4 * σ ^ 2)) + κ
          + M / (|A| * (σ * Real.sqrt Real.pi)) * Real.sqrt (2 * (1 - Real.exp (-W ^ 2 / (4 * σ ^ 2)) + 2 * β)) := by
  have hp := Real.pi_pos
  obtain ⟨a, ha⟩ : ∃ a : Fin ny × Fin nx → ℝ, ∀ p, a p = im1 p - if zm then Spec.mean im1 else 0 := ⟨_, fun p => rfl⟩
  have hap : prep zm (realArr im1) = a := by rw [prep_real]; funext p; rw [ha]
  have hnorm := star_norm_le hσ h0 hcy hcx zm im1 a h1 ha
  obtain ⟨g, hg⟩ : ∃ g : Fin ny × Fin nx → ℝ, ∀ p, g p = A * (Spec.star σ (cy + dy) ((p.1 : ℕ) : ℝ) * Spec.star σ (cx + dx) ((p.2 : ℕ) : ℝ)) :=
    ⟨_, fun p => rfl⟩
  have hmoved := star_moved_le hσ h0 hcy hcx hcy' hcx' im1 g (fun _ => 0) h1 (fun p => by rw [hg, add_zero])
  obtain ⟨k, hk0, hk1, hlaw⟩ := star_cc_law hσ h0 hcy hcx zm im1 a h1 ha
  set ε := max (Spec.starEps ny σ h) (Spec.starEps nx σ h) with hε
  have hε0 : 0 ≤ ε := (starEps_nonneg' hσ h0 hcy).trans (le_max_left _ _)
  rw [← hβ] at hlaw
  have hβ0 : 0 ≤ β := by rw [hβ]; nlinarith
  set S := A ^ 2 * (Real.pi * σ ^ 2) with hS
  have hS0 : 0 < S := by positivity
  set ν := (1 + ε) * (Real.sqrt (ny * nx) * Spec.starMoved ny nx σ h + 0) / (σ * Real.sqrt Real.pi) with hν
  have hκ' : κ = 2 * β + 2 * ν := by rw [hβ]; exact hκ
  set N := Real.sqrt (∑ p, a p ^ 2) * Real.sqrt (∑ p, ‖(g p : ℂ) - cshift dy dx im1 p‖ ^ 2) with hN
  have hA' : |A| ≠ 0 := abs_ne_zero.2 hA
  have hApos : 0 < |A| := abs_pos.2 hA
  have hsp0 : Real.sqrt Real.pi ≠ 0 := by positivity
  have hsp : Real.sqrt Real.pi ^ 2 = Real.pi := Real.sq_sqrt hp.le
  set B := |A| * (σ * Real.sqrt Real.pi) with hB
  have hB0 : 0 < B := by positivity
  have hSB : S = B ^ 2 := by rw [hS, hB, mul_pow, mul_pow, sq_abs, hsp]; ring
  have hN1 : N ≤ S * ν := by
    refine (mul_le_mul hnorm hmoved (Real.sqrt_nonneg _) (by positivity)).trans (le_of_eq ?_)
    rw [hSB, hB, hν]
    simp only [ne_eq, OfNat.ofNat_ne_zero, not_false_eq_true, zero_pow, Finset.sum_const_zero, Real.sqrt_zero]
    field_simp
    ring
  have hN0 : 0 ≤ N := mul_nonneg (Real.sqrt_nonneg _) (Real.sqrt_nonneg _)
  have hν0 : 0 ≤ ν := by
    by_contra hne
    push Not at hne
    nlinarith
  refine ⟨by linarith, hβ0, fun ry rx gy gx ty tx uy ux hmin hnoise hty htx huy hux z1 z2 z3 z4 => ?_⟩
  have hcomp := near_best_noise zm im1 g η im2 (fun p => by rw [h2, hg]) s hs dy dx ry rx gy gx hmin
  rw [hap] at hcomp hnoise
  rw [← hN, cc_period a a (ry - dy) (rx - dx) ty tx z1 z2, cc_period a a (gy - dy) (gx - dx) uy ux z3 z4] at hcomp
  have e1 := (Complex.abs_re_le_norm _).trans (hlaw ty tx hty htx)
  have e2 := (Complex.abs_re_le_norm _).trans (hlaw uy ux huy hux)
  rw [Complex.sub_re, Complex.ofReal_re] at e1 e2
  have e3 := (abs_le.1 e1).2
  have e4 := (abs_le.1 e2).1
  -- the weights
  obtain ⟨zw, hzw⟩ := near_period ny (ry - gy)
  obtain ⟨ww, hww⟩ := near_period nx (rx - gx)
  have hE := noiseWeight_energy a ry rx gy gx
  rw [cc_period a a (ry - gy) (rx - gx) (ry - gy - zw * ny) (rx - gx - ww * nx) ⟨zw, by ring⟩ ⟨ww, by ring⟩] at hE
  have f1 := (Complex.abs_re_le_norm _).trans (hlaw _ _ hzw hww)
  have f2 := (Complex.abs_re_le_norm _).trans (hlaw 0 0 (by rw [abs_zero]; positivity) (by rw [abs_zero]; positivity))
  rw [Complex.sub_re, Complex.ofReal_re] at f1 f2
  have f3 := (abs_le.1 f1).1
  have f4 := (abs_le.1 f2).2
  have hcc0 : (Spec.cc a a 0 0).re = ∑ p, a p ^ 2 := by
    have := cc_adjoint a a 0 0
    rw [neg_zero] at this
    have h00 : ∀ p, cshift 0 0 a p = a p := by
      intro p
      have := cshift_period a 0 0 p
      simpa using this
    rw [this, Complex.re_sum]
    refine Finset.sum_congr rfl fun p _ => ?_
    rw [h00, ← Complex.ofReal_mul, Complex.ofReal_re]; ring
  rw [hcc0] at f4
  have hz0 : Real.exp (-((0 : ℝ) ^ 2 + 0 ^ 2) / (4 * σ ^ 2)) = 1 := by norm_num
  rw [hz0] at f4
  obtain ⟨y1, hy1⟩ := z1
  obtain ⟨y2, hy2⟩ := z2
  obtain ⟨y3, hy3⟩ := z3
  obtain ⟨y4, hy4⟩ := z4
  set wy := ry - gy - zw * ny with hwy
  set wx := rx - gx - ww * nx with hwx
  have g1 : |wy| ≤ |ty - uy| := by
    have := rep_min ny (ry - gy) zw (y1 - y3) hzw
    rw [show ry - gy - ((y1 - y3 : ℤ) : ℝ) * ny = ty - uy by push_cast; linarith] at this
    exact this
  have g2 : |wx| ≤ |tx - ux| := by
    have := rep_min nx (rx - gx) ww (y2 - y4) hww
    rw [show rx - gx - ((y2 - y4 : ℤ) : ℝ) * nx = tx - ux by push_cast; linarith] at this
    exact this
  have sq1 : ∀ x y : ℝ, Real.sqrt (x ^ 2 + y ^ 2) ^ 2 = x ^ 2 + y ^ 2 := fun x y => Real.sq_sqrt (by positivity)
  refine ⟨Real.sqrt (wy ^ 2 + wx ^ 2), Real.sqrt_nonneg _, ?_, ?_⟩
  · refine le_trans (Real.sqrt_le_sqrt ?_) (pair_triangle ty tx uy ux)
    exact add_le_add (sq_le_sq.2 g1) (sq_le_sq.2 g2)
  · rw [sq1, sq1, sq1]
    have hE2 : ∑ p, noiseWeight a ry rx gy gx p ^ 2 ≤ B ^ 2 * (2 * (1 - Real.exp (-(wy ^ 2 + wx ^ 2) / (4 * σ ^ 2)) + 2 * β)) := by
      rw [← hSB]; linarith
    have hE3 : Real.sqrt (∑ p, noiseWeight a ry rx gy gx p ^ 2) ≤ B * Real.sqrt (2 * (1 - Real.exp (-(wy ^ 2 + wx ^ 2) / (4 * σ ^ 2)) + 2 * β)) := by
      have := Real.sqrt_le_sqrt hE2
      rwa [Real.sqrt_mul (by positivity), Real.sqrt_sq hB0.le] at this
    have hE4 := hnoise.trans (mul_le_mul_of_nonneg_left hE3 hM)
    set R := Real.sqrt (2 * (1 - Real.exp (-(wy ^ 2 + wx ^ 2) / (4 * σ ^ 2)) + 2 * β)) with hR
    have hMB : M * (B * R) = S * (M / B * R) := by rw [hSB]; field_simp
    rw [hMB] at hE4
    have e5 : S * Real.exp (-(uy ^ 2 + ux ^ 2) / (4 * σ ^ 2)) ≤ S * (Real.exp (-(ty ^ 2 + tx ^ 2) / (4 * σ ^ 2)) + κ + M / B * R) := by
      rw [hκ']; linarith
    exact le_of_mul_le_mul_left e5 hS0

/-- the point of the zoomed grid nearest to the displacement `d` (the same for every whole-pixel minimum) -/
noncomputable def fineTarget (n u : ℕ) (d : ℝ) : ℝ :=
  -Spec.halfPix n + ((n : ℝ) - 1) / (2 * u) + round ((d - (-Spec.halfPix n + ((n : ℝ) - 1) / (2 * u))) * u) / u

omit [NeZero ny] [NeZero nx] in
theorem fineTarget_near (n u : ℕ) (hu : 1 ≤ u) (d : ℝ) : |fineTarget n u d - d| ≤ 1 / (2 * u) := by
  have hu0 : (0 : ℝ) < u := by exact_mod_cast hu
  unfold fineTarget
  set o := -Spec.halfPix n + ((n : ℝ) - 1) / (2 * u)
  have h := abs_sub_round ((d - o) * u)
  rw [abs_sub_comm] at h
  have e : o + round ((d - o) * u) / u - d = (round ((d - o) * u) - (d - o) * u) / u := by field_simp; ring
  rw [e, abs_div, abs_of_pos hu0, div_le_iff₀ hu0]
  refine h.trans (le_of_eq ?_)
  field_simp

omit [NeZero ny] [NeZero nx] in
/-- the window of the zoomed grid contains that point, if the whole-pixel minimum is near enough -/
theorem fine_index (n u : ℕ) [NeZero n] (hu : 1 ≤ u) (a : Fin n) (z : ℤ) (d ρ : ℝ) (h : |(Spec.lag n a : ℝ) - d - z * n| ≤ 1 / 2 + 2 * ρ)
    (hw : 2 * u * (1 + 2 * ρ) < n) : ∃ i : Fin n, -Spec.gridShift n a u n i = fineTarget n u d + z * n := by
  have hu0 : (1 : ℝ) ≤ u := by exact_mod_cast hu
  have hhalf : 0 ≤ Spec.halfPix n ∧ Spec.halfPix n ≤ 1 / 2 := by
    unfold Spec.halfPix; split_ifs <;> norm_num
  obtain ⟨j, hj⟩ : ∃ j : ℤ, j = u * (Spec.lag n a - z * n) - round ((d - (-Spec.halfPix n + ((n : ℝ) - 1) / (2 * u))) * u) := ⟨_, rfl⟩
  have hj' : (j : ℝ) = u * ((Spec.lag n a : ℝ) - z * n) - round ((d - (-Spec.halfPix n + ((n : ℝ) - 1) / (2 * u))) * u) := by
    rw [hj]; push_cast; ring
  have hr := abs_sub_round ((d - (-Spec.halfPix n + ((n : ℝ) - 1) / (2 * u))) * u)
  have eo : (d - (-Spec.halfPix n + ((n : ℝ) - 1) / (2 * u))) * u = d * u + Spec.halfPix n * u - ((n : ℝ) - 1) / 2 := by
    field_simp; ring
  rw [eo] at hr hj'
  rw [abs_le] at hr h
  obtain ⟨x, hx⟩ : ∃ x : ℝ, x = (Spec.lag n a : ℝ) - d - z * n := ⟨_, rfl⟩
  rw [← hx] at h
  have h1 := mul_le_mul_of_nonneg_left h.1 (by linarith : (0 : ℝ) ≤ u)
  have h2 := mul_le_mul_of_nonneg_left h.2 (by linarith : (0 : ℝ) ≤ u)
  have h3 := mul_le_mul_of_nonneg_left hhalf.2 (by linarith : (0 : ℝ) ≤ u)
  have h4 := mul_nonneg (by linarith : (0 : ℝ) ≤ u) hhalf.1
  have hjx : (j : ℝ) = u * x + (d * u - round (d * u + Spec.halfPix n * u - ((n : ℝ) - 1) / 2)) := by
    rw [hj', hx]; ring
  have hlo : (-1 : ℝ) < j := by rw [hjx]; linarith [hr.1]
  have hhi : (j : ℝ) < n := by rw [hjx]; linarith [hr.2]
  have hlo' : (-1 : ℤ) < j := by exact_mod_cast hlo
  have hhi' : j < n := by exact_mod_cast hhi
  refine ⟨⟨j.toNat, by omega⟩, ?_⟩
  have hc : ((j.toNat : ℕ) : ℝ) = (j : ℝ) := by
    have : ((j.toNat : ℕ) : ℤ) = j := Int.toNat_of_nonneg (by omega)
    exact_mod_cast this
  unfold Spec.gridShift fineTarget
  rw [eo]
  simp only [hc]
  rw [hj']
  unfold Spec.lag
  push_cast
  field_simp
  ring

set_option maxHeartbeats 1600000 in
/-- the answer, when no relevant linear form of the noise is larger than `M` times its norm -/
theorem chi2_star_noise (cfg : FFTConfig) (st : Stats) (hst : Spec.validStats st) {σ h A cy cx dy dx : ℝ} (hσ : 0 < σ) (h0 : 0 ≤ h) (hA : A ≠ 0)
    (hcy : Spec.inside ny h cy) (hcx : Spec.inside nx h cx) (hcy' : Spec.inside ny h (cy + dy)) (hcx' : Spec.inside nx h (cx + dx))
    (im1 im2 η : Fin ny × Fin nx → ℝ) (h1 : ∀ p, im1 p = A * (Spec.star σ cy ((p.1 : ℕ) : ℝ) * Spec.star σ cx ((p.2 : ℕ) : ℝ)))
    (h2 : ∀ p, im2 p = A * (Spec.star σ (cy + dy) ((p.1 : ℕ) : ℝ) * Spec.star σ (cx + dx) ((p.2 : ℕ) : ℝ)) + η p)
    (err : ErrArg ny nx) (s : ℝ) (hs : s ≠ 0) (herr : Spec.isScalarErr err s) (u : ℕ) (hu : 1 ≤ u) (zm : Bool) (nf : ℝ) (mas : ℕ) (mns : ℝ)
    (ah : Bool) (hf : Spec.fits ah ny nx) (κ β M m q ρ : ℝ) (hM : 0 ≤ M) (hκ : κ = Spec.starBudget ny nx σ h 0)
    (hβ : β = (1 + max (Spec.starEps ny σ h) (Spec.starEps nx σ h)) ^ 2 - 1)
    (hm : m = M / (|A| * (σ * Real.sqrt Real.pi)))
    (hq : q = Real.exp (-1 / (8 * σ ^ 2)) - κ - m * Real.sqrt (2 + 4 * β)) (hq0 : 0 < q)
    (hρ : ρ = 2 * Real.sqrt 2 * σ * m / q + 2 * σ * Real.sqrt ((κ + 2 * m * Real.sqrt β) / q))
    (hwy : 2 * u * (1 + 2 * ρ) < ny) (hwx : 2 * u * (1 + 2 * ρ) < nx)
    (hE1 : ∀ e : Fin ny × Fin nx, ∑ p, η p * noiseWeight (prep zm (realArr im1)) (Spec.lag ny e.1) (Spec.lag nx e.2)
        (Spec.lag ny (Spec.wrap ny ((Spec.zeroLag ny : ℤ) - round dy))) (Spec.lag nx (Spec.wrap nx ((Spec.zeroLag nx : ℤ) - round dx))) p
      ≤ M * Real.sqrt (∑ p, noiseWeight (prep zm (realArr im1)) (Spec.lag ny e.1) (Spec.lag nx e.2)
        (Spec.lag ny (Spec.wrap ny ((Spec.zeroLag ny : ℤ) - round dy))) (Spec.lag nx (Spec.wrap nx ((Spec.zeroLag nx : ℤ) - round dx))) p ^ 2))
    (hE2 : ∀ e i : Fin ny × Fin nx, ∑ p, η p * noiseWeight (prep zm (realArr im1)) (-Spec.gridShift ny e.1 u ny i.1) (-Spec.gridShift nx e.2 u nx i.2)
        (fineTarget ny u dy) (fineTarget nx u dx) p
      ≤ M * Real.sqrt (∑ p, noiseWeight (prep zm (realArr im1)) (-Spec.gridShift ny e.1 u ny i.1) (-Spec.gridShift nx e.2 u nx i.2)
        (fineTarget ny u dy) (fineTarget nx u dx) p ^ 2)) :
    ∃ rx ry : ℝ, chi2Shift cfg st (realArr im1) (realArr im2) err (.int u) zm nf false false false mas mns ah = .ok [.num rx, .num ry] ∧
      ∃ z w : ℤ, Real.sqrt ((ry - dy - z * ny) ^ 2 + (rx - dx - w * nx) ^ 2) ≤ Real.sqrt 2 / (2 * u) + ρ := by
  have hu0 : (1 : ℝ) ≤ u := by exact_mod_cast hu
  have hA0 : 0 < |A| := abs_pos.2 hA
  have hm0 : 0 ≤ m := by rw [hm]; positivity
  obtain ⟨hκ0, hβ0, hcomp⟩ := star_compare_noise hσ h0 hA hcy hcx hcy' hcx' im1 im2 η h1 h2 zm s hs κ β M hM hκ hβ
  have hρ0 : 0 ≤ ρ := by rw [hρ]; positivity
  have hny2 : (2 : ℝ) < ny := by nlinarith
  have hnx2 : (2 : ℝ) < nx := by nlinarith
  have hlt : ¬ ny ≤ u := by
    intro hle
    have : (ny : ℝ) ≤ u := by exact_mod_cast hle
    nlinarith
  obtain ⟨cm, hcm, hchi, s1, s2, i1, i2, hg, uu, huu, hu0', yv, xv, hyv, hxv, c, hc, er, her, hres⟩ :=
    chi2Shift_scalar cfg st hst (realArr im1) (realArr im2) err s herr (.int u) zm nf mas mns ah hf hu
  replace huu : uu = (u : ℝ) := huu
  subst huu
  simp only [Spec.gridSize, if_neg hlt] at hg
  obtain ⟨g1, g2⟩ := Prod.mk.inj hg
  subst g1 g2
  refine ⟨_, _, (hres false false).trans rfl, ?_⟩
  obtain ⟨Fy, hFy⟩ : ∃ F : ℤ, F = Spec.lag s1 (Np.argmin cm.chi2).1 := ⟨_, rfl⟩
  obtain ⟨Fx, hFx⟩ : ∃ F : ℤ, F = Spec.lag s2 (Np.argmin cm.chi2).2 := ⟨_, rfl⟩
  obtain ⟨z, hz⟩ := near_period s1 ((Fy : ℝ) - dy)
  obtain ⟨w, hw⟩ := near_period s2 ((Fx : ℝ) - dx)
  have hcoarse : |(Fy : ℝ) - dy - z * s1| ≤ 1 / 2 + 2 * ρ ∧ |(Fx : ℝ) - dx - w * s2| ≤ 1 / 2 + 2 * ρ := by
    have hmin := (Np.argmin_spec cm.chi2).1 (Spec.wrap s1 ((Spec.zeroLag s1 : ℤ) - round dy), Spec.wrap s2 ((Spec.zeroLag s2 : ℤ) - round dx))
    have hev := hE1 (Np.argmin cm.chi2)
    rw [hchi, hchi, ← hFy, ← hFx] at hmin
    rw [← hFy, ← hFx] at hev
    have w1 : Spec.lag s1 (Spec.wrap s1 ((Spec.zeroLag s1 : ℤ) - round dy)) ≡ round dy [ZMOD s1] := Spec.lag_wrap s1 (round dy)
    have w2 : Spec.lag s2 (Spec.wrap s2 ((Spec.zeroLag s2 : ℤ) - round dx)) ≡ round dx [ZMOD s2] := Spec.lag_wrap s2 (round dx)
    obtain ⟨q1, hq1⟩ := w1.symm.dvd
    obtain ⟨q2, hq2⟩ := w2.symm.dvd
    generalize Spec.lag s1 (Spec.wrap s1 ((Spec.zeroLag s1 : ℤ) - round dy)) = G1 at *
    generalize Spec.lag s2 (Spec.wrap s2 ((Spec.zeroLag s2 : ℤ) - round dx)) = G2 at *
    have hq1' : (G1 : ℝ) - round dy = s1 * q1 := by exact_mod_cast hq1
    have hq2' : (G2 : ℝ) - round dx = s2 * q2 := by exact_mod_cast hq2
    push_cast at hmin
    have ny1 := abs_sub_round dy
    have nx1 := abs_sub_round dx
    rw [abs_sub_comm] at ny1 nx1
    obtain ⟨W, hW0, hW, hD⟩ := hcomp (Fy : ℝ) (Fx : ℝ) (G1 : ℝ) (G2 : ℝ) ((Fy : ℝ) - dy - z * s1) ((Fx : ℝ) - dx - w * s2)
      ((round dy : ℝ) - dy) ((round dx : ℝ) - dx) hmin hev hz hw (by linarith) (by linarith) ⟨z, by ring⟩ ⟨w, by ring⟩
      ⟨q1, by linarith⟩ ⟨q2, by linarith⟩
    rw [← hm] at hD
    have d1 := sq_le_sq.2 (show |(round dy : ℝ) - dy| ≤ |(Fy : ℝ) - dy - z * s1| by
      have := nearest_le dy (Fy - z * s1)
      push_cast at this
      rwa [show (Fy : ℝ) - z * s1 - dy = (Fy : ℝ) - dy - z * s1 by ring] at this)
    have d2 := sq_le_sq.2 (show |(round dx : ℝ) - dx| ≤ |(Fx : ℝ) - dx - w * s2| by
      have := nearest_le dx (Fx - w * s2)
      push_cast at this
      rwa [show (Fx : ℝ) - w * s2 - dx = (Fx : ℝ) - dx - w * s2 by ring] at this)
    have c1 := pow_le_pow_left₀ (abs_nonneg _) ny1 2
    have c2 := pow_le_pow_left₀ (abs_nonneg _) nx1 2
    rw [sq_abs] at c1 c2
    set p1 := (round dy : ℝ) - dy
    set p2 := (round dx : ℝ) - dx
    set y1 := (Fy : ℝ) - dy - z * s1
    set y2 := (Fx : ℝ) - dx - w * s2
    have hU2 : Real.sqrt (p1 ^ 2 + p2 ^ 2) ^ 2 = p1 ^ 2 + p2 ^ 2 := Real.sq_sqrt (by positivity)
    have hT2 : Real.sqrt (y1 ^ 2 + y2 ^ 2) ^ 2 = y1 ^ 2 + y2 ^ 2 := Real.sq_sqrt (by positivity)
    have hU0 := Real.sqrt_nonneg (p1 ^ 2 + p2 ^ 2)
    have hT0 := Real.sqrt_nonneg (y1 ^ 2 + y2 ^ 2)
    have hle := noisy_dist hσ hκ0 hβ0 hm0 hU0 (by rw [hU2]; linarith) hT0 hW0 hW hD hq hq0 hρ
    generalize Real.sqrt (p1 ^ 2 + p2 ^ 2) = U at *
    generalize Real.sqrt (y1 ^ 2 + y2 ^ 2) = T at *
    have hU1 : U ≤ 1 := by nlinarith
    have hTT := pow_le_pow_left₀ hT0 hle 2
    have e1 : (U + ρ) ^ 2 = U ^ 2 + 2 * (U * ρ) + ρ ^ 2 := by ring
    have e2 : U * ρ ≤ ρ := by nlinarith
    have e3 : (1 / 2 + 2 * ρ) ^ 2 = 1 / 4 + 2 * ρ + 4 * ρ ^ 2 := by ring
    have e4 := sq_nonneg ρ
    norm_num at c1 c2
    constructor
    · refine abs_le_of_sq_le_sq (e3 ▸ ?_) (by linarith)
      linarith
    · refine abs_le_of_sq_le_sq (e3 ▸ ?_) (by linarith)
      linarith
  obtain ⟨jy, hjy⟩ := fine_index s1 u hu (Np.argmin cm.chi2).1 z dy ρ (by rw [← hFy]; exact hcoarse.1) hwy
  obtain ⟨jx, hjx⟩ := fine_index s2 u hu (Np.argmin cm.chi2).2 w dx ρ (by rw [← hFx]; exact hcoarse.2) hwx
  have hmin := (Np.argmin_spec c).1 (jy, jx)
  rw [hc] at hmin
  beta_reduce at hmin
  rw [← hc] at hmin
  have gy : -yv (jy, jx) = fineTarget s1 u dy + z * s1 := by rw [hyv]; exact hjy
  have gx : -xv (jy, jx) = fineTarget s2 u dx + w * s2 := by rw [hxv]; exact hjx
  have hev := hE2 (Np.argmin cm.chi2) (Np.argmin c)
  have hy' : -yv (Np.argmin c) = -Spec.gridShift s1 (Np.argmin cm.chi2).1 u s1 (Np.argmin c).1 := by rw [hyv]
  have hx' : -xv (Np.argmin c) = -Spec.gridShift s2 (Np.argmin cm.chi2).2 u s2 (Np.argmin c).2 := by rw [hxv]
  rw [← hy', ← hx'] at hev
  have hnw : noiseWeight (prep zm (realArr im1)) (-yv (Np.argmin c)) (-xv (Np.argmin c)) (fineTarget s1 u dy) (fineTarget s2 u dx)
      = noiseWeight (prep zm (realArr im1)) (-yv (Np.argmin c)) (-xv (Np.argmin c)) (-yv (jy, jx)) (-xv (jy, jx)) := by
    funext p
    unfold noiseWeight
    rw [gy, gx, cshift_add_period]
  rw [hnw] at hev
  have hy1 := fineTarget_near s1 u hu dy
  have hx1 := fineTarget_near s2 u hu dx
  generalize Np.argmin c = qq at *
  obtain ⟨z', hz'⟩ := near_period s1 (-yv qq - dy)
  obtain ⟨w', hw'⟩ := near_period s2 (-xv qq - dx)
  refine ⟨z', w', ?_⟩
  have hg1 : 1 / (2 * (u : ℝ)) ≤ 1 / 2 := one_div_le_one_div_of_le (by norm_num) (by linarith)
  obtain ⟨W, hW0, hW, hD⟩ := hcomp (-yv qq) (-xv qq) (-yv (jy, jx)) (-xv (jy, jx)) (-yv qq - dy - z' * s1) (-xv qq - dx - w' * s2)
    (fineTarget s1 u dy - dy) (fineTarget s2 u dx - dx) (by rw [neg_neg, neg_neg, neg_neg, neg_neg]; exact hmin) hev
    hz' hw' (by linarith) (by linarith) ⟨z', by ring⟩ ⟨w', by ring⟩ ⟨z, by rw [gy]; ring⟩ ⟨w, by rw [gx]; ring⟩
  rw [← hm] at hD
  have c1 := pow_le_pow_left₀ (abs_nonneg _) hy1 2
  have c2 := pow_le_pow_left₀ (abs_nonneg _) hx1 2
  rw [sq_abs] at c1 c2
  have hb : (Real.sqrt 2 / (2 * (u : ℝ))) ^ 2 = 2 * (1 / (2 * (u : ℝ))) ^ 2 := by
    rw [div_pow, div_pow, Real.sq_sqrt (by norm_num)]; ring
  have hUle : Real.sqrt ((fineTarget s1 u dy - dy) ^ 2 + (fineTarget s2 u dx - dx) ^ 2) ≤ Real.sqrt 2 / (2 * u) := by
    rw [Real.sqrt_le_left (by positivity), hb]
    linarith
  have hg2 : (1 / (2 * (u : ℝ))) ^ 2 ≤ (1 / 2) ^ 2 := pow_le_pow_left₀ (by positivity) hg1 2
  have hle := noisy_dist hσ hκ0 hβ0 hm0 (Real.sqrt_nonneg _) (by
    refine (pow_le_pow_left₀ (Real.sqrt_nonneg _) hUle 2).trans ?_
    rw [hb]; linarith) (Real.sqrt_nonneg _) hW0 hW hD hq hq0 hρ
  linarith

end

/-- tail of a linear form of independent sub-Gaussian noise, in units of its standard deviation -/
theorem weight_tail {Ω : Type*} [MeasurableSpace Ω] (μ : Measure Ω) {ι : Type*} [Fintype ι] [IsProbabilityMeasure μ] (n : Ω → ι → ℝ) (c : ι → NNReal)
    (v : ℝ) (hv : 0 < v) (hc : ∀ p, (c p : ℝ) ≤ v) (hind : ProbabilityTheory.iIndepFun (fun p ω => n ω p) μ)
    (hsub : ∀ p, ProbabilityTheory.HasSubgaussianMGF (fun ω => n ω p) (c p) μ) (w : ι → ℝ) (k : ℝ) (hk : 0 < k) :
    μ.real {ω | k * Real.sqrt v * Real.sqrt (∑ p, w p ^ 2) < ∑ p, n ω p * w p} ≤ Real.exp (-(k ^ 2 / 2)) := by
  have hE0 : 0 ≤ ∑ p, w p ^ 2 := Finset.sum_nonneg fun p _ => sq_nonneg _
  rcases hE0.eq_or_lt with h0 | hpos
  · have hw : ∀ p, w p = 0 := by
      intro p
      have := (Finset.sum_eq_zero_iff_of_nonneg fun p _ => sq_nonneg (w p)).1 h0.symm p (Finset.mem_univ p)
      simpa using this
    have : {ω | k * Real.sqrt v * Real.sqrt (∑ p, w p ^ 2) < ∑ p, n ω p * w p} = ∅ := by
      ext ω
      simp [hw]
    rw [this]
    simp [Real.exp_nonneg]
  · set N := Real.sqrt (∑ p, w p ^ 2) with hN
    have hN0 : 0 < N := Real.sqrt_pos.2 hpos
    have hN2 : N ^ 2 = ∑ p, w p ^ 2 := Real.sq_sqrt hE0
    have hsv : 0 < Real.sqrt v := Real.sqrt_pos.2 hv
    have hsv2 : Real.sqrt v ^ 2 = v := Real.sq_sqrt hv.le
    set l := 2 * k * Real.sqrt v / N with hl
    have hl0 : 0 < l := by positivity
    have h := lin_tail μ n c v hv hc hind hsub (fun p => l * w p) (4 * k ^ 2 * v) (by positivity) (by
      simp only [mul_pow]
      rw [← Finset.mul_sum, ← hN2, hl, div_pow, mul_pow, mul_pow, hsv2]
      field_simp
      norm_num)
    have e : -(4 * k ^ 2 * v / (8 * v)) = -(k ^ 2 / 2) := by field_simp; norm_num
    rw [e] at h
    refine (measureReal_mono ?_ (measure_ne_top _ _)).trans h
    intro ω hω
    simp only [Set.mem_ofPred_eq] at hω ⊢
    have e2 : ∑ p, n ω p * (l * w p) = l * ∑ p, n ω p * w p := by
      rw [Finset.mul_sum]
      exact Finset.sum_congr rfl fun p _ => by ring
    rw [e2]
    have h3 := mul_le_mul_of_nonneg_left hω.le hl0.le
    have e4 : l * (k * Real.sqrt v * N) = 2 * k ^ 2 * v := by
      rw [hl]
      field_simp
      linear_combination hsv2
    rw [e4] at h3
    linarith

section
variable {ny nx : ℕ} [NeZero ny] [NeZero nx] {Ω : Type*} [MeasurableSpace Ω] (μ : Measure Ω)

/-- C143: `chi2_shift` on a star with random noise. The second image shows the star of the first one (width `σ`, height `A` of any sign) moved
by `(dx, dy)`, plus independent noise, in every pixel sub-Gaussian with variance proxy at most `v` (for instance Gaussian of variance at most
`v`); the star stays at least `h` pixels away from the edges. Any scalar error, with or without `zeromean`, and an integer `upsample_factor`
`u`. Choose a number `k` of standard deviations. With `m = k√v/(|A|σ√π)` the noise of the correlation relative to the signal,
`q = exp(-1/8σ²) - κ - m√(2+4β)` and `ρ = 2√2·σm/q + 2σ√((κ + 2m√β)/q)` (where `κ` and `β` account for sampling and the edges of the frame),
if `q > 0` and the zoomed window is wide enough: except with probability at most `N(1+N)·exp(-k²/2)`, `N` the number of pixels, the reported
displacement is within `√2/(2u) + ρ` of the true one (modulo the size of the frame). -/
theorem C143_star_in_noise (cfg : FFTConfig) (st : Stats) (hst : Spec.validStats st) [IsProbabilityMeasure μ]
    {σ h A cy cx dy dx : ℝ} (hσ : 0 < σ) (h0 : 0 ≤ h) (hA : A ≠ 0)
    (hcy : Spec.inside ny h cy) (hcx : Spec.inside nx h cx) (hcy' : Spec.inside ny h (cy + dy)) (hcx' : Spec.inside nx h (cx + dx))
    (n : Ω → Fin ny × Fin nx → ℝ) (c : Fin ny × Fin nx → NNReal) (v : ℝ) (hv : 0 < v) (hc : ∀ p, (c p : ℝ) ≤ v)
    (hind : ProbabilityTheory.iIndepFun (fun p ω => n ω p) μ)
    (hsub : ∀ p, ProbabilityTheory.HasSubgaussianMGF (fun ω => n ω p) (c p) μ)
    (err : ErrArg ny nx) (s : ℝ) (hs : s ≠ 0) (herr : Spec.isScalarErr err s) (u : ℕ) (hu : 1 ≤ u) (zm : Bool) (nf : ℝ) (mas : ℕ) (mns : ℝ)
    (ah : Bool) (hf : Spec.fits ah ny nx) (k κ β m q ρ : ℝ) (hk : 0 < k) (hκ : κ = Spec.starBudget ny nx σ h 0)
    (hβ : β = (1 + max (Spec.starEps ny σ h) (Spec.starEps nx σ h)) ^ 2 - 1)
    (hm : m = k * Real.sqrt v / (|A| * (σ * Real.sqrt Real.pi)))
    (hq : q = Real.exp (-1 / (8 * σ ^ 2)) - κ - m * Real.sqrt (2 + 4 * β)) (hq0 : 0 < q)
    (hρ : ρ = 2 * Real.sqrt 2 * σ * m / q + 2 * σ * Real.sqrt ((κ + 2 * m * Real.sqrt β) / q))
    (hwy : 2 * u * (1 + 2 * ρ) < ny) (hwx : 2 * u * (1 + 2 * ρ) < nx) :
    μ.real {ω | ¬ ∃ rx ry : ℝ,
      chi2Shift cfg st (realArr fun p => A * (Spec.star σ cy ((p.1 : ℕ) : ℝ) * Spec.star σ cx ((p.2 : ℕ) : ℝ)))
        (realArr fun p => A * (Spec.star σ (cy + dy) ((p.1 : ℕ) : ℝ) * Spec.star σ (cx + dx) ((p.2 : ℕ) : ℝ)) + n ω p)
        err (.int u) zm nf false false false mas mns ah = .ok [.num rx, .num ry] ∧
      ∃ z w : ℤ, Real.sqrt ((ry - dy - z * ny) ^ 2 + (rx - dx - w * nx) ^ 2) ≤ Real.sqrt 2 / (2 * u) + ρ}
      ≤ (ny * nx) * (1 + ny * nx) * Real.exp (-(k ^ 2 / 2)) := by
  obtain ⟨im1, h1⟩ : ∃ im1 : Fin ny × Fin nx → ℝ, im1 = fun p => A * (Spec.star σ cy ((p.1 : ℕ) : ℝ) * Spec.star σ cx ((p.2 : ℕ) : ℝ)) := ⟨_, rfl⟩
  rw [← h1]
  let B1 : Fin ny × Fin nx → Set Ω := fun e => {ω | k * Real.sqrt v * Real.sqrt (∑ p, noiseWeight (prep zm (realArr im1)) (Spec.lag ny e.1) (Spec.lag nx e.2)
        (Spec.lag ny (Spec.wrap ny ((Spec.zeroLag ny : ℤ) - round dy))) (Spec.lag nx (Spec.wrap nx ((Spec.zeroLag nx : ℤ) - round dx))) p ^ 2)
      < ∑ p, n ω p * noiseWeight (prep zm (realArr im1)) (Spec.lag ny e.1) (Spec.lag nx e.2)
        (Spec.lag ny (Spec.wrap ny ((Spec.zeroLag ny : ℤ) - round dy))) (Spec.lag nx (Spec.wrap nx ((Spec.zeroLag nx : ℤ) - round dx))) p}
  let B2 : (Fin ny × Fin nx) × (Fin ny × Fin nx) → Set Ω := fun e => {ω | k * Real.sqrt v * Real.sqrt (∑ p, noiseWeight (prep zm (realArr im1))
        (-Spec.gridShift ny e.1.1 u ny e.2.1) (-Spec.gridShift nx e.1.2 u nx e.2.2) (fineTarget ny u dy) (fineTarget nx u dx) p ^ 2)
      < ∑ p, n ω p * noiseWeight (prep zm (realArr im1)) (-Spec.gridShift ny e.1.1 u ny e.2.1) (-Spec.gridShift nx e.1.2 u nx e.2.2)
        (fineTarget ny u dy) (fineTarget nx u dx) p}
  have hb1 : ∀ e, μ.real (B1 e) ≤ Real.exp (-(k ^ 2 / 2)) := fun e => weight_tail μ n c v hv hc hind hsub _ k hk
  have hb2 : ∀ e, μ.real (B2 e) ≤ Real.exp (-(k ^ 2 / 2)) := fun e => weight_tail μ n c v hv hc hind hsub _ k hk
  have hu1 : μ.real (⋃ e ∈ (univ : Finset (Fin ny × Fin nx)), B1 e) ≤ (ny * nx) * Real.exp (-(k ^ 2 / 2)) := by
    refine (measureReal_biUnion_finset_le _ _).trans ((Finset.sum_le_sum fun e _ => hb1 e).trans (le_of_eq ?_))
    rw [Finset.sum_const, nsmul_eq_mul, Finset.card_univ, Fintype.card_prod, Fintype.card_fin, Fintype.card_fin]
    push_cast; ring
  have hu2 : μ.real (⋃ e ∈ (univ : Finset ((Fin ny × Fin nx) × (Fin ny × Fin nx))), B2 e) ≤ (ny * nx) * (ny * nx) * Real.exp (-(k ^ 2 / 2)) := by
    refine (measureReal_biUnion_finset_le _ _).trans ((Finset.sum_le_sum fun e _ => hb2 e).trans (le_of_eq ?_))
    rw [Finset.sum_const, nsmul_eq_mul, Finset.card_univ, Fintype.card_prod, Fintype.card_prod, Fintype.card_fin, Fintype.card_fin]
    push_cast; ring
  refine (measureReal_mono (s₂ := (⋃ e ∈ (univ : Finset (Fin ny × Fin nx)), B1 e) ∪
    ⋃ e ∈ (univ : Finset ((Fin ny × Fin nx) × (Fin ny × Fin nx))), B2 e) ?_ (measure_ne_top _ _)).trans
    ((measureReal_union_le _ _).trans (by linarith))
  intro ω hω
  simp only [Set.mem_ofPred_eq] at hω
  by_contra hno
  rw [Set.mem_union, not_or] at hno
  simp only [Finset.mem_univ, Set.iUnion_true, Set.mem_iUnion, not_exists] at hno
  refine hω (chi2_star_noise cfg st hst hσ h0 hA hcy hcx hcy' hcx' im1 _ (n ω) (fun p => by rw [h1]) (fun p => rfl) err s hs herr u hu zm nf mas mns
    ah hf κ β (k * Real.sqrt v) m q ρ (by positivity) hκ hβ hm hq hq0 hρ hwy hwx ?_ ?_)
  · intro e
    exact not_lt.1 (hno.1 e)
  · intro e i
    exact not_lt.1 (hno.2 (e, i))

/-- C143 (a case that meets the conditions): a star of width 3, of any height, anywhere in a 100 × 100 image but at least 25 pixels away from the
edges, moved by any amount that keeps it there, with independent Gaussian noise whose standard deviation is at most the fraction `f ≤ 1/20`
of the height of the star: with any scalar error, `chi2_shift` with an integer factor `u ≤ 19` is within `√2/(2u) + 1/40 + 15f` pixels of the
true displacement, except with a probability of one in ten thousand. -/
theorem C143_star_in_noise_example (cfg : FFTConfig) (st : Stats) (hst : Spec.validStats st) [IsProbabilityMeasure μ] {A cy cx dy dx : ℝ} (hA : A ≠ 0)
    (hcy : 25 ≤ cy ∧ cy ≤ 74) (hcx : 25 ≤ cx ∧ cx ≤ 74) (hcy' : 25 ≤ cy + dy ∧ cy + dy ≤ 74) (hcx' : 25 ≤ cx + dx ∧ cx + dx ≤ 74)
    (n : Ω → Fin 100 × Fin 100 → ℝ) (v : Fin 100 × Fin 100 → NNReal) (f : ℝ) (hf0 : 0 < f) (hf1 : f ≤ 1 / 20) (hv : ∀ p, (v p : ℝ) ≤ (f * A) ^ 2)
    (hind : ProbabilityTheory.iIndepFun (fun p ω => n ω p) μ)
    (hgauss : ∀ p, μ.map (fun ω => n ω p) = ProbabilityTheory.gaussianReal 0 (v p))
    (err : ErrArg 100 100) (s : ℝ) (hs : s ≠ 0) (herr : Spec.isScalarErr err s) (u : ℕ) (hu : 1 ≤ u) (hu19 : u ≤ 19) (zm : Bool) (nf : ℝ) (mas : ℕ)
    (mns : ℝ) (ah : Bool) (hf : Spec.fits ah 100 100) :
    μ.real {ω | ¬ ∃ rx ry : ℝ,
      chi2Shift cfg st (realArr fun p : Fin 100 × Fin 100 => A * (Spec.star 3 cy ((p.1 : ℕ) : ℝ) * Spec.star 3 cx ((p.2 : ℕ) : ℝ)))
        (realArr fun p => A * (Spec.star 3 (cy + dy) ((p.1 : ℕ) : ℝ) * Spec.star 3 (cx + dx) ((p.2 : ℕ) : ℝ)) + n ω p)
        err (.int u) zm nf false false false mas mns ah = .ok [.num rx, .num ry] ∧
      ∃ z w : ℤ, Real.sqrt ((ry - dy - z * 100) ^ 2 + (rx - dx - w * 100) ^ 2) ≤ Real.sqrt 2 / (2 * u) + (1 / 40 + 15 * f)}
      ≤ 1 / 10000 := by
  have hin : ∀ c : ℝ, 25 ≤ c ∧ c ≤ 74 → Spec.inside 100 25 c := by
    intro c hc; unfold Spec.inside; push_cast; exact ⟨hc.1, by linarith [hc.2]⟩
  have hb := star3_budget (le_refl (0 : ℝ))
  have hε := star3_bounds.2.2.2.2
  have hε0 : 0 ≤ Spec.starEps 100 3 25 := starEps_nonneg' (c := 50) (by norm_num) (by norm_num) (by unfold Spec.inside; norm_num)
  have hA0 : 0 < |A| := abs_pos.2 hA
  obtain ⟨κ, hκ⟩ : ∃ κ, κ = Spec.starBudget 100 100 3 25 0 := ⟨_, rfl⟩
  obtain ⟨β, hβ⟩ : ∃ β, β = (1 + max (Spec.starEps 100 3 25) (Spec.starEps 100 3 25)) ^ 2 - 1 := ⟨_, rfl⟩
  obtain ⟨m, hm⟩ : ∃ m, m = 15 / 2 * Real.sqrt ((f * A) ^ 2) / (|A| * (3 * Real.sqrt Real.pi)) := ⟨_, rfl⟩
  obtain ⟨q, hq⟩ : ∃ q, q = Real.exp (-1 / (8 * (3 : ℝ) ^ 2)) - κ - m * Real.sqrt (2 + 4 * β) := ⟨_, rfl⟩
  obtain ⟨ρ, hρ⟩ : ∃ ρ, ρ = 2 * Real.sqrt 2 * 3 * m / q + 2 * 3 * Real.sqrt ((κ + 2 * m * Real.sqrt β) / q) := ⟨_, rfl⟩
  have hκ0 : 0 ≤ κ := (star_compare_noise (σ := 3) (h := 25) (A := A) (by norm_num) (by norm_num) hA (hin _ hcy) (hin _ hcx)
    (hin _ hcy') (hin _ hcx') _ _ (fun _ => 0) (fun p => rfl) (fun p => rfl) zm s hs κ β 1 (by norm_num) hκ hβ).1
  have hκ1 : κ ≤ 1 / 10 ^ 7 := by rw [hκ]; linarith
  rw [max_self] at hβ
  have hβ0 : 0 ≤ β := by rw [hβ]; nlinarith
  have hβ1 : β ≤ 5 / 10 ^ 9 := by
    rw [hβ]
    have := pow_le_pow_left₀ (by linarith : 0 ≤ 1 + Spec.starEps 100 3 25) (by linarith : 1 + Spec.starEps 100 3 25 ≤ 1 + 2 / 10 ^ 9) 2
    have e : ((1 : ℝ) + 2 / 10 ^ 9) ^ 2 ≤ 1 + 5 / 10 ^ 9 := by norm_num
    linarith
  have hsβ : Real.sqrt β ≤ 71 / 10 ^ 6 := by
    rw [Real.sqrt_le_left (by norm_num)]
    refine hβ1.trans (by norm_num)
  have hs2 : Real.sqrt 2 ≤ 14143 / 10000 := by rw [Real.sqrt_le_left (by norm_num)]; norm_num
  have hs24 : Real.sqrt (2 + 4 * β) ≤ 14143 / 10000 := by
    rw [Real.sqrt_le_left (by norm_num)]
    refine (by linarith : 2 + 4 * β ≤ 2 + 4 * (5 / 10 ^ 9)).trans (by norm_num)
  have hsp := sqrt_pi_gt
  have hm' : m = 5 / 2 * f / Real.sqrt Real.pi := by
    rw [hm, Real.sqrt_sq_eq_abs, abs_mul, abs_of_pos hf0]
    have : Real.sqrt Real.pi ≠ 0 := by positivity
    field_simp
    norm_num
  have hm0 : 0 ≤ m := by rw [hm']; positivity
  have hm1 : m ≤ 1471 / 1000 * f := by
    rw [hm', div_le_iff₀ (by linarith)]
    nlinarith
  have he : 986 / 1000 ≤ Real.exp (-1 / (8 * (3 : ℝ) ^ 2)) := by
    have := Real.add_one_le_exp (-1 / (8 * (3 : ℝ) ^ 2))
    refine le_trans (by norm_num) this
  have hq1 : 88 / 100 ≤ q := by
    have h1 : m * Real.sqrt (2 + 4 * β) ≤ 1471 / 1000 * (1 / 20) * (14143 / 10000) :=
      mul_le_mul (by linarith) hs24 (Real.sqrt_nonneg _) (by norm_num)
    rw [hq]
    norm_num at h1 hκ1
    linarith
  have hq0 : 0 < q := by linarith
  have hρ1 : ρ ≤ 1 / 40 + 15 * f := by
    have h1 : 2 * Real.sqrt 2 * 3 * m / q ≤ 15 * f := by
      rw [div_le_iff₀ hq0]
      have a1 : Real.sqrt 2 * m ≤ 14143 / 10000 * (1471 / 1000 * f) := mul_le_mul hs2 hm1 hm0 (by norm_num)
      have a2 : f * (88 / 100) ≤ f * q := mul_le_mul_of_nonneg_left hq1 hf0.le
      linarith
    have h2 : Real.sqrt ((κ + 2 * m * Real.sqrt β) / q) ≤ 4 / 1000 := by
      rw [Real.sqrt_le_left (by norm_num), div_le_iff₀ hq0]
      have a1 : m * Real.sqrt β ≤ 1471 / 1000 * (1 / 20) * (71 / 10 ^ 6) := mul_le_mul (by linarith) hsβ (Real.sqrt_nonneg _) (by norm_num)
      norm_num at a1 hκ1
      linarith
    rw [hρ]; linarith
  have hu' : (u : ℝ) ≤ 19 := by exact_mod_cast hu19
  have hu1 : (1 : ℝ) ≤ u := by exact_mod_cast hu
  have hwin : 2 * (u : ℝ) * (1 + 2 * ρ) < ((100 : ℕ) : ℝ) := by
    have : 1 + 2 * ρ ≤ 249 / 100 + 6 / 100 := by linarith
    have h2 : 2 * (u : ℝ) * (1 + 2 * ρ) ≤ 2 * u * (249 / 100 + 6 / 100) := mul_le_mul_of_nonneg_left this (by linarith)
    push_cast
    linarith
  have hβ' : β = (1 + max (Spec.starEps 100 3 25) (Spec.starEps 100 3 25)) ^ 2 - 1 := by rw [max_self]; exact hβ
  have hmain := C143_star_in_noise μ cfg st hst (by norm_num : (0 : ℝ) < 3) (by norm_num : (0 : ℝ) ≤ 25) hA (hin _ hcy) (hin _ hcx) (hin _ hcy') (hin _ hcx')
    n v ((f * A) ^ 2) (by positivity) hv hind (fun p => gauss_sub μ _ _ (hgauss p)) err s hs herr u hu zm nf mas mns ah hf (15 / 2) κ β m q ρ
    (by norm_num) hκ hβ' hm hq hq0 hρ hwin hwin
  refine (measureReal_mono ?_ (measure_ne_top _ _)).trans (hmain.trans ?_)
  · intro ω hω
    simp only [Set.mem_ofPred_eq] at hω ⊢
    intro hex
    apply hω
    obtain ⟨rx, ry, hr, z, w, hzw⟩ := hex
    refine ⟨rx, ry, hr, z, w, ?_⟩
    push_cast at hzw
    linarith
  · have h1 : Real.exp (-((15 / 2 : ℝ) ^ 2 / 2)) ≤ 9 / 10 ^ 13 :=
      (Real.exp_le_exp.2 (by norm_num : -((15 / 2 : ℝ) ^ 2 / 2) ≤ -28)).trans
        (exp_neg_le 42 (by norm_num) (by norm_num [Finset.sum_range_succ, Nat.factorial]) (by norm_num))
    push_cast
    linarith

end

end ImgReg
