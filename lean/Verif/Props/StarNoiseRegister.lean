import Verif.Props.StarNoise

/-!
# C155: `register_images` on a Gaussian star with random noise
-/

open Complex Finset MeasureTheory
open scoped ComplexConjugate

namespace ImgReg

/-- comparing two complex numbers with almost the same perturbation -/
theorem modulus_compare {eU eT k K X m L ζ : ℝ} {n : ℂ} (hk0 : 0 ≤ k) (hkK : k ≤ K) (hX : X ≤ eU) (hT : 0 ≤ eT) (hn : ‖n‖ ≤ m)
    (hL : L = X - 2 * K - 2 * m) (hL0 : 0 < L) (hζ : 0 ≤ ζ)
    (h : ‖((eU - k : ℝ) : ℂ) + n‖ ≤ ‖((eT - k : ℝ) : ℂ) + n‖ + ζ) : eU ≤ eT + (1 + (2 * K + 4 * m) / L) * ζ := by
  have hm0 : 0 ≤ m := (norm_nonneg _).trans hn
  have hK0 : 0 ≤ K := hk0.trans hkK
  have hθ : 0 ≤ (2 * K + 4 * m) / L := by positivity
  rcases le_or_gt eU eT with hle | hlt
  · have := mul_nonneg (by linarith : 0 ≤ 1 + (2 * K + 4 * m) / L) hζ
    linarith
  have hre := (Complex.abs_re_le_norm n).trans hn
  have him := (Complex.abs_im_le_norm n).trans hn
  obtain ⟨hre1, hre2⟩ := abs_le.1 hre
  set p := eU - k + n.re with hp
  set q := eT - k + n.re with hq
  have e1 : ∀ r : ℝ, ‖((r : ℝ) : ℂ) + n‖ ^ 2 = (r + n.re) ^ 2 + n.im ^ 2 := by
    intro r
    rw [Complex.sq_norm, Complex.normSq_apply, Complex.add_re, Complex.add_im, Complex.ofReal_re, Complex.ofReal_im]
    ring
  have e2 : ∀ r : ℝ, ‖((r : ℝ) : ℂ) + n‖ ≤ |r + n.re| + |n.im| := by
    intro r
    have := Complex.norm_le_abs_re_add_abs_im (((r : ℝ) : ℂ) + n)
    rwa [Complex.add_re, Complex.add_im, Complex.ofReal_re, Complex.ofReal_im, zero_add] at this
  have a1 := e1 (eU - k)
  have a2 := e1 (eT - k)
  have b1 := e2 (eU - k)
  have b2 := e2 (eT - k)
  rw [← hp] at a1 b1
  rw [← hq] at a2 b2
  have n1 := norm_nonneg (((eU - k : ℝ) : ℂ) + n)
  have n2 := norm_nonneg (((eT - k : ℝ) : ℂ) + n)
  generalize ‖((eU - k : ℝ) : ℂ) + n‖ = F at *
  generalize ‖((eT - k : ℝ) : ℂ) + n‖ = G at *
  have hpq : L ≤ p + q := by rw [hL, hp, hq]; linarith
  have hpos : 0 < p + q := lt_of_lt_of_le hL0 hpq
  have hd : p - q = eU - eT := by rw [hp, hq]; ring
  have hd0 : 0 < p - q := by rw [hd]; linarith
  have hq0 : -(K + m) ≤ q := by rw [hq]; linarith
  have hsum : F + G ≤ (p + q) + (2 * K + 4 * m) := by
    rw [abs_of_pos (by linarith : 0 < p)] at b1
    rcases abs_cases q with ⟨e, -⟩ | ⟨e, -⟩ <;> rw [e] at b2 <;> linarith
  have hfac : (p - q) * (p + q) = (F - G) * (F + G) := by nlinarith
  have h3 : (p - q) * (p + q) ≤ ζ * ((p + q) + (2 * K + 4 * m)) := by
    rw [hfac]
    exact (mul_le_mul_of_nonneg_right (by linarith : F - G ≤ ζ) (by linarith)).trans (mul_le_mul_of_nonneg_left hsum hζ)
  have h4 : (2 * K + 4 * m) ≤ (2 * K + 4 * m) / L * (p + q) := by
    rw [div_mul_eq_mul_div, le_div_iff₀ hL0]
    exact mul_le_mul_of_nonneg_left hpq (by positivity)
  have h5 : (p - q) * (p + q) ≤ ((1 + (2 * K + 4 * m) / L) * ζ) * (p + q) := by
    refine h3.trans ?_
    have := mul_le_mul_of_nonneg_left h4 hζ
    linarith
  have := le_of_mul_le_mul_right h5 hpos
  linarith

section
variable {ny nx : ℕ} [NeZero ny] [NeZero nx]

/-- the weights of the noise at a displacement -/
noncomputable def weightAt (a : Fin ny × Fin nx → ℝ) (g : ℝ × ℝ) : Option (ℝ × ℝ) → Fin ny × Fin nx → ℂ
  | none => fun p => cshift g.1 g.2 a p
  | some r => fun p => cshift r.1 r.2 a p - cshift g.1 g.2 a p

theorem cshift_sub_energy (a : Fin ny × Fin nx → ℝ) (ry rx gy gx : ℝ) :
    ∑ p, ‖cshift ry rx a p - cshift gy gx a p‖ ^ 2 = 2 * (∑ p, a p ^ 2) - 2 * (Spec.cc a a (ry - gy) (rx - gx)).re := by
  have h2 : ∀ p, ‖cshift ry rx a p - cshift gy gx a p‖ ^ 2
      = ‖cshift ry rx a p‖ ^ 2 + ‖cshift gy gx a p‖ ^ 2 - 2 * (cshift ry rx a p * conj (cshift gy gx a p)).re := by
    intro p
    rw [← Complex.normSq_eq_norm_sq, ← Complex.normSq_eq_norm_sq, ← Complex.normSq_eq_norm_sq, Complex.normSq_sub]
  have h3 : ∑ p, cshift ry rx a p * conj (cshift gy gx a p) = Spec.cc a a (gy - ry) (gx - rx) := by
    rw [parseval, cc_fourier, dft_cshift, dft_cshift]
    congr 1
    refine Finset.sum_congr rfl fun k _ => ?_
    rw [map_mul, conj_ex, neg_neg]
    have : freq2 (gx - rx) (gy - ry) k = -freq2 rx ry k + freq2 gx gy k := by unfold freq2; ring
    rw [this, ex_add]; ring
  simp only [h2]
  rw [Finset.sum_sub_distrib, Finset.sum_add_distrib, cshift_energy, cshift_energy, ← Finset.mul_sum, ← Complex.re_sum, h3,
    ← cc_self_neg_re, neg_sub, neg_sub]
  ring

/-- comparing two displacements through systematic errors and noise: moduli of correlations -/
theorem near_best_noise_mod (zm : Bool) (im1 g η im2 : Fin ny × Fin nx → ℝ) (h2 : ∀ p, im2 p = g p + η p)
    (dy dx ry rx gy gx : ℝ)
    (h : ‖Spec.cc (prep zm (realArr im1)) (prep zm (realArr im2)) (-gy) (-gx)‖
      ≤ ‖Spec.cc (prep zm (realArr im1)) (prep zm (realArr im2)) (-ry) (-rx)‖) :
    ‖Spec.cc (prep zm (realArr im1)) (prep zm (realArr im1)) (-(gy - dy)) (-(gx - dx))
        + ∑ p, (η p : ℂ) * weightAt (prep zm (realArr im1)) (gy, gx) none p‖
      ≤ ‖Spec.cc (prep zm (realArr im1)) (prep zm (realArr im1)) (-(ry - dy)) (-(rx - dx))
        + ∑ p, (η p : ℂ) * weightAt (prep zm (realArr im1)) (gy, gx) none p‖
        + 2 * (Real.sqrt (∑ p, prep zm (realArr im1) p ^ 2) * Real.sqrt (∑ p, ‖(g p : ℂ) - cshift dy dx im1 p‖ ^ 2))
        + ‖∑ p, (η p : ℂ) * weightAt (prep zm (realArr im1)) (gy, gx) (some (ry, rx)) p‖ := by
  have hn := noise_sub_mean zm im1 g dy dx
  have ha0 : zm = true → ∑ p, prep zm (realArr im1) p = 0 := by
    rintro rfl
    rw [prep_real]
    simp only [if_true]
    rw [Finset.sum_sub_distrib, Finset.sum_const, Finset.card_univ, nsmul_eq_mul, Spec.mean, Fintype.card_prod, Fintype.card_fin,
      Fintype.card_fin]
    have c0 : (ny : ℝ) * nx ≠ 0 := by have := NeZero.ne ny; have := NeZero.ne nx; positivity
    push_cast
    rw [mul_div_cancel₀ _ c0, sub_self]
  obtain ⟨c, hc, hc0⟩ : ∃ c : ℝ, (∀ p, prep zm (realArr im2) p = prep zm (realArr g) p + (η p - c)) ∧
      c * ∑ p, prep zm (realArr im1) p = 0 := by
    refine ⟨if zm then Spec.mean η else 0, fun p => ?_, ?_⟩
    · rw [prep_real, prep_real]
      cases zm with
      | false => simp [h2]
      | true =>
        have hm : Spec.mean im2 = Spec.mean g + Spec.mean η := by
          unfold Spec.mean
          rw [← add_div, ← Finset.sum_add_distrib]
          simp only [h2]
        simp only [if_true, h2, hm]; ring
    · cases zm with
      | false => simp
      | true => rw [ha0 rfl, mul_zero]
  clear ha0
  generalize prep zm (realArr im1) = a at *
  have hb : prep zm (realArr im2) = fun p => prep zm (realArr g) p + (η p - c) := funext hc
  rw [hb] at h
  generalize prep zm (realArr g) = b at *
  have hE : ∀ t u : ℝ, ‖Spec.cc a b (-t) (-u) - Spec.cc a a (-(t - dy)) (-(u - dx))‖
      ≤ Real.sqrt (∑ p, a p ^ 2) * Real.sqrt (∑ p, ‖(g p : ℂ) - cshift dy dx im1 p‖ ^ 2) := by
    intro t u
    have := cc_noise a b dy dx (-t) (-u)
    rw [show -t + dy = -(t - dy) by ring, show -u + dx = -(u - dx) by ring] at this
    exact this.trans (mul_le_mul_of_nonneg_left hn (Real.sqrt_nonneg _))
  have key : ∀ t u : ℝ, Spec.cc a (fun p => η p - c) (-t) (-u) = ∑ p, (η p : ℂ) * cshift t u a p := by
    intro t u
    have e0 : (c : ℂ) * ∑ p, cshift t u a p = 0 := by
      rw [sum_cshift, ← Complex.ofReal_sum, ← Complex.ofReal_mul, hc0, Complex.ofReal_zero]
    rw [cc_adjoint, ← sub_zero (∑ p, (η p : ℂ) * cshift t u a p), ← e0, Finset.mul_sum, ← Finset.sum_sub_distrib]
    refine Finset.sum_congr rfl fun p _ => ?_
    push_cast; ring
  rw [cc_add, cc_add, key, key] at h
  have hz : ∑ p, (η p : ℂ) * weightAt a (gy, gx) (some (ry, rx)) p
      = ∑ p, (η p : ℂ) * cshift ry rx a p - ∑ p, (η p : ℂ) * cshift gy gx a p := by
    rw [← Finset.sum_sub_distrib]
    refine Finset.sum_congr rfl fun p _ => ?_
    unfold weightAt
    ring
  have hw : ∑ p, (η p : ℂ) * weightAt a (gy, gx) none p = ∑ p, (η p : ℂ) * cshift gy gx a p := rfl
  rw [hz, hw]
  have k1 := hE gy gx
  have k2 := hE ry rx
  generalize ∑ p, (η p : ℂ) * cshift ry rx a p = n1 at *
  generalize ∑ p, (η p : ℂ) * cshift gy gx a p = n0 at *
  generalize Spec.cc a b (-gy) (-gx) = c0 at *
  generalize Spec.cc a b (-ry) (-rx) = c1 at *
  generalize Spec.cc a a (-(gy - dy)) (-(gx - dx)) = s0 at *
  generalize Spec.cc a a (-(ry - dy)) (-(rx - dx)) = s1 at *
  have l1 : ‖s0 + n0‖ ≤ ‖c0 + n0‖ + ‖c0 - s0‖ := by
    have := norm_sub_le (c0 + n0) (c0 - s0)
    rwa [show c0 + n0 - (c0 - s0) = s0 + n0 by ring] at this
  have l2 : ‖c1 + n1‖ ≤ ‖s1 + n0‖ + ‖c1 - s1‖ + ‖n1 - n0‖ := by
    have e : c1 + n1 = (s1 + n0) + (c1 - s1) + (n1 - n0) := by ring
    rw [e]
    exact norm_add₃_le
  linarith

set_option maxHeartbeats 1600000 in
/-- a star and noise: what a larger modulus of the correlation says about two displacements -/
theorem star_compare_mod {σ h A cy cx dy dx : ℝ} (hσ : 0 < σ) (h0 : 0 ≤ h) (hA : A ≠ 0)
    (hcy : Spec.inside ny h cy) (hcx : Spec.inside nx h cx) (hcy' : Spec.inside ny h (cy + dy)) (hcx' : Spec.inside nx h (cx + dx))
    (im1 im2 η : Fin ny × Fin nx → ℝ) (h1 : ∀ p, im1 p = A * (Spec.star σ cy ((p.1 : ℕ) : ℝ) * Spec.star σ cx ((p.2 : ℕ) : ℝ)))
    (h2 : ∀ p, im2 p = A * (Spec.star σ (cy + dy) ((p.1 : ℕ) : ℝ) * Spec.star σ (cx + dx) ((p.2 : ℕ) : ℝ)) + η p)
    (zm : Bool) (κ β M m L θ : ℝ) (hM : 0 ≤ M) (hκ : κ = Spec.starBudget ny nx σ h 0)
    (hβ : β = (1 + max (Spec.starEps ny σ h) (Spec.starEps nx σ h)) ^ 2 - 1)
    (hm : m = M / (|A| * (σ * Real.sqrt Real.pi)))
    (hL : L = Real.exp (-1 / (8 * σ ^ 2)) - 2 * Spec.starMean ny nx σ zm - 2 * (m * Real.sqrt (1 + β))) (hL0 : 0 < L)
    (hθ : θ = 1 + (2 * Spec.starMean ny nx σ zm + 4 * (m * Real.sqrt (1 + β))) / L) :
    0 ≤ κ ∧ 0 ≤ β ∧ 1 ≤ θ ∧ ∀ (ry rx gy gx ty tx uy ux : ℝ),
      ‖Spec.cc (prep zm (realArr im1)) (prep zm (realArr im2)) (-gy) (-gx)‖
        ≤ ‖Spec.cc (prep zm (realArr im1)) (prep zm (realArr im2)) (-ry) (-rx)‖ →
      (∀ o ∈ [none, some (ry, rx)], ‖∑ p, (η p : ℂ) * weightAt (prep zm (realArr im1)) (gy, gx) o p‖
        ≤ M * Real.sqrt (∑ p, ‖weightAt (prep zm (realArr im1)) (gy, gx) o p‖ ^ 2)) →
      uy ^ 2 + ux ^ 2 ≤ 1 / 2 →
      |ty| ≤ (ny : ℝ) / 2 → |tx| ≤ (nx : ℝ) / 2 → |uy| ≤ (ny : ℝ) / 2 → |ux| ≤ (nx : ℝ) / 2 →
      (∃ z : ℤ, ry - dy - ty = z * ny) → (∃ z : ℤ, rx - dx - tx = z * nx) → (∃ z : ℤ, gy - dy - uy = z * ny) →
      (∃ z : ℤ, gx - dx - ux = z * nx) →
      ∃ W : ℝ, 0 ≤ W ∧ W ≤ Real.sqrt (ty ^ 2 + tx ^ 2) + Real.sqrt (uy ^ 2 + ux ^ 2) ∧
        Real.exp (-(Real.sqrt (uy ^ 2 + ux ^ 2)) ^ 2 / (4 * σ ^ 2)) ≤ Real.exp (-(Real.sqrt (ty ^ 2 + tx ^ 2)) ^ 2 / (4 * σ ^ 2)) + θ * κ
          + θ * m * Real.sqrt (2 * (1 - Real.exp (-W ^ 2 / (4 * σ ^ 2)) + 2 * β)) := by
  have hp := Real.pi_pos
  obtain ⟨a, ha⟩ : ∃ a : Fin ny × Fin nx → ℝ, ∀ p, a p = im1 p - if zm then Spec.mean im1 else 0 := ⟨_, fun p => rfl⟩
  have hap : prep zm (realArr im1) = a := by rw [prep_real]; funext p; rw [ha]
  have hnorm := star_norm_le hσ h0 hcy hcx zm im1 a h1 ha
  obtain ⟨g, hg⟩ : ∃ g : Fin ny × Fin nx → ℝ, ∀ p, g p = A * (Spec.star σ (cy + dy) ((p.1 : ℕ) : ℝ) * Spec.star σ (cx + dx) ((p.2 : ℕ) : ℝ)) :=
    ⟨_, fun p => rfl⟩
  have hmoved := star_moved_le hσ h0 hcy hcx hcy' hcx' im1 g (fun _ => 0) h1 (fun p => by rw [hg, add_zero])
  obtain ⟨k, hk0, hk1, hlaw⟩ := star_cc_law hσ h0 hcy hcx zm im1 a h1 ha
  set ε := max (Spec.starEps ny σ h) (Spec.starEps nx σ h) with hε
  have hε0 : 0 ≤ ε := (starEps_nonneg' hσ h0 hcy).trans (le_max_left _ _)
  rw [← hβ] at hlaw
  have hβ0 : 0 ≤ β := by rw [hβ]; nlinarith
  set S := A ^ 2 * (Real.pi * σ ^ 2) with hS
  have hS0 : 0 < S := by positivity
  set ν := (1 + ε) * (Real.sqrt (ny * nx) * Spec.starMoved ny nx σ h + 0) / (σ * Real.sqrt Real.pi) with hν
  have hκ' : κ = 2 * β + 2 * ν := by rw [hβ]; exact hκ
  set N := Real.sqrt (∑ p, a p ^ 2) * Real.sqrt (∑ p, ‖(g p : ℂ) - cshift dy dx im1 p‖ ^ 2) with hN
  have hA' : |A| ≠ 0 := abs_ne_zero.2 hA
  have hApos : 0 < |A| := abs_pos.2 hA
  have hsp0 : Real.sqrt Real.pi ≠ 0 := by positivity
  have hsp : Real.sqrt Real.pi ^ 2 = Real.pi := Real.sq_sqrt hp.le
  set B := |A| * (σ * Real.sqrt Real.pi) with hB
  have hB0 : 0 < B := by positivity
  have hSB : S = B ^ 2 := by rw [hS, hB, mul_pow, mul_pow, sq_abs, hsp]; ring
  have hN1 : N ≤ S * ν := by
    refine (mul_le_mul hnorm hmoved (Real.sqrt_nonneg _) (by positivity)).trans (le_of_eq ?_)
    rw [hSB, hB, hν]
    simp only [ne_eq, OfNat.ofNat_ne_zero, not_false_eq_true, zero_pow, Finset.sum_const_zero, Real.sqrt_zero]
    field_simp
    ring
  have hN0 : 0 ≤ N := mul_nonneg (Real.sqrt_nonneg _) (Real.sqrt_nonneg _)
  have hν0 : 0 ≤ ν := by
    by_contra hne
    push Not at hne
    nlinarith
  have hκ0 : 0 ≤ κ := by linarith
  have hK0 : 0 ≤ Spec.starMean ny nx σ zm := hk0.trans hk1
  have hm0 : 0 ≤ m := by rw [hm]; positivity
  have hsβ : Real.sqrt (1 + β) = 1 + ε := by
    rw [hβ, show 1 + ((1 + ε) ^ 2 - 1) = (1 + ε) ^ 2 by ring, Real.sqrt_sq (by linarith)]
  have hθ1 : 1 ≤ θ := by
    have : 0 ≤ (2 * Spec.starMean ny nx σ zm + 4 * (m * Real.sqrt (1 + β))) / L := by positivity
    rw [hθ]; linarith
  refine ⟨hκ0, hβ0, hθ1, fun ry rx gy gx ty tx uy ux hmax hnoise hU2 hty htx huy hux z1 z2 z3 z4 => ?_⟩
  have hcomp := near_best_noise_mod zm im1 g η im2 (fun p => by rw [h2, hg]) dy dx ry rx gy gx hmax
  have hn0 := hnoise none (by simp)
  have hn1 := hnoise (some (ry, rx)) (by simp)
  rw [hap] at hcomp hn0 hn1
  have neg1 : ∀ t t' : ℝ, ∀ n : ℕ, (∃ z : ℤ, t - t' = z * n) → ∃ z : ℤ, -t - -t' = z * n := by
    rintro t t' n ⟨z, hz⟩
    exact ⟨-z, by push_cast; linarith⟩
  rw [← hN, cc_period a a (-(ry - dy)) (-(rx - dx)) (-ty) (-tx) (neg1 _ _ _ z1) (neg1 _ _ _ z2),
    cc_period a a (-(gy - dy)) (-(gx - dx)) (-uy) (-ux) (neg1 _ _ _ z3) (neg1 _ _ _ z4)] at hcomp
  have e1 := hlaw (-ty) (-tx) (by rwa [abs_neg]) (by rwa [abs_neg])
  have e2 := hlaw (-uy) (-ux) (by rwa [abs_neg]) (by rwa [abs_neg])
  rw [neg_sq, neg_sq] at e1 e2
  -- the weights
  obtain ⟨zw, hzw⟩ := near_period ny (ry - gy)
  obtain ⟨ww, hww⟩ := near_period nx (rx - gx)
  have hE := cshift_sub_energy a ry rx gy gx
  rw [cc_period a a (ry - gy) (rx - gx) (ry - gy - zw * ny) (rx - gx - ww * nx) ⟨zw, by ring⟩ ⟨ww, by ring⟩] at hE
  have f1 := (Complex.abs_re_le_norm _).trans (hlaw _ _ hzw hww)
  have f2 := (Complex.abs_re_le_norm _).trans (hlaw 0 0 (by rw [abs_zero]; positivity) (by rw [abs_zero]; positivity))
  rw [Complex.sub_re, Complex.ofReal_re] at f1 f2
  have f3 := (abs_le.1 f1).1
  have f4 := (abs_le.1 f2).2
  have hcc0 : (Spec.cc a a 0 0).re = ∑ p, a p ^ 2 := by
    have := cc_adjoint a a 0 0
    rw [neg_zero] at this
    have h00 : ∀ p, cshift 0 0 a p = a p := by
      intro p
      have := cshift_period a 0 0 p
      simpa using this
    rw [this, Complex.re_sum]
    refine Finset.sum_congr rfl fun p _ => ?_
    rw [h00, ← Complex.ofReal_mul, Complex.ofReal_re]; ring
  rw [hcc0] at f4
  have hz0 : Real.exp (-((0 : ℝ) ^ 2 + 0 ^ 2) / (4 * σ ^ 2)) = 1 := by norm_num
  rw [hz0] at f4
  obtain ⟨y1, hy1⟩ := z1
  obtain ⟨y2, hy2⟩ := z2
  obtain ⟨y3, hy3⟩ := z3
  obtain ⟨y4, hy4⟩ := z4
  set wy := ry - gy - zw * ny with hwy
  set wx := rx - gx - ww * nx with hwx
  have g1 : |wy| ≤ |ty - uy| := by
    have := rep_min ny (ry - gy) zw (y1 - y3) hzw
    rw [show ry - gy - ((y1 - y3 : ℤ) : ℝ) * ny = ty - uy by push_cast; linarith] at this
    exact this
  have g2 : |wx| ≤ |tx - ux| := by
    have := rep_min nx (rx - gx) ww (y2 - y4) hww
    rw [show rx - gx - ((y2 - y4 : ℤ) : ℝ) * nx = tx - ux by push_cast; linarith] at this
    exact this
  have sq1 : ∀ x y : ℝ, Real.sqrt (x ^ 2 + y ^ 2) ^ 2 = x ^ 2 + y ^ 2 := fun x y => Real.sq_sqrt (by positivity)
  refine ⟨Real.sqrt (wy ^ 2 + wx ^ 2), Real.sqrt_nonneg _, ?_, ?_⟩
  · refine le_trans (Real.sqrt_le_sqrt ?_) (pair_triangle ty tx uy ux)
    exact add_le_add (sq_le_sq.2 g1) (sq_le_sq.2 g2)
  · rw [sq1, sq1, sq1]
    have hE2 : ∑ p, ‖weightAt a (gy, gx) (some (ry, rx)) p‖ ^ 2 ≤ B ^ 2 * (2 * (1 - Real.exp (-(wy ^ 2 + wx ^ 2) / (4 * σ ^ 2)) + 2 * β)) := by
      rw [← hSB]
      refine le_trans (le_of_eq hE) ?_
      linear_combination 2 * f4 + 2 * f3
    have hE3 : Real.sqrt (∑ p, ‖weightAt a (gy, gx) (some (ry, rx)) p‖ ^ 2) ≤ B * Real.sqrt (2 * (1 - Real.exp (-(wy ^ 2 + wx ^ 2) / (4 * σ ^ 2)) + 2 * β)) := by
      have := Real.sqrt_le_sqrt hE2
      rwa [Real.sqrt_mul (by positivity), Real.sqrt_sq hB0.le] at this
    have hE4 := hn1.trans (mul_le_mul_of_nonneg_left hE3 hM)
    have hMS : ∀ x : ℝ, M * (B * x) = S * (m * x) := by intro x; rw [hSB, hm]; field_simp
    have hF4 : ‖∑ p, (η p : ℂ) * weightAt a (gy, gx) none p‖ ≤ S * (m * (1 + ε)) := by
      refine hn0.trans ?_
      have e : ∑ p, ‖weightAt a (gy, gx) none p‖ ^ 2 = ∑ p, a p ^ 2 := cshift_energy gy gx a
      rw [e, ← hMS]
      exact mul_le_mul_of_nonneg_left hnorm hM
    set R := Real.sqrt (2 * (1 - Real.exp (-(wy ^ 2 + wx ^ 2) / (4 * σ ^ 2)) + 2 * β)) with hR
    have hR0 : 0 ≤ R := Real.sqrt_nonneg _
    rw [hMS] at hE4
    set eU := Real.exp (-(uy ^ 2 + ux ^ 2) / (4 * σ ^ 2)) with heU
    set eT := Real.exp (-(ty ^ 2 + tx ^ 2) / (4 * σ ^ 2)) with heT
    generalize ∑ p, (η p : ℂ) * weightAt a (gy, gx) none p = n at *
    generalize ‖∑ p, (η p : ℂ) * weightAt a (gy, gx) (some (ry, rx)) p‖ = zn at *
    generalize Spec.cc a a (-uy) (-ux) = cU at *
    generalize Spec.cc a a (-ty) (-tx) = cT at *
    have hScale : ∀ x : ℝ, ((S * x : ℝ) : ℂ) + n = (S : ℂ) * ((x : ℂ) + n / S) := by
      intro x
      have : (S : ℂ) ≠ 0 := Complex.ofReal_ne_zero.2 hS0.ne'
      push_cast
      field_simp
    have hScale2 : ∀ x : ℝ, ‖((S * x : ℝ) : ℂ) + n‖ = S * ‖(x : ℂ) + n / S‖ := by
      intro x
      rw [hScale, norm_mul, Complex.norm_real, Real.norm_of_nonneg hS0.le]
    have l1 : ‖((S * (eU - k) : ℝ) : ℂ) + n‖ ≤ ‖cU + n‖ + ‖cU - ((S * (eU - k) : ℝ) : ℂ)‖ := by
      have := norm_sub_le (cU + n) (cU - ((S * (eU - k) : ℝ) : ℂ))
      rwa [show cU + n - (cU - ((S * (eU - k) : ℝ) : ℂ)) = ((S * (eU - k) : ℝ) : ℂ) + n by ring] at this
    have l2 : ‖cT + n‖ ≤ ‖((S * (eT - k) : ℝ) : ℂ) + n‖ + ‖cT - ((S * (eT - k) : ℝ) : ℂ)‖ := by
      have := norm_add_le (((S * (eT - k) : ℝ) : ℂ) + n) (cT - ((S * (eT - k) : ℝ) : ℂ))
      rwa [show ((S * (eT - k) : ℝ) : ℂ) + n + (cT - ((S * (eT - k) : ℝ) : ℂ)) = cT + n by ring] at this
    have l3 : S * ‖((eU - k : ℝ) : ℂ) + n / S‖ ≤ S * (‖((eT - k : ℝ) : ℂ) + n / S‖ + (κ + m * R)) := by
      rw [mul_add, ← hScale2, ← hScale2, hκ']
      linear_combination l1 + l2 + hcomp + e1 + e2 + hE4 + 2 * hN1
    have l4 := le_of_mul_le_mul_left l3 hS0
    have hn' : ‖n / S‖ ≤ m * Real.sqrt (1 + β) := by
      rw [norm_div, Complex.norm_real, Real.norm_of_nonneg hS0.le, div_le_iff₀ hS0, hsβ]
      linarith
    have hX : Real.exp (-1 / (8 * σ ^ 2)) ≤ eU := by
      refine Real.exp_le_exp.2 ?_
      rw [div_le_div_iff₀ (by positivity) (by positivity)]
      linear_combination 8 * mul_le_mul_of_nonneg_right hU2 (sq_nonneg σ)
    have := modulus_compare hk0 hk1 hX (Real.exp_pos _).le hn' hL hL0 (by positivity) l4
    rw [← hθ] at this
    linear_combination this

end

end ImgReg
