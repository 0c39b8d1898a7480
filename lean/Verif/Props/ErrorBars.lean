import Verif.Props.Chi2Recover

/-!
# C101: how the error bars of `chi2_shift` respond to the signal-to-noise ratio
-/

open Complex Finset

namespace ImgReg

/-- stretching the map by a factor ≥ 1 shrinks the errors -/
theorem errors_stretch {m n : ℕ} [NeZero m] [NeZero n] (st : Stats) (c c' : Fin m × Fin n → ℝ) (zf k : ℝ) (hz : 0 < zf)
    (hT : 0 < sigmaToChi2 st 2 1) (hk : 1 ≤ k) (hc : ∀ i, c' i = k * c i) :
    ∃ er er', chi2mapToErrors st c zf 1 2 = .ok er ∧ chi2mapToErrors st c' zf 1 2 = .ok er' ∧
      er'.xLow ≤ er.xLow ∧ er'.xHigh ≤ er.xHigh ∧ er'.yLow ≤ er.yLow ∧ er'.yHigh ≤ er.yHigh := by
  obtain ⟨er', p', h', hp', -, -, -, -, b', ⟨i1, m1, e1⟩, ⟨i2, m2, e2⟩, ⟨i3, m3, e3⟩, ⟨i4, m4, e4⟩⟩ :=
    C37_bounding_box st c' zf 1 2 hz hT
  obtain ⟨er, p, h, hp, -, -, -, -, b, -⟩ := C37_bounding_box st c zf 1 2 hz hT
  have hkp : 0 < k := by linarith
  have harg : Np.argmin c' = Np.argmin c := by
    apply Np.argmin_comp
    intro i j
    rw [hc, hc]
    exact mul_le_mul_iff_right₀ hkp
  have hpp : p' = p := by
    rw [hp'.unique (Np.argmin_spec c'), hp.unique (Np.argmin_spec c), harg]
  subst hpp
  have key : ∀ i, c' i - c' p' < sigmaToChi2 st 2 1 → c i - c p' < sigmaToChi2 st 2 1 := by
    intro i hi
    rw [hc, hc, ← mul_sub] at hi
    have h0 : 0 ≤ c i - c p' := sub_nonneg.2 (hp.1 i)
    nlinarith
  refine ⟨er, er', h, h', ?_, ?_, ?_, ?_⟩
  · rw [e1]; exact (b i1 (key i1 m1)).1
  · rw [e2]; exact (b i2 (key i2 m2)).2.1
  · rw [e3]; exact (b i3 (key i3 m3)).2.2.1
  · rw [e4]; exact (b i4 (key i4 m4)).2.2.2

section
variable {ny nx : ℕ} [NeZero ny] [NeZero nx]

/-- two calls whose chi-squared maps differ by a factor `k ≥ 1` report the same shift, the second with errors that are no larger -/
theorem chi2Shift_errors_scaled (cfg : FFTConfig) (st : Stats) (hst : Spec.validStats st)
    (im1 im2 im1' im2' : Fin ny × Fin nx → Pix) (err err' : ErrArg ny nx) (us : UsFactor)
    (zm : Bool) (nf : ℝ) (mas : ℕ) (mns : ℝ) (ah : Bool) (hf : Spec.fits ah ny nx)
    (hus : Spec.validUs ny mas us) (hna : us ≠ .auto) (k : ℝ) (hk : 1 ≤ k) (cm cm' : Chi2Map ny nx)
    (hcm : chi2nMapBody cfg im1 im2 err zm false ah = .ok cm)
    (hcm' : chi2nMapBody cfg im1' im2' err' zm false ah = .ok cm')
    (hs : ∀ i, cm'.chi2 i = k * cm.chi2 i) :
    ∃ dx dy ex ey ex' ey' : ℝ,
      chi2Shift cfg st im1 im2 err us zm nf false true false mas mns ah = .ok [.num dx, .num dy, .num ex, .num ey] ∧
      chi2Shift cfg st im1' im2' err' us zm nf false true false mas mns ah = .ok [.num dx, .num dy, .num ex', .num ey'] ∧
      ex' ≤ ex ∧ ey' ≤ ey := by
  obtain ⟨c1, hc1, s1, s2, i1, i2, hg, u, hu, hu0, yv, xv, hyv, hxv, c, hc, er, her, hres⟩ :=
    chi2Shift_ok cfg st hst im1 im2 err us zm nf mas mns ah hf hus
  obtain ⟨c2, hc2, s1', s2', i1', i2', hg', u', hu', hu0', yv', xv', hyv', hxv', c', hc', er', her', hres'⟩ :=
    chi2Shift_ok cfg st hst im1' im2' err' us zm nf mas mns ah hf hus
  rw [hcm] at hc1
  rw [hcm'] at hc2
  obtain rfl : cm = c1 := by injection hc1
  obtain rfl : cm' = c2 := by injection hc2
  have hgg := hg.trans hg'.symm
  obtain ⟨rfl, rfl⟩ := Prod.mk.inj hgg
  have huu : u' = u := by
    rw [hu, hu']
    cases us with
    | auto => exact absurd rfl hna
    | int _ => rfl
    | float _ => rfl
  subst huu
  have hkp : 0 < k := by linarith
  have harg : Np.argmin cm'.chi2 = Np.argmin cm.chi2 := by
    apply Np.argmin_comp
    intro i j
    rw [hs, hs]
    exact mul_le_mul_iff_right₀ hkp
  have ey : yv' = yv := by rw [hyv, hyv', harg]
  have ex : xv' = xv := by rw [hxv, hxv', harg]
  have ec : c' = fun i => k * c i := by
    rw [hc, hc', ey, ex]
    funext i
    have : (fun i => ((cm'.chi2 i : ℝ) : ℂ)) = fun i => (k : ℂ) * (cm.chi2 i : ℂ) := by
      funext i; rw [hs]; push_cast; rfl
    simp only [this]
    rw [interp2C_smul, Complex.re_ofReal_mul]
  have harg2 : Np.argmin c' = Np.argmin c := by
    apply Np.argmin_comp
    intro i j
    rw [ec]
    exact mul_le_mul_iff_right₀ hkp
  obtain ⟨e1, e2, h1, h2, b1, b2, b3, b4⟩ := errors_stretch st c c' u' k hu0 (sigma_pos st hst) hk (fun i => congrFun ec i)
  obtain rfl : er = e1 := Except.ok.inj (her.symm.trans h1)
  obtain rfl : er' = e2 := Except.ok.inj (her'.symm.trans h2)
  refine ⟨_, _, _, _, (er'.xLow + er'.xHigh) / 2, (er'.yLow + er'.yHigh) / 2, (hres true false).trans rfl, ?_, ?_, ?_⟩
  · rw [hres', ey, ex, harg2]; rfl
  · linarith
  · linarith

/-- C101: with an explicit upsampling factor, a larger scalar error gives the same shift with error bars that are at least as large. -/
theorem C101_scalar_error (cfg : FFTConfig) (st : Stats) (hst : Spec.validStats st)
    (im1 im2 : Fin ny × Fin nx → Pix) (us : UsFactor) (zm : Bool) (nf : ℝ) (mas : ℕ) (mns : ℝ) (ah : Bool)
    (hf : Spec.fits ah ny nx) (hus : Spec.validUs ny mas us) (hna : us ≠ .auto) (s t : ℝ) (hs : s ≠ 0) (hst' : |s| ≤ |t|) :
    ∃ dx dy ex ey ex' ey' : ℝ,
      chi2Shift cfg st im1 im2 (.scalar s) us zm nf false true false mas mns ah = .ok [.num dx, .num dy, .num ex, .num ey] ∧
      chi2Shift cfg st im1 im2 (.scalar t) us zm nf false true false mas mns ah = .ok [.num dx, .num dy, .num ex', .num ey'] ∧
      ex ≤ ex' ∧ ey ≤ ey' := by
  obtain ⟨m, h1, h2⟩ := chi2nMapBody_chi2 cfg im1 im2 (.scalar t) zm ah hf
  obtain ⟨m', h1', h2'⟩ := chi2nMapBody_chi2 cfg im1 im2 (.scalar s) zm ah hf
  have ht : t ≠ 0 := by
    rintro rfl
    rw [abs_zero] at hst'
    exact hs (abs_nonpos_iff.1 hst')
  obtain ⟨dx, dy, ex, ey, ex', ey', a, b, c, d⟩ := chi2Shift_errors_scaled cfg st hst im1 im2 im1 im2 (.scalar t) (.scalar s) us zm nf mas
    mns ah hf hus hna (t ^ 2 / s ^ 2) (by rw [one_le_div (by positivity)]; exact sq_le_sq.2 hst') m m' h1 h1' (fun i => by
      rw [h2, h2']
      unfold Spec.chi2 Spec.errOf Spec.maskOf
      rw [Finset.mul_sum]
      refine Finset.sum_congr rfl fun p _ => ?_
      field_simp)
  exact ⟨dx, dy, ex', ey', ex, ey, b, a, c, d⟩

/-- C101: the same for an error image without zero or NaN pixels, multiplied by a number of modulus at least 1. -/
theorem C101_error_image (cfg : FFTConfig) (st : Stats) (hst : Spec.validStats st)
    (im1 im2 : Fin ny × Fin nx → Pix) (us : UsFactor) (zm : Bool) (nf : ℝ) (mas : ℕ) (mns : ℝ) (ah : Bool)
    (hf : Spec.fits ah ny nx) (hus : Spec.validUs ny mas us) (hna : us ≠ .auto) (er : Fin ny × Fin nx → ℝ) (her : ∀ p, er p ≠ 0)
    (t : ℝ) (ht : 1 ≤ |t|) :
    ∃ dx dy ex ey ex' ey' : ℝ,
      chi2Shift cfg st im1 im2 (.image (realArr er)) us zm nf false true false mas mns ah = .ok [.num dx, .num dy, .num ex, .num ey] ∧
      chi2Shift cfg st im1 im2 (.image (realArr fun p => t * er p)) us zm nf false true false mas mns ah
        = .ok [.num dx, .num dy, .num ex', .num ey'] ∧
      ex ≤ ex' ∧ ey ≤ ey' := by
  obtain ⟨m, h1, h2⟩ := chi2nMapBody_chi2 cfg im1 im2 (.image (realArr fun p => t * er p)) zm ah hf
  obtain ⟨m', h1', h2'⟩ := chi2nMapBody_chi2 cfg im1 im2 (.image (realArr er)) zm ah hf
  have ht0 : t ≠ 0 := by
    rintro rfl
    rw [abs_zero] at ht
    linarith
  obtain ⟨dx, dy, ex, ey, ex', ey', a, b, c, d⟩ := chi2Shift_errors_scaled cfg st hst im1 im2 im1 im2 _ _ us zm nf mas
    mns ah hf hus hna (t ^ 2) (by rw [← sq_abs]; nlinarith) m m' h1 h1' (fun i => by
      rw [h2, h2']
      unfold Spec.chi2
      rw [Finset.mul_sum]
      refine Finset.sum_congr rfl fun p _ => ?_
      simp only [Spec.errOf, Spec.maskOf, Spec.nan0, realArr, Option.getD_some, mul_eq_zero, ht0, her, or_self, if_false]
      have := her p
      field_simp)
  exact ⟨dx, dy, ex', ey', ex, ey, b, a, c, d⟩

/-- C101: brightening both images by a factor of modulus at least 1 (same errors) gives the same shift with error bars that are no
larger. -/
theorem C101_brighter (cfg : FFTConfig) (st : Stats) (hst : Spec.validStats st)
    (im1 im2 : Fin ny × Fin nx → Pix) (err : ErrArg ny nx) (us : UsFactor) (zm : Bool) (nf : ℝ) (mas : ℕ) (mns : ℝ) (ah : Bool)
    (hf : Spec.fits ah ny nx) (hus : Spec.validUs ny mas us) (hna : us ≠ .auto) (t : ℝ) (ht : 1 ≤ |t|) :
    ∃ dx dy ex ey ex' ey' : ℝ,
      chi2Shift cfg st im1 im2 err us zm nf false true false mas mns ah = .ok [.num dx, .num dy, .num ex, .num ey] ∧
      chi2Shift cfg st (fun i => (im1 i).map (t * ·)) (fun i => (im2 i).map (t * ·)) err us zm nf false true false mas mns ah
        = .ok [.num dx, .num dy, .num ex', .num ey'] ∧
      ex' ≤ ex ∧ ey' ≤ ey := by
  obtain ⟨m, h1, h2⟩ := chi2nMapBody_chi2 cfg im1 im2 err zm ah hf
  obtain ⟨m', h1', h2'⟩ := chi2nMapBody_chi2 cfg (fun i => (im1 i).map (t * ·)) (fun i => (im2 i).map (t * ·)) err zm ah hf
  refine chi2Shift_errors_scaled cfg st hst _ _ _ _ _ _ us zm nf mas
    mns ah hf hus hna (t ^ 2) (by rw [← sq_abs]; nlinarith) m m' h1 h1' (fun i => ?_)
  rw [h2, h2', prep_smul, prep_smul]
  have hm : ∀ a : Fin ny × Fin nx → ℝ, Spec.maskOf err (fun i => t * a i)
      = fun i => t * Spec.maskOf err a i := by
    intro a; funext i
    cases err <;> simp [Spec.maskOf]
  rw [hm, hm]
  unfold Spec.chi2
  rw [Finset.mul_sum]
  exact Finset.sum_congr rfl fun p _ => by ring

end

/-- a case meeting the hypotheses of C101: a 3×3 pair, upsampling factor 10, error 1 against error 2 -/
example (cfg : FFTConfig) (im1 im2 : Fin 3 × Fin 3 → ℝ) :
    ∃ dx dy ex ey ex' ey' : ℝ,
      chi2Shift cfg none (realArr im1) (realArr im2) (.scalar 1) (.int 10) false 1 false true false 10 1 true
        = .ok [.num dx, .num dy, .num ex, .num ey] ∧
      chi2Shift cfg none (realArr im1) (realArr im2) (.scalar 2) (.int 10) false 1 false true false 10 1 true
        = .ok [.num dx, .num dy, .num ex', .num ey'] ∧
      ex ≤ ex' ∧ ey ≤ ey' :=
  C101_scalar_error cfg none trivial _ _ (.int 10) false 1 10 1 true (.inl rfl) (by simp [Spec.validUs]) (by simp) 1 2 (by norm_num)
    (by norm_num)

end ImgReg
