import Verif.Props.Chi2Recover
import Verif.Props.ZoomMore

/-!
# Further theorems for C26, C31, C34–C37: the terms with masked pixels, the search grid, the reported
errors, and the exceptions of `chi2_shift`
-/

open Complex Finset

namespace ImgReg

section
variable {ny nx : ℕ} [NeZero ny] [NeZero nx]

/-! ## C26 -/

/-- C26 with an arbitrary error image: pixels whose error is 0 or NaN are removed from both images and
get error 1; then `term1 = Σ im2²/err²`, `term2 = -2·correlate2d(im1, im2/err²)` and
`term3 = correlate2d(im1², 1/err²)`. -/
theorem C26_terms_image (cfg : FFTConfig) (ah : Bool) (h : Spec.fits ah ny nx)
    (im1 im2 er : Fin ny × Fin nx → Pix) (red : Bool) (a b σ : Fin ny × Fin nx → ℝ)
    (ha : ∀ p, a p = if Spec.nan0 er p = 0 then 0 else Spec.nan0 im1 p)
    (hb : ∀ p, b p = if Spec.nan0 er p = 0 then 0 else Spec.nan0 im2 p)
    (hσ : ∀ p, σ p = if Spec.nan0 er p = 0 then 1 else Spec.nan0 er p) :
    ∃ (m : Chi2Map ny nx) (c2 t3 : Fin ny × Fin nx → ℝ),
      chi2nMap cfg im1 im2 (.image er) false true red ah = .ok (.all m) ∧
      correlate2d cfg ah (realArr a) (realArr fun p => b p / σ p ^ 2) = .ok (realArr c2) ∧
      correlate2d cfg ah (realArr fun p => a p ^ 2) (realArr fun p => 1 / σ p ^ 2)
        = .ok (realArr t3) ∧
      m.term1 = ∑ p, b p ^ 2 / σ p ^ 2 ∧ m.term2 = (fun i => -2 * c2 i) ∧ m.term3 = .image t3 ∧
      ∀ i, m.chi2 i = (m.term1 + m.term2 i + t3 i) / (if red then (ny : ℝ) * nx - 2 else 1) := by
  obtain rfl : a = fun p => if Spec.nan0 er p = 0 then 0 else Spec.nan0 im1 p := funext ha
  obtain rfl : b = fun p => if Spec.nan0 er p = 0 then 0 else Spec.nan0 im2 p := funext hb
  obtain rfl : σ = fun p => if Spec.nan0 er p = 0 then 1 else Spec.nan0 er p := funext hσ
  rw [chi2nMap_same]
  unfold chi2nMapBody chi2nMapBodyB
  simp only [correlate2dB_wrap, correlate2d_eq cfg ah h, bind, Except.bind, pure, Except.pure, finiteVals_realArr,
      finiteVals_nanToNum]
  refine ⟨_, _, _, rfl, rfl, rfl, rfl, rfl, rfl, fun i => ?_⟩
  cases red
  · simp only [Bool.false_eq_true, if_false, div_one, Term3.at]; congr!
  · simp only [if_true, Term3.at]; congr!

/-- C26: for `err=None`, `term3 = Σ im1²`. -/
theorem C26_term3_none (cfg : FFTConfig) (ah : Bool) (h : Spec.fits ah ny nx)
    (im1 im2 : Fin ny × Fin nx → Pix) (red : Bool) :
    ∃ m : Chi2Map ny nx, chi2nMap cfg im1 im2 .none false true red ah = .ok (.all m) ∧
      m.term3 = .scalar (∑ p, Spec.nan0 im1 p ^ 2) := by
  rw [chi2nMap_same]
  unfold chi2nMapBody chi2nMapBodyB
  simp only [correlate2dB_wrap, correlate2d_eq cfg ah h, bind, Except.bind, pure, Except.pure, finiteVals_realArr,
      finiteVals_nanToNum]
  exact ⟨_, rfl, by simp⟩

/-! ## C31, C34: the search grid and the zoomed map -/

/-- C34: the search grid, exactly. `chi2_shift` looks at shifts `-(yvals, xvals)`, where `yvals`,
`xvals` are centred on the displacement of the first minimum `q` of the chi-squared map from its
zero-lag pixel `(n-1)//2` (plus half a pixel for an even size) and spaced by `1/u`.
C31: for every kind of error, the returned map is the Fourier interpolant (default mode) of the
whole-pixel chi-squared map at those positions. -/
theorem C34_grid_points (cfg : FFTConfig) (st : Stats) (hst : Spec.validStats st)
    (im1 im2 : Fin ny × Fin nx → Pix) (err : ErrArg ny nx) (us : UsFactor) (zm : Bool) (nf : ℝ)
    (mas : ℕ) (mns : ℝ) (ah : Bool) (hf : Spec.fits ah ny nx) (hus : Spec.validUs ny mas us) :
    ∃ (chi2 : Fin ny × Fin nx → ℝ) (q : Fin ny × Fin nx) (s1 s2 : ℕ) (u dx dy : ℝ)
      (ys : Fin s1 → ℝ) (xs : Fin s2 → ℝ) (c : Fin s1 × Fin s2 → ℝ),
      chi2nMap cfg im1 im2 err zm false false ah = .ok (.only chi2) ∧ Np.IsFirstMin chi2 q ∧
      (s1, s2) = Spec.gridSize ny nx mas us ∧ (∀ k : ℕ, us = .int k → u = k) ∧
      (∀ r : ℝ, us = .float r → u = r) ∧
      chi2Shift cfg st im1 im2 err us zm nf false false true mas mns ah
        = .ok [.num dx, .num dy, .arrays s1 s2 (fun i => xs i.2) (fun i => ys i.1) c] ∧
      (∀ i : Fin s1, ys i = ((q.1 : ℕ) : ℝ) - ((ny - 1) / 2 : ℕ) + (if Even ny then 1 / 2 else 0)
        + (((i : ℕ) : ℝ) - ((s1 : ℝ) - 1) / 2) / u) ∧
      (∀ i : Fin s2, xs i = ((q.2 : ℕ) : ℝ) - ((nx - 1) / 2 : ℕ) + (if Even nx then 1 / 2 else 0)
        + (((i : ℕ) : ℝ) - ((s2 : ℝ) - 1) / 2) / u) ∧
      fourierInterp2d cfg (rArr chi2) (pairInds (fun i => ys i + ((ny - 1) / 2 : ℕ))
          (fun i => xs i + ((nx - 1) / 2 : ℕ))) true
        = .ok ⟨s1, s2, .real (realArr c)⟩ := by
  obtain ⟨cm, hcm, s1, s2, i1, i2, hg, u, hu, hu0, yv, xv, hyv, hxv, c, hc, er, her, hres⟩ :=
    chi2Shift_ok cfg st hst im1 im2 err us zm nf mas mns ah hf hus
  have hh : ∀ n : ℕ, Spec.halfPix n = if Even n then 1 / 2 else 0 := by
    intro n; unfold Spec.halfPix; simp only [Nat.even_iff]
  refine ⟨cm.chi2, Np.argmin cm.chi2, s1, s2, u, -xv (Np.argmin c), -yv (Np.argmin c),
    fun i => Spec.gridShift ny (Np.argmin cm.chi2).1 u s1 i,
    fun i => Spec.gridShift nx (Np.argmin cm.chi2).2 u s2 i, c, ?_, Np.argmin_spec _, hg, ?_, ?_, ?_,
    ?_, ?_, ?_⟩
  · rw [chi2nMap_same, hcm]; rfl
  · rintro k rfl; exact hu
  · rintro k rfl; exact hu
  · rw [hres false true, hyv, hxv]; rfl
  · intro i; simp only [Spec.gridShift, hh, Spec.zeroLag]
  · intro i; simp only [Spec.gridShift, hh, Spec.zeroLag]
  · rw [rArr_eq_cArr, fourierInterp2d_ok cfg _ _ rfl ⟨s1, _⟩ ⟨s2, _⟩ rfl rfl, retReal_true, hc, hyv,
      hxv]
    rfl

/-! ## C37: the reported errors -/

/-- the 1-sigma threshold for two fitted parameters: from `scipy.stats`, or the built-in fallback -/
noncomputable def Spec.oneSigma : Stats → ℝ
  | some ppf => ppf 1 2
  | none => 1.59358435

theorem sigma_one (st : Stats) : sigmaToChi2 st 2 1 = Spec.oneSigma st := by
  unfold sigmaToChi2 Spec.oneSigma
  cases st with
  | none => simp
  | some ppf =>
    have : (1 : ℝ) < 8 := by norm_num
    simp only [this, if_true]

/-- C37: the errors `chi2_shift` reports are half the extent, in pixels, along x and along y of the
region of the returned shift arrays in which the returned chi-squared map exceeds its minimum by less
than the 1-sigma threshold of a two-parameter fit (whatever `nfitted` and `max_nsig` are). -/
theorem C37_chi2_shift_extent (cfg : FFTConfig) (st : Stats) (hst : Spec.validStats st)
    (im1 im2 : Fin ny × Fin nx → Pix) (err : ErrArg ny nx) (us : UsFactor) (zm : Bool) (nf : ℝ)
    (mas : ℕ) (mns : ℝ) (ah : Bool) (hf : Spec.fits ah ny nx) (hus : Spec.validUs ny mas us) :
    ∃ (dx dy ex ey : ℝ) (s1 s2 : ℕ) (xv yv c : Fin s1 × Fin s2 → ℝ) (best : Fin s1 × Fin s2)
      (a b a' b' : Fin s1 × Fin s2),
      chi2Shift cfg st im1 im2 err us zm nf false true true mas mns ah
        = .ok [.num dx, .num dy, .num ex, .num ey, .arrays s1 s2 xv yv c] ∧
      (∀ i, c best ≤ c i) ∧
      (∀ j ∈ [a, b, a', b'], c j - c best < Spec.oneSigma st) ∧
      (∀ i, c i - c best < Spec.oneSigma st →
        xv a ≤ xv i ∧ xv i ≤ xv b ∧ yv a' ≤ yv i ∧ yv i ≤ yv b') ∧
      ex = (xv b - xv a) / 2 ∧ ey = (yv b' - yv a') / 2 := by
  obtain ⟨cm, hcm, s1, s2, i1, i2, hg, u, hu, hu0, yv, xv, hyv, hxv, c, hc, er, her, hres⟩ :=
    chi2Shift_ok cfg st hst im1 im2 err us zm nf mas mns ah hf hus
  obtain ⟨er', p, h, hp, -, -, -, -, hall, ⟨a, ha, ha'⟩, ⟨b, hb, hb'⟩, ⟨a2, ha2, ha2'⟩, ⟨b2, hb2, hb2'⟩⟩ :=
    C37_bounding_box st c u 1 2 hu0 (sigma_pos st hst)
  rw [her] at h
  obtain rfl : er = er' := by injection h
  rw [sigma_one] at *
  have hx : ∀ i j, xv i - xv j = (((i.2 : ℕ) : ℝ) - ((j.2 : ℕ) : ℝ)) / u := by
    intro i j; rw [hxv]; simp only [Spec.gridShift]; ring
  have hy : ∀ i j, yv i - yv j = (((i.1 : ℕ) : ℝ) - ((j.1 : ℕ) : ℝ)) / u := by
    intro i j; rw [hyv]; simp only [Spec.gridShift]; ring
  refine ⟨_, _, _, _, s1, s2, xv, yv, c, p, a, b, a2, b2, (hres true true).trans rfl, hp.1, ?_, ?_,
    ?_, ?_⟩
  · intro j hj
    simp only [List.mem_cons, List.not_mem_nil, or_false] at hj
    rcases hj with rfl | rfl | rfl | rfl <;> assumption
  · intro i hi
    obtain ⟨h1, h2, h3, h4⟩ := hall i hi
    have e1 := hx p i; have e2 := hx p a; have e3 := hx i p; have e4 := hx b p
    have e5 := hy p i; have e6 := hy p a2; have e7 := hy i p; have e8 := hy b2 p
    rw [ha'] at h1; rw [hb'] at h2; rw [ha2'] at h3; rw [hb2'] at h4
    refine ⟨by linarith, by linarith, by linarith, by linarith⟩
  · rw [ha', hb', ← hx, ← hx]; ring
  · rw [ha2', hb2', ← hy, ← hy]; ring

/-- C37, thresholds written out: below 8 sigma `scipy.stats` decides; from 8 sigma on, and whenever
`scipy` is missing, `1.59358435·σ^1.80468278`. `chi2map_to_errors` uses this threshold strictly. -/
theorem C37_threshold {m n : ℕ} [NeZero m] [NeZero n] (ppf : ℝ → ℝ → ℝ) (c : Fin m × Fin n → ℝ)
    (zf nsig nf : ℝ) :
    (nsig < 8 → ∀ thr, ppf nsig nf = thr → ∀ ppf', ppf' nsig nf = thr →
      chi2mapToErrors (some ppf) c zf nsig nf = chi2mapToErrors (some ppf') c zf nsig nf) ∧
    (8 ≤ nsig → chi2mapToErrors (some ppf) c zf nsig nf = chi2mapToErrors none c zf nsig nf) ∧
    (∀ ppf', nsig < 8 → ppf' nsig nf = 1.59358435 * nsig ^ (1.80468278 : ℝ) →
      chi2mapToErrors none c zf nsig nf = chi2mapToErrors (some ppf') c zf nsig nf) := by
  have key : ∀ s s' : Stats, sigmaToChi2 s nf nsig = sigmaToChi2 s' nf nsig →
      chi2mapToErrors s c zf nsig nf = chi2mapToErrors s' c zf nsig nf := by
    intro s s' h
    unfold chi2mapToErrors
    rw [h]
  refine ⟨?_, ?_, ?_⟩
  · intro h thr h1 ppf' h2
    exact key _ _ (by simp only [sigmaToChi2, h, if_true, h1, h2])
  · intro h
    exact key _ _ (by simp only [sigmaToChi2, not_lt.2 h, if_false])
  · intro ppf' h h2
    exact key _ _ (by simp only [sigmaToChi2, h, if_true, h2])

/-! ## C36: exceptions of `chi2_shift` -/

/-- C36: exceptions for equal shapes: images over the size limit are a ValueError before anything
else; a zero factor is a ZeroDivisionError; a float factor of at least the number of rows is a
TypeError (the map shape would be a float); `max_auto_size=0` is an IndexError. -/
theorem C36_errors (cfg : FFTConfig) (st : Stats) (im1 im2 : Fin ny × Fin nx → Pix)
    (err : ErrArg ny nx) (zm : Bool) (nf : ℝ) (re rc : Bool) (mas : ℕ) (mns : ℝ) (ah : Bool) :
    (¬ Spec.fits ah ny nx → ∀ us vb,
      chi2Shift cfg st im1 im2 err us zm nf vb re rc mas mns ah = .error .valueError) ∧
    (Spec.fits ah ny nx → ∀ vb,
      chi2Shift cfg st im1 im2 err (.int 0) zm nf vb re rc mas mns ah = .error .zeroDivisionError ∧
      chi2Shift cfg st im1 im2 err (.float 0) zm nf vb re rc mas mns ah
        = .error .zeroDivisionError ∧
      ∀ u : ℝ, (ny : ℝ) ≤ u →
        chi2Shift cfg st im1 im2 err (.float u) zm nf vb re rc mas mns ah = .error .typeError) ∧
    (Spec.fits ah ny nx →
      chi2Shift cfg st im1 im2 err .auto zm nf false re rc 0 mns ah = .error .indexError) := by
  refine ⟨?_, ?_, ?_⟩
  · intro hf us vb
    unfold chi2Shift chi2ShiftB
    rw [chi2nMapB_wrap, chi2nMap_same, chi2nMapBody_huge cfg im1 im2 err zm false ah hf]
    rfl
  · intro hf vb
    obtain ⟨cm, hcm, -⟩ := chi2nMapBody_eq cfg im1 im2 err zm false ah hf
    have hny : (0 : ℝ) < ny := Nat.cast_pos.2 (Nat.pos_of_ne_zero (NeZero.ne ny))
    refine ⟨?_, ?_, ?_⟩
    · unfold chi2Shift chi2ShiftB
      rw [chi2nMapB_wrap, chi2nMap_same, hcm]
      simp [chooseUpsample, bind, Except.bind, pure, Except.pure]
    · unfold chi2Shift chi2ShiftB
      rw [chi2nMapB_wrap, chi2nMap_same, hcm]
      simp [chooseUpsample, bind, Except.bind, pure, Except.pure]
    · intro u hu
      have hu0 : 0 < u := lt_of_lt_of_le hny hu
      unfold chi2Shift chi2ShiftB
      rw [chi2nMapB_wrap, chi2nMap_same, hcm]
      simp [chooseUpsample, bind, Except.bind, pure, Except.pure, hu0.ne', div_le_one hu0, hu]
  · intro hf
    obtain ⟨cm, hcm, -⟩ := chi2nMapBody_eq cfg im1 im2 err zm false ah hf
    unfold chi2Shift chi2ShiftB
    rw [chi2nMapB_wrap, chi2nMap_same, hcm]
    have h1 := autoUpsample_eq cm.chi2 (mAuto st mns nf) 0 false (Or.inl rfl)
    have h2 : ∀ (a b : ℝ), zoomnd2 ⟨cfg.hasFftw, false, 1⟩ (rArr cm.chi2) [a, b] id
        (max 1 (((0 : ℕ) : ℝ) / 2 / Spec.regionSize cm.chi2 (mAuto st mns nf))) (some (0, 0)) true true
        = .error .indexError := by
      intro a b
      unfold zoomnd2
      rw [zoomMiddle_ok _ _ rfl]
      exact C17_empty_output _ _ _ _ (by positivity) 0 0 (Or.inl rfl) _ _
    simp only [bind, Except.bind, pure, Except.pure, if_true, chooseUpsample, h1, h2]

end

end ImgReg
