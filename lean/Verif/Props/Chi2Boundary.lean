import Verif.Props.FillShift
import Verif.Props.Chi2Recover
import Verif.Props.Chi2More

/-!
# `chi2_shift` for every boundary mode (C95), and exactly when `verbose=True` raises (C36)
-/

open Complex Finset

namespace ImgReg

section
variable {ny nx : ℕ} [NeZero ny] [NeZero nx]

omit [NeZero ny] [NeZero nx] in
theorem chi2nMapBodyB_of_map {cfg : FFTConfig} {bd : CorrBoundary} {im1 im2 : Fin ny × Fin nx → Pix} {err : ErrArg ny nx}
    {zm ah : Bool} {chi2 : Fin ny × Fin nx → ℝ}
    (h : chi2nMapB cfg bd im1 im2 err zm false false ah = .ok (.only chi2)) :
    ∃ cm, chi2nMapBodyB cfg bd im1 im2 err zm false ah = .ok cm ∧ cm.chi2 = chi2 := by
  rw [chi2nMapB_same] at h
  cases hb : chi2nMapBodyB cfg bd im1 im2 err zm false ah with
  | error e => rw [hb] at h; cases h
  | ok cm =>
    rw [hb] at h
    refine ⟨cm, rfl, ?_⟩
    simpa [bind, Except.bind, pure, Except.pure] using h

/-! ## C95 -/

/-- C95: `chi2_shift` looks at nothing but the chi-squared map: two calls (on the same installation) with any images, errors,
boundary modes, thread counts, … for which `chi2n_map` returns the same map give the same result, or the same exception. -/
theorem C95_only_the_map (cfg cfg' : FFTConfig) (hcfg : cfg.hasFftw = cfg'.hasFftw) (bd bd' : CorrBoundary) (st : Stats)
    (im1 im2 im1' im2' : Fin ny × Fin nx → Pix) (err err' : ErrArg ny nx) (zm zm' ah ah' : Bool)
    (chi2 : Fin ny × Fin nx → ℝ)
    (h : chi2nMapB cfg bd im1 im2 err zm false false ah = .ok (.only chi2))
    (h' : chi2nMapB cfg' bd' im1' im2' err' zm' false false ah' = .ok (.only chi2))
    (us : UsFactor) (nf : ℝ) (vb re rc : Bool) (mas : ℕ) (mns : ℝ) :
    chi2ShiftB cfg bd st im1 im2 err us zm nf vb re rc mas mns ah
      = chi2ShiftB cfg' bd' st im1' im2' err' us zm' nf vb re rc mas mns ah' := by
  obtain ⟨cm, h1, h2⟩ := chi2nMapBodyB_of_map h
  obtain ⟨cm', h1', h2'⟩ := chi2nMapBodyB_of_map h'
  unfold chi2ShiftB
  rw [chi2nMapB_same, chi2nMapB_same, h1, h1']
  simp only [bind, Except.bind, pure, Except.pure, if_true, h2, h2', hcfg]

/-- C95: for every boundary mode, the answer is the first minimum, on a grid of spacing `1/u` around the first minimum `q` of the
chi-squared map, of the Fourier interpolant of that map; `s1 × s2` is the size of the grid and `u` the upsampling factor. -/
theorem C95_grid (cfg : FFTConfig) (bd : CorrBoundary) (st : Stats) (hst : Spec.validStats st)
    (im1 im2 : Fin ny × Fin nx → Pix) (err : ErrArg ny nx) (us : UsFactor) (zm : Bool) (nf : ℝ)
    (mas : ℕ) (mns : ℝ) (ah : Bool) (hus : Spec.validUs ny mas us) (chi2 : Fin ny × Fin nx → ℝ)
    (h : chi2nMapB cfg bd im1 im2 err zm false false ah = .ok (.only chi2)) :
    ∃ (q : Fin ny × Fin nx) (s1 s2 : ℕ) (u : ℝ) (ys : Fin s1 → ℝ) (xs : Fin s2 → ℝ) (c : Fin s1 × Fin s2 → ℝ)
      (best : Fin s1 × Fin s2),
      chi2ShiftB cfg bd st im1 im2 err us zm nf false false true mas mns ah
        = .ok [.num (-xs best.2), .num (-ys best.1), .arrays s1 s2 (fun i => xs i.2) (fun i => ys i.1) c] ∧
      Np.IsFirstMin c best ∧ Np.IsFirstMin chi2 q ∧ (s1, s2) = Spec.gridSize ny nx mas us ∧
      0 < u ∧ u = Spec.usUsed chi2 (Spec.autoThreshold st mns nf) mas us ∧
      (∀ i : Fin s1, ys i = ((q.1 : ℕ) : ℝ) - ((ny - 1) / 2 : ℕ) + (if Even ny then 1 / 2 else 0)
        + (((i : ℕ) : ℝ) - ((s1 : ℝ) - 1) / 2) / u) ∧
      (∀ i : Fin s2, xs i = ((q.2 : ℕ) : ℝ) - ((nx - 1) / 2 : ℕ) + (if Even nx then 1 / 2 else 0)
        + (((i : ℕ) : ℝ) - ((s2 : ℝ) - 1) / 2) / u) ∧
      fourierInterp2d cfg (rArr chi2) (pairInds (fun i => ys i + ((ny - 1) / 2 : ℕ))
          (fun i => xs i + ((nx - 1) / 2 : ℕ))) true
        = .ok ⟨s1, s2, .real (realArr c)⟩ := by
  obtain ⟨cm, hcm, rfl⟩ := chi2nMapBodyB_of_map h
  obtain ⟨s1, s2, i1, i2, hg, u, hu, hu0, yv, xv, hyv, hxv, c, hc, er, her, hres⟩ :=
    chi2ShiftB_ok cfg bd st hst im1 im2 err us zm nf mas mns ah hus cm hcm
  have hh : ∀ n, Spec.halfPix n = if Even n then 1 / 2 else 0 := by
    intro n; unfold Spec.halfPix; simp only [Nat.even_iff]
  refine ⟨Np.argmin cm.chi2, s1, s2, u, fun i => Spec.gridShift ny (Np.argmin cm.chi2).1 u s1 i,
    fun i => Spec.gridShift nx (Np.argmin cm.chi2).2 u s2 i, c, Np.argmin c, ?_, Np.argmin_spec c, Np.argmin_spec _,
    hg, hu0, autoThreshold_eq st mns nf ▸ hu, fun i => ?_, fun i => ?_, ?_⟩
  · rw [hres false true, hyv, hxv]; rfl
  · simp only [Spec.gridShift, hh, Spec.zeroLag]
  · simp only [Spec.gridShift, hh, Spec.zeroLag]
  · rw [rArr_eq_cArr, fourierInterp2d_ok cfg _ _ rfl ⟨s1, _⟩ ⟨s2, _⟩ rfl rfl, retReal_true, hc, hyv,
      hxv]
    rfl

/-- C95: for every boundary mode the return layout is
`[dx, dy] + ([ex, ey] if return_error) + ([(xvals, yvals, chi2)] if return_chi2array)`. -/
theorem C95_layout (cfg : FFTConfig) (bd : CorrBoundary) (st : Stats) (hst : Spec.validStats st)
    (im1 im2 : Fin ny × Fin nx → Pix) (err : ErrArg ny nx) (us : UsFactor) (zm : Bool) (nf : ℝ)
    (mas : ℕ) (mns : ℝ) (ah : Bool) (hus : Spec.validUs ny mas us) (chi2 : Fin ny × Fin nx → ℝ)
    (h : chi2nMapB cfg bd im1 im2 err zm false false ah = .ok (.only chi2)) :
    ∃ (dx dy ex ey : ℝ) (s1 s2 : ℕ) (xv yv c : Fin s1 × Fin s2 → ℝ),
      ∀ returnError returnChi2array : Bool,
        chi2ShiftB cfg bd st im1 im2 err us zm nf false returnError returnChi2array mas mns ah
        = .ok ([.num dx, .num dy] ++ (if returnError then [.num ex, .num ey] else [])
            ++ (if returnChi2array then [.arrays s1 s2 xv yv c] else [])) := by
  obtain ⟨cm, hcm, rfl⟩ := chi2nMapBodyB_of_map h
  obtain ⟨s1, s2, i1, i2, hg, u, hu, hu0, yv, xv, hyv, hxv, c, hc, er, her, hres⟩ :=
    chi2ShiftB_ok cfg bd st hst im1 im2 err us zm nf mas mns ah hus cm hcm
  exact ⟨_, _, _, _, s1, s2, xv, yv, c, fun re rc => hres re rc⟩

/-- C95: images of different shapes are a ValueError for every boundary mode. -/
theorem C95_shapes {my mx : ℕ} (cfg : FFTConfig) (bd : CorrBoundary) (st : Stats) (im1 : Fin ny × Fin nx → Pix)
    (im2 : Fin my × Fin mx → Pix) (err : ErrArg ny nx) (us : UsFactor) (zm : Bool) (nf : ℝ)
    (vb re rc : Bool) (mas : ℕ) (mns : ℝ) (ah : Bool) (h : (ny, nx) ≠ (my, mx)) :
    chi2ShiftB cfg bd st im1 im2 err us zm nf vb re rc mas mns ah = .error .valueError ∧
    ∀ ra red, chi2nMapB cfg bd im1 im2 err zm ra red ah = .error .valueError := by
  have hne : ¬ (ny = my ∧ nx = mx) := fun hc => h (by rw [hc.1, hc.2])
  have e : ∀ ra red, chi2nMapB cfg bd im1 im2 err zm ra red ah = .error .valueError := by
    intro ra red
    unfold chi2nMapB
    rw [dif_neg hne]
  refine ⟨?_, e⟩
  unfold chi2ShiftB
  rw [e]
  rfl

omit [NeZero ny] [NeZero nx] in
/-- C27: an error image must have the shape of the images: any other shape is an IndexError (after the check of the image
shapes, which is a ValueError); with the right shape the error image is used as it is, and so are a scalar error and none. -/
theorem C27_error_shape (cfg : FFTConfig) (bd : CorrBoundary) (im1 im2 : Fin ny × Fin nx → Pix) (ey ex : ℕ)
    (e : Fin ey × Fin ex → Pix) (zm ra red ah : Bool) :
    ((ey, ex) ≠ (ny, nx) → chi2nMapErr cfg bd im1 im2 (.image ey ex e) zm ra red ah = .error .indexError) ∧
    (∀ e' : Fin ny × Fin nx → Pix, chi2nMapErr cfg bd im1 im2 (.image ny nx e') zm ra red ah
      = chi2nMapB cfg bd im1 im2 (.image e') zm ra red ah) ∧
    (∀ s : ℝ, chi2nMapErr cfg bd im1 im2 (.scalar s) zm ra red ah = chi2nMapB cfg bd im1 im2 (.scalar s) zm ra red ah) ∧
    chi2nMapErr cfg bd im1 im2 .none zm ra red ah = chi2nMapB cfg bd im1 im2 .none zm ra red ah ∧
    ∀ (my mx : ℕ) (im3 : Fin my × Fin mx → Pix) (err : ErrInput), (ny, nx) ≠ (my, mx) →
      chi2nMapErr cfg bd im1 im3 err zm ra red ah = .error .valueError := by
  refine ⟨fun h => ?_, fun e' => ?_, fun s => ?_, ?_, fun my mx im3 err h => ?_⟩
  · have : ¬ (ny = ey ∧ nx = ex) := fun hc => h (by rw [hc.1, hc.2])
    simp only [chi2nMapErr, and_self, if_true, this, dif_neg, not_false_eq_true]
  · simp only [chi2nMapErr, and_self, if_true, dif_pos]
    rfl
  · simp only [chi2nMapErr, and_self, if_true]
  · simp only [chi2nMapErr, and_self, if_true]
  · have : ¬ (ny = my ∧ nx = mx) := fun hc => h (by rw [hc.1, hc.2])
    simp only [chi2nMapErr, this, if_false]

/-! ## C36: `verbose` -/

/-- C36: with `verbose=True` the call raises ValueError exactly when the upsampled map (the one returned by
`return_chi2array`) is constant; otherwise `verbose` changes nothing. -/
theorem C36_verbose_exact (cfg : FFTConfig) (bd : CorrBoundary) (st : Stats) (hst : Spec.validStats st)
    (im1 im2 : Fin ny × Fin nx → Pix) (err : ErrArg ny nx) (us : UsFactor) (zm : Bool) (nf : ℝ)
    (mas : ℕ) (mns : ℝ) (ah : Bool) (hus : Spec.validUs ny mas us) (chi2 : Fin ny × Fin nx → ℝ)
    (h : chi2nMapB cfg bd im1 im2 err zm false false ah = .ok (.only chi2)) :
    ∃ (dx dy : ℝ) (s1 s2 : ℕ) (xv yv c : Fin s1 × Fin s2 → ℝ),
      chi2ShiftB cfg bd st im1 im2 err us zm nf false false true mas mns ah
        = .ok [.num dx, .num dy, .arrays s1 s2 xv yv c] ∧
      ((∀ i j, c i = c j) → ∀ re rc, chi2ShiftB cfg bd st im1 im2 err us zm nf true re rc mas mns ah = .error .valueError) ∧
      ((∃ i j, c i ≠ c j) → ∀ re rc, chi2ShiftB cfg bd st im1 im2 err us zm nf true re rc mas mns ah
        = chi2ShiftB cfg bd st im1 im2 err us zm nf false re rc mas mns ah) := by
  classical
  obtain ⟨cm, hcm, rfl⟩ := chi2nMapBodyB_of_map h
  obtain ⟨s1, s2, i1, i2, hg, u, hu, hu0, yv, xv, hyv, hxv, c, hc, er, her, hres⟩ :=
    chi2ShiftB_ok cfg bd st hst im1 im2 err us zm nf mas mns ah hus cm hcm
  refine ⟨_, _, s1, s2, xv, yv, c, (hres false true).trans rfl, ?_, ?_⟩
  · intro hconst re rc
    have fin : chooseUpsample cm.chi2 us (mAuto st mns nf) mas true = .ok (u, s1, s2) →
        chi2ShiftB cfg bd st im1 im2 err us zm nf true re rc mas mns ah = .error .valueError := by
      intro hch
      rw [chi2ShiftB_finish cfg bd st im1 im2 err us zm nf true re rc mas mns ah cm hcm u s1 s2 hch hu0.ne']
      have hc' : (fun i : Fin s1 × Fin s2 => (interp2C (fun i => (cm.chi2 i : ℂ))
            (Spec.gridShift ny (Np.argmin cm.chi2).1 u s1 i.1 + (Spec.zeroLag ny : ℕ))
            (Spec.gridShift nx (Np.argmin cm.chi2).2 u s2 i.2 + (Spec.zeroLag nx : ℕ))).re) = c := by
        rw [hc, hyv, hxv]
      rw [hc']
      unfold chi2ShiftFinish
      have : ¬ ∃ i, 0 < c i - c (Np.argmin c) := by
        rintro ⟨i, hi⟩
        rw [hconst i (Np.argmin c), sub_self] at hi
        exact lt_irrefl _ hi
      simp only [Bool.true_and, decide_eq_true this, if_true, bind, Except.bind]
    by_cases hcoarse : ∃ i j, cm.chi2 i ≠ cm.chi2 j
    · have hch := chooseUpsample_eq (nx := nx) cm.chi2 us (mAuto st mns nf) mas true (Or.inr hcoarse) hus
      rw [← hu, ← hg] at hch
      exact fin hch
    · push Not at hcoarse
      have hoff := chooseUpsample_eq (nx := nx) cm.chi2 us (mAuto st mns nf) mas false (Or.inl rfl) hus
      rw [← hu, ← hg] at hoff
      cases us with
      | auto =>
        unfold chi2ShiftB
        rw [chi2nMapB_same, hcm]
        have : ¬ ∃ i, 0 < cm.chi2 i - cm.chi2 (Np.argmin cm.chi2) := by
          rintro ⟨i, hi⟩
          rw [hcoarse i (Np.argmin cm.chi2), sub_self] at hi
          exact lt_irrefl _ hi
        simp only [bind, Except.bind, pure, Except.pure, if_true, chooseUpsample, autoUpsample, Bool.true_and,
          decide_eq_true this]
      | int v => exact fin hoff
      | float v => exact fin hoff
  · rintro ⟨i, j, hij⟩ re rc
    have hcoarse : ∃ i j, cm.chi2 i ≠ cm.chi2 j := by
      by_contra hcon
      push Not at hcon
      apply hij
      have e : (fun i => (cm.chi2 i : ℂ)) = fun _ => (cm.chi2 (Np.argmin cm.chi2) : ℂ) := by
        funext k
        rw [hcon k (Np.argmin cm.chi2)]
      rw [hc]
      beta_reduce
      rw [e, interp2C_const, interp2C_const]
    have hch := chooseUpsample_eq (nx := nx) cm.chi2 us (mAuto st mns nf) mas true (Or.inr hcoarse) hus
    rw [← hu, ← hg] at hch
    rw [chi2ShiftB_finish cfg bd st im1 im2 err us zm nf true re rc mas mns ah cm hcm u s1 s2 hch hu0.ne', hres]
    have hc' : (fun i : Fin s1 × Fin s2 => (interp2C (fun i => (cm.chi2 i : ℂ))
            (Spec.gridShift ny (Np.argmin cm.chi2).1 u s1 i.1 + (Spec.zeroLag ny : ℕ))
            (Spec.gridShift nx (Np.argmin cm.chi2).2 u s2 i.2 + (Spec.zeroLag nx : ℕ))).re) = c := by
      rw [hc, hyv, hxv]
    rw [hc', chi2ShiftFinish_eq _ _ _ _ _ _ _ _ _ _ (Or.inr ⟨i, j, hij⟩) er her]
    simp only [add_sub_cancel_right, hyv, hxv]
    rfl

end

/-- the hypotheses of C95 and of `C36_verbose_exact` are met: with `boundary='wrap'` and with `boundary='fill'` there is a map -/
example (cfg : FFTConfig) (im1 im2 : Fin 4 × Fin 5 → Pix) (err : ErrArg 4 5) :
    (∃ chi2, chi2nMapB cfg .wrap im1 im2 err false false false false = .ok (.only chi2)) ∧
    (∃ chi2, chi2nMapB cfg (.fill fun s t => (s.1 + t.1, s.2 + t.2)) im1 im2 err false false false false = .ok (.only chi2)) ∧
    Spec.validUs 4 256 .auto ∧ Spec.validUs 4 256 (.int 7) := by
  refine ⟨?_, ?_, by simp [Spec.validUs], by simp [Spec.validUs]⟩
  · obtain ⟨cm, h, -⟩ := chi2nMapBody_chi2 cfg im1 im2 err false false (Or.inr (by norm_num))
    exact ⟨cm.chi2, by rw [chi2nMapB_same]; unfold chi2nMapBody at h; rw [h]; rfl⟩
  · obtain ⟨c, h, -⟩ := C93_nonneg cfg (fun s t => (s.1 + t.1, s.2 + t.2)) (fun _ _ => ⟨le_refl _, le_refl _⟩) false
      (Or.inr (by norm_num)) im1 im2 err false
    exact ⟨c, h⟩

/-- both cases of `C36_verbose_exact` occur: a constant map has constant interpolants (so `verbose=True` raises), and the map of a
one-pixel object is not constant -/
example (cfg : FFTConfig) : chi2nMapB cfg .wrap (realArr fun _ : Fin 4 × Fin 5 => (1 : ℝ)) (realArr fun _ : Fin 4 × Fin 5 => (1 : ℝ))
    .none false false false false = .ok (.only fun _ => 0) := by
  obtain ⟨cm, h, hc⟩ := chi2nMapBody_chi2 cfg (realArr fun _ : Fin 4 × Fin 5 => (1 : ℝ)) (realArr fun _ : Fin 4 × Fin 5 => (1 : ℝ))
    .none false false (Or.inr (by norm_num))
  rw [chi2nMapB_same]
  unfold chi2nMapBody at h
  rw [h]
  have : cm.chi2 = fun _ => 0 := by
    funext i
    rw [hc]
    simp [Spec.chi2, Spec.maskOf, Spec.errOf, prep_def, Spec.nan0, realArr]
  simp [bind, Except.bind, pure, Except.pure, this]

end ImgReg
