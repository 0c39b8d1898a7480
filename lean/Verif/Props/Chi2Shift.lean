import Verif.Lemmas.Chi2Shift
import Verif.Props.Chi2

/-!
# Properties of `chi2_shift` and `chi2map_to_errors` (C31–C38)

`Spec.validUs`: `'auto'` with `max_auto_size > 0`, a positive int, or a float in `(0, ny)`.
`Spec.validStats`: the 1-sigma threshold is positive (as it is for `scipy.stats` and the fallback).
-/

open Complex Finset

namespace ImgReg

section
variable {ny nx : ℕ} [NeZero ny] [NeZero nx]

/-- the list `chi2_shift` returns -/
def Spec.layout (re rc : Bool) (dx dy ex ey : ℝ) (arrs : RetVal) : List RetVal :=
  [.num dx, .num dy] ++ (if re then [.num ex, .num ey] else []) ++ (if rc then [arrs] else [])

/-- everything about a successful call, whatever the boundary mode -/
theorem chi2ShiftB_ok (cfg : FFTConfig) (bd : CorrBoundary) (st : Stats) (hst : Spec.validStats st)
    (im1 im2 : Fin ny × Fin nx → Pix) (err : ErrArg ny nx) (us : UsFactor) (zm : Bool) (nf : ℝ)
    (mas : ℕ) (mns : ℝ) (ah : Bool) (hus : Spec.validUs ny mas us)
    (cm : Chi2Map ny nx) (hcm : chi2nMapBodyB cfg bd im1 im2 err zm false ah = .ok cm) :
    ∃ (s1 s2 : ℕ) (_ : NeZero s1) (_ : NeZero s2), (s1, s2) = Spec.gridSize ny nx mas us ∧
    ∃ u : ℝ, u = Spec.usUsed cm.chi2 (mAuto st mns nf) mas us ∧ 0 < u ∧
    ∃ yv xv : Fin s1 × Fin s2 → ℝ,
      yv = (fun i => Spec.gridShift ny (Np.argmin cm.chi2).1 u s1 i.1) ∧
      xv = (fun i => Spec.gridShift nx (Np.argmin cm.chi2).2 u s2 i.2) ∧
    ∃ c : Fin s1 × Fin s2 → ℝ,
      c = (fun i => (interp2C (fun i => (cm.chi2 i : ℂ)) (yv i + (Spec.zeroLag ny : ℕ))
            (xv i + (Spec.zeroLag nx : ℕ))).re) ∧
    ∃ er, chi2mapToErrors st c u 1 2 = .ok er ∧
      ∀ re rc, chi2ShiftB cfg bd st im1 im2 err us zm nf false re rc mas mns ah
        = .ok (Spec.layout re rc (-xv (Np.argmin c)) (-yv (Np.argmin c))
            ((er.xLow + er.xHigh) / 2) ((er.yLow + er.yHigh) / 2) (.arrays s1 s2 xv yv c)) := by
  obtain ⟨hp1, hp2⟩ := gridSize_pos (ny := ny) (nx := nx) mas us hus
  have hch := chooseUpsample_eq (nx := nx) cm.chi2 us (mAuto st mns nf) mas false (Or.inl rfl) hus
  have hu := usUsed_pos cm.chi2 (mAuto st mns nf) mas us hus
  generalize hug : Spec.usUsed cm.chi2 (mAuto st mns nf) mas us = u at hch hu
  generalize hg : Spec.gridSize ny nx mas us = g at hch hp1 hp2
  obtain ⟨s1, s2⟩ := g
  have i1 : NeZero s1 := ⟨hp1.ne'⟩
  have i2 : NeZero s2 := ⟨hp2.ne'⟩
  refine ⟨s1, s2, i1, i2, rfl, u, rfl, hu, _, _, rfl, rfl, _, rfl, ?_⟩
  obtain ⟨er, her⟩ := chi2mapToErrors_ok st (fun i : Fin s1 × Fin s2 =>
    (interp2C (fun i => (cm.chi2 i : ℂ))
      (Spec.gridShift ny (Np.argmin cm.chi2).1 u s1 i.1 + (Spec.zeroLag ny : ℕ))
      (Spec.gridShift nx (Np.argmin cm.chi2).2 u s2 i.2 + (Spec.zeroLag nx : ℕ))).re) u 1 2
    (sigma_pos st hst)
  refine ⟨er, her, fun re rc => ?_⟩
  rw [chi2ShiftB_finish cfg bd st im1 im2 err us zm nf false re rc mas mns ah cm hcm u s1 s2 hch hu.ne',
    chi2ShiftFinish_eq _ _ _ _ _ _ _ _ _ _ (Or.inl rfl) er her]
  simp only [add_sub_cancel_right]
  rfl

/-- everything about a successful call -/
theorem chi2Shift_ok (cfg : FFTConfig) (st : Stats) (hst : Spec.validStats st)
    (im1 im2 : Fin ny × Fin nx → Pix) (err : ErrArg ny nx) (us : UsFactor) (zm : Bool) (nf : ℝ)
    (mas : ℕ) (mns : ℝ) (ah : Bool) (hf : Spec.fits ah ny nx) (hus : Spec.validUs ny mas us) :
    ∃ cm, chi2nMapBody cfg im1 im2 err zm false ah = .ok cm ∧
    ∃ (s1 s2 : ℕ) (_ : NeZero s1) (_ : NeZero s2), (s1, s2) = Spec.gridSize ny nx mas us ∧
    ∃ u : ℝ, u = Spec.usUsed cm.chi2 (mAuto st mns nf) mas us ∧ 0 < u ∧
    ∃ yv xv : Fin s1 × Fin s2 → ℝ,
      yv = (fun i => Spec.gridShift ny (Np.argmin cm.chi2).1 u s1 i.1) ∧
      xv = (fun i => Spec.gridShift nx (Np.argmin cm.chi2).2 u s2 i.2) ∧
    ∃ c : Fin s1 × Fin s2 → ℝ,
      c = (fun i => (interp2C (fun i => (cm.chi2 i : ℂ)) (yv i + (Spec.zeroLag ny : ℕ))
            (xv i + (Spec.zeroLag nx : ℕ))).re) ∧
    ∃ er, chi2mapToErrors st c u 1 2 = .ok er ∧
      ∀ re rc, chi2Shift cfg st im1 im2 err us zm nf false re rc mas mns ah
        = .ok (Spec.layout re rc (-xv (Np.argmin c)) (-yv (Np.argmin c))
            ((er.xLow + er.xHigh) / 2) ((er.yLow + er.yHigh) / 2) (.arrays s1 s2 xv yv c)) := by
  obtain ⟨cm, hcm, -⟩ := chi2nMapBody_eq cfg im1 im2 err zm false ah hf
  exact ⟨cm, hcm, chi2ShiftB_ok cfg .wrap st hst im1 im2 err us zm nf mas mns ah hus cm hcm⟩

/-! ## C31 -/

/-- C31, any pixel content and `zeromean`: with a scalar error, the upsampled map returned with `return_chi2array` holds, at every grid
point, the squared residual between the first image and the second shifted (complex Fourier shift) by the shift listed for that grid point,
NaN pixels counting as 0 and, with `zeromean`, after the means have been subtracted (`prep`); in particular it is never negative. -/
theorem C31_residual_any (cfg : FFTConfig) (st : Stats) (hst : Spec.validStats st)
    (im1 im2 : Fin ny × Fin nx → Pix) (err : ErrArg ny nx) (s : ℝ) (_hs : s ≠ 0)
    (herr : Spec.isScalarErr err s) (us : UsFactor) (zm : Bool) (nf : ℝ) (mas : ℕ) (mns : ℝ) (ah : Bool)
    (hf : Spec.fits ah ny nx) (hus : Spec.validUs ny mas us) (re : Bool) :
    ∃ (l : List RetVal) (s1 s2 : ℕ) (xv yv c : Fin s1 × Fin s2 → ℝ),
      chi2Shift cfg st im1 im2 err us zm nf false re true mas mns ah
        = .ok (l ++ [.arrays s1 s2 xv yv c]) ∧
      ∀ i, ∃ y : Fin ny × Fin nx → ℂ,
        shift2d cfg (rArr (prep zm im2)) (xv i) (yv i) 0 false false = .cplx (cArr y) ∧
        c i = ∑ p, ‖(prep zm im1 p : ℂ) - y p‖ ^ 2 / s ^ 2 ∧ 0 ≤ c i := by
  obtain ⟨cm, hcm, s1, s2, i1, i2, -, u, -, -, yv, xv, -, -, c, hc, er, -, hres⟩ :=
    chi2Shift_ok cfg st hst im1 im2 err us zm nf mas mns ah hf hus
  refine ⟨_, s1, s2, xv, yv, c, (hres re true).trans rfl, fun i => ?_⟩
  obtain ⟨cm', hcm', hchi⟩ := chi2nMapBody_chi2 cfg im1 im2 err zm ah hf
  rw [hcm] at hcm'
  obtain rfl : cm = cm' := by injection hcm'
  have he : Spec.errOf err = fun _ => s := by
    cases err <;> simp_all [Spec.isScalarErr, Spec.errOf]
  have hm : ∀ im : Fin ny × Fin nx → ℝ, Spec.maskOf err im = im := by
    intro im
    cases err <;> simp_all [Spec.isScalarErr, Spec.maskOf]
  have hval : c i = Spec.resid (prep zm im1) (prep zm im2) s (yv i) (xv i) := by
    rw [hc]
    have : (fun i => ((cm.chi2 i : ℝ) : ℂ)) = fun i =>
        ((Spec.chi2 (prep zm im1) (prep zm im2) (fun _ => s) (Spec.lag ny i.1) (Spec.lag nx i.2) : ℝ) : ℂ) := by
      funext i; rw [hchi, he, hm, hm]
    simp only [this]
    rw [interp2C_chi2, add_sub_cancel_right, add_sub_cancel_right]
  refine ⟨cshift (yv i) (xv i) (prep zm im2), ?_, hval, ?_⟩
  · rw [shift2d_eq, denan_rArr]
    simp only [shiftKernel_zero]
    rw [shiftReturn_cplx]; rfl
  · rw [hval]; exact resid_nonneg _ _ _ _ _

/-- C31: for images without NaN and without `zeromean`, in terms of the images themselves. -/
theorem C31_residual (cfg : FFTConfig) (st : Stats) (hst : Spec.validStats st)
    (im1 im2 : Fin ny × Fin nx → ℝ) (err : ErrArg ny nx) (s : ℝ) (_hs : s ≠ 0)
    (herr : Spec.isScalarErr err s) (us : UsFactor) (nf : ℝ) (mas : ℕ) (mns : ℝ) (ah : Bool)
    (hf : Spec.fits ah ny nx) (hus : Spec.validUs ny mas us) (re : Bool) :
    ∃ (l : List RetVal) (s1 s2 : ℕ) (xv yv c : Fin s1 × Fin s2 → ℝ),
      chi2Shift cfg st (realArr im1) (realArr im2) err us false nf false re true mas mns ah
        = .ok (l ++ [.arrays s1 s2 xv yv c]) ∧
      ∀ i, ∃ y : Fin ny × Fin nx → ℂ,
        shift2d cfg (rArr im2) (xv i) (yv i) 0 false false = .cplx (cArr y) ∧
        c i = ∑ p, ‖(im1 p : ℂ) - y p‖ ^ 2 / s ^ 2 ∧ 0 ≤ c i := by
  have hp : ∀ im : Fin ny × Fin nx → ℝ, prep false (realArr im) = im := by
    intro im
    simp [prep_def]
    rfl
  simpa only [hp] using C31_residual_any cfg st hst (realArr im1) (realArr im2) err s _hs herr us false nf mas mns ah hf hus re

/-! ## C32, C36 -/

/-- C32: the returned `(dx, dy)` is minus the grid point at which the returned upsampled map attains
its minimum, the first one in C order. -/
theorem C32_best_grid_point (cfg : FFTConfig) (st : Stats) (hst : Spec.validStats st)
    (im1 im2 : Fin ny × Fin nx → Pix) (err : ErrArg ny nx) (us : UsFactor) (zm : Bool) (nf : ℝ)
    (mas : ℕ) (mns : ℝ) (ah : Bool) (hf : Spec.fits ah ny nx) (hus : Spec.validUs ny mas us) :
    ∃ (s1 s2 : ℕ) (xv yv c : Fin s1 × Fin s2 → ℝ) (best : Fin s1 × Fin s2),
      chi2Shift cfg st im1 im2 err us zm nf false false true mas mns ah
        = .ok [.num (-xv best), .num (-yv best), .arrays s1 s2 xv yv c] ∧
      Np.IsFirstMin c best := by
  obtain ⟨cm, hcm, s1, s2, i1, i2, -, u, -, -, yv, xv, -, -, c, hc, er, -, hres⟩ :=
    chi2Shift_ok cfg st hst im1 im2 err us zm nf mas mns ah hf hus
  exact ⟨s1, s2, xv, yv, c, Np.argmin c, (hres false true).trans rfl, Np.argmin_spec c⟩

/-- C36: return layout. There are numbers `dx dy ex ey` and arrays, the same for all flags, such that the
result is `[dx, dy] + ([ex, ey] if return_error) + ([(xvals, yvals, chi2)] if return_chi2array)`. -/
theorem C36_layout (cfg : FFTConfig) (st : Stats) (hst : Spec.validStats st)
    (im1 im2 : Fin ny × Fin nx → Pix) (err : ErrArg ny nx) (us : UsFactor) (zm : Bool) (nf : ℝ)
    (mas : ℕ) (mns : ℝ) (ah : Bool) (hf : Spec.fits ah ny nx) (hus : Spec.validUs ny mas us) :
    ∃ (dx dy ex ey : ℝ) (s1 s2 : ℕ) (xv yv c : Fin s1 × Fin s2 → ℝ),
      (s1, s2) = Spec.gridSize ny nx mas us ∧
      ∀ returnError returnChi2array : Bool,
        chi2Shift cfg st im1 im2 err us zm nf false returnError returnChi2array mas mns ah
        = .ok ([.num dx, .num dy] ++ (if returnError then [.num ex, .num ey] else [])
            ++ (if returnChi2array then [.arrays s1 s2 xv yv c] else [])) := by
  obtain ⟨cm, hcm, s1, s2, i1, i2, hg, u, -, -, yv, xv, -, -, c, hc, er, -, hres⟩ :=
    chi2Shift_ok cfg st hst im1 im2 err us zm nf mas mns ah hf hus
  exact ⟨_, _, _, _, s1, s2, xv, yv, c, hg, fun re rc => hres re rc⟩

/-- C36: whatever the boundary mode, `verbose=True` either raises ValueError or changes nothing. -/
theorem C36_verbose_any_boundary (cfg : FFTConfig) (bd : CorrBoundary) (st : Stats) (im1 im2 : Fin ny × Fin nx → Pix)
    (err : ErrArg ny nx) (us : UsFactor) (zm : Bool) (nf : ℝ) (re rc : Bool) (mas : ℕ) (mns : ℝ)
    (ah : Bool) :
    chi2ShiftB cfg bd st im1 im2 err us zm nf true re rc mas mns ah = .error .valueError ∨
    chi2ShiftB cfg bd st im1 im2 err us zm nf true re rc mas mns ah
      = chi2ShiftB cfg bd st im1 im2 err us zm nf false re rc mas mns ah := by
  classical
  have hauto : ∀ (chi2 : Fin ny × Fin nx → ℝ) t, autoUpsample chi2 t mas true = .error .valueError ∨
      autoUpsample chi2 t mas true = autoUpsample chi2 t mas false := by
    intro chi2 t
    unfold autoUpsample
    by_cases h : ∃ i, 0 < chi2 i - chi2 (Np.argmin chi2)
    · right
      simp only [decide_eq_false (not_not_intro h), Bool.and_false]
    · left
      simp only [decide_eq_true h, Bool.and_true, if_true]
  have hchoose : ∀ (chi2 : Fin ny × Fin nx → ℝ) t,
      chooseUpsample chi2 us t mas true = .error .valueError ∨
      chooseUpsample chi2 us t mas true = chooseUpsample chi2 us t mas false := by
    intro chi2 t
    unfold chooseUpsample
    cases us with
    | auto =>
      rcases hauto chi2 t with h | h
      · left; simp only [h]; rfl
      · right; simp only [h]
    | int u => right; rfl
    | float u => right; rfl
  have hfin : ∀ {m l : ℕ} [NeZero m] [NeZero l] (c y x : Fin m × Fin l → ℝ) (u yc xc : ℝ),
      chi2ShiftFinish st c y x u yc xc true re rc = .error .valueError ∨
      chi2ShiftFinish st c y x u yc xc true re rc = chi2ShiftFinish st c y x u yc xc false re rc := by
    intro m l _ _ c y x u yc xc
    unfold chi2ShiftFinish
    by_cases h : ∃ i, 0 < c i - c (Np.argmin c)
    · right
      simp only [decide_eq_false (not_not_intro h), Bool.and_false]
    · left
      simp only [decide_eq_true h, Bool.and_true, if_true]
      rfl
  unfold chi2ShiftB
  rcases chi2nMapB cfg bd im1 im2 err zm true false ah with er | ret
  · right; rfl
  cases ret with
  | only c => right; rfl
  | all cm =>
    simp only [bind, Except.bind]
    rcases hchoose cm.chi2 (mAuto st mns nf) with h | h
    · left; rw [h]
    rw [h]
    rcases chooseUpsample cm.chi2 us (mAuto st mns nf) mas false with er | ⟨u, s1, s2⟩
    · right; rfl
    simp only []
    rcases zoomnd2 _ _ _ _ _ _ _ _ with er | z
    · right; rfl
    simp only []
    rcases z with _ | ⟨cube, m, l, a | a⟩
    · right; rfl
    · simp only []
      split_ifs with h0
      · have : NeZero m := ⟨h0.1⟩
        have : NeZero l := ⟨h0.2⟩
        exact hfin _ _ _ _ _ _
      · right; rfl
    · right; rfl

/-- C36: `verbose=True` either raises ValueError or changes nothing. -/
theorem C36_verbose (cfg : FFTConfig) (st : Stats) (im1 im2 : Fin ny × Fin nx → Pix)
    (err : ErrArg ny nx) (us : UsFactor) (zm : Bool) (nf : ℝ) (re rc : Bool) (mas : ℕ) (mns : ℝ)
    (ah : Bool) :
    chi2Shift cfg st im1 im2 err us zm nf true re rc mas mns ah = .error .valueError ∨
    chi2Shift cfg st im1 im2 err us zm nf true re rc mas mns ah
      = chi2Shift cfg st im1 im2 err us zm nf false re rc mas mns ah :=
  C36_verbose_any_boundary cfg .wrap st im1 im2 err us zm nf re rc mas mns ah

end

end ImgReg
