import Verif.Lemmas.Chi2

/-! # Lemmas about `chi2_shift` -/

open Complex Finset
open scoped ComplexConjugate

namespace ImgReg

section
variable {ny nx : ℕ} [NeZero ny] [NeZero nx]

theorem idft_real_conj {ι : Type} [AddCommGroup ι] [Fintype ι] [DecidableEq ι] [FFTIndex ι]
    (x : ι → ℝ) (a k : ι) :
    idft (fun i => (x (a - i) : ℂ)) k = conj (idft (fun i => (x i : ℂ)) k) * e k a := by
  unfold idft
  rw [map_mul, map_sum, mul_assoc, Finset.sum_mul]
  congr 1
  · simp
  rw [← Equiv.sum_comp (Equiv.subLeft a)]
  refine Finset.sum_congr rfl fun i _ => ?_
  simp only [Equiv.subLeft_apply, sub_sub_cancel, map_mul, Complex.conj_ofReal]
  have h : e (a - i) k = e k a * conj (e k i) := by
    rw [FFTIndex.e_symm, e_sub]
  rw [h, FFTIndex.e_symm i k]; ring

/-- interpolating a mirrored real image -/
theorem interp2C_flip (x : Fin ny × Fin nx → ℝ) (a : Fin ny × Fin nx) (ty tx : ℝ) :
    interp2C (fun i => (x (a - i) : ℂ)) ty tx
      = conj (interp2C (fun i => (x i : ℂ)) (((a.1 : ℕ) : ℝ) - ty) (((a.2 : ℕ) : ℝ) - tx)) := by
  unfold interp2C
  rw [map_sum]
  refine Finset.sum_congr rfl fun k _ => ?_
  rw [idft_real_conj, map_mul, map_mul, conj_ex, conj_ex]
  have h1 := Np.ex_int_mul_fftfreq ((a.1 : ℕ) : ℤ) k.1 a.1 rfl
  have h2 := Np.ex_int_mul_fftfreq ((a.2 : ℕ) : ℤ) k.2 a.2 rfl
  rw [e_prod, ← h1, ← h2, ← ex_add, mul_assoc (conj _), mul_assoc (conj _), mul_assoc (conj _),
    ← ex_add, ← ex_add, ← ex_add]
  congr 2; push_cast; ring

theorem interp2C_smul (c : ℂ) (x : Fin ny × Fin nx → ℂ) (ty tx : ℝ) :
    interp2C (fun i => c * x i) ty tx = c * interp2C x ty tx := by
  unfold interp2C
  rw [idft_smul, Finset.mul_sum]
  exact Finset.sum_congr rfl fun k _ => by ring

theorem interp2C_add (x y : Fin ny × Fin nx → ℂ) (ty tx : ℝ) :
    interp2C (fun i => x i + y i) ty tx = interp2C x ty tx + interp2C y ty tx := by
  unfold interp2C
  rw [idft_add, ← Finset.sum_add_distrib]
  exact Finset.sum_congr rfl fun k _ => by ring

theorem interp2C_sum {α : Type} (T : Finset α) (x : α → Fin ny × Fin nx → ℂ) (ty tx : ℝ) :
    interp2C (fun i => ∑ a ∈ T, x a i) ty tx = ∑ a ∈ T, interp2C (x a) ty tx := by
  unfold interp2C
  rw [Finset.sum_comm]
  refine Finset.sum_congr rfl fun k _ => ?_
  rw [idft_sum, Finset.sum_mul, Finset.sum_mul]

theorem interp2C_const (c : ℂ) (ty tx : ℝ) :
    interp2C (fun _ : Fin ny × Fin nx => c) ty tx = c := by
  rw [interp2C_sep]
  have h : ∀ (n : ℕ) [NeZero n] (t : ℝ), interpC (fun _ : Fin n => c) t = c := by
    intro n _ t
    have := interpC_exp (n := n) 0 (by have := Nat.pos_of_ne_zero (NeZero.ne n); simpa using this) t
    simp only [Int.cast_zero, zero_mul, zero_div, ex_zero] at this
    have h2 := interpC_smul (fun _ : Fin n => (1 : ℂ)) c t
    simp only [mul_one, this] at h2
    exact h2
  rw [h, h]

/-- the complex Fourier shift of a real image by `(dy, dx)` -/
noncomputable def cshift (dy dx : ℝ) (x : Fin ny × Fin nx → ℝ) : Fin ny × Fin nx → ℂ :=
  filt (fun k => ex (-(freq2 dx dy k))) fun i => (x i : ℂ)

theorem cshift_energy (dy dx : ℝ) (x : Fin ny × Fin nx → ℝ) :
    ∑ p, ‖cshift dy dx x p‖ ^ 2 = ∑ p, x p ^ 2 := by
  unfold cshift
  rw [energy_filt _ _ fun k => norm_ex _]
  simp

theorem cshift_int (dy dx : ℤ) (x : Fin ny × Fin nx → ℝ) (p : Fin ny × Fin nx) :
    cshift dy dx x p = (Spec.roll2 dy dx x p : ℝ) := by
  unfold cshift
  simp only [ex_freq2_int]
  rw [filt_conj_e]
  unfold Spec.roll2
  rw [Spec.wrap_sub, Spec.wrap_sub]; rfl

/-- interpolating a correlation map between pixels correlates with the sub-pixel shifted image -/
theorem interp2C_xcorr (a b : Fin ny × Fin nx → ℝ) (ty tx : ℝ) :
    interp2C (fun i => ((Spec.xcorr a b i : ℝ) : ℂ)) ty tx
      = ∑ p, (a p : ℂ) * cshift (ty - Spec.zeroLag ny) (tx - Spec.zeroLag nx) b p := by
  have h1 : (fun i => ((Spec.xcorr a b i : ℝ) : ℂ))
      = fun i => ∑ p, (a p : ℂ) * ((b ((p + (Spec.wrap ny (Spec.zeroLag ny), Spec.wrap nx (Spec.zeroLag nx)))
          - i) : ℝ) : ℂ) := by
    funext i
    unfold Spec.xcorr
    push_cast
    refine Finset.sum_congr rfl fun p _ => ?_
    congr 3
    unfold Spec.move
    have : ∀ (n : ℕ) [NeZero n] (p i : Fin n) (c : ℤ),
        Spec.wrap n (((p : ℕ) : ℤ) + (c - ((i : ℕ) : ℤ))) = p + Spec.wrap n c - i := by
      intro n _ p i c
      rw [Spec.wrap_eq_iff]
      refine Int.ModEq.symm ((Fin.val_sub_modEq _ _).trans ?_)
      have := ((Fin.val_add_modEq p (Spec.wrap n c)).trans
        ((Int.ModEq.refl _).add (Spec.wrap_modEq n c))).sub (Int.ModEq.refl ((i : ℕ) : ℤ))
      rwa [add_sub_assoc] at this
    rw [this, this]; rfl
  rw [h1, interp2C_sum]
  refine Finset.sum_congr rfl fun p _ => ?_
  rw [interp2C_smul]
  congr 1
  have h2 : ∀ a : Fin ny × Fin nx, ∀ zy zx : ℤ, a = (Spec.wrap ny zy, Spec.wrap nx zx) →
      interp2C (fun i => (b i : ℂ)) (((a.1 : ℕ) : ℝ) - ty) (((a.2 : ℕ) : ℝ) - tx)
        = interp2C (fun i => (b i : ℂ)) ((zy : ℝ) - ty) ((zx : ℝ) - tx) := by
    rintro a zy zx rfl
    unfold interp2C
    refine Finset.sum_congr rfl fun k _ => ?_
    have h3 : ∀ (n : ℕ) [NeZero n] (k : Fin n) (z : ℤ) (t : ℝ),
        ex (-(Np.fftfreq n k * ((((Spec.wrap n z : Fin n) : ℕ) : ℝ) - t)))
          = ex (-(Np.fftfreq n k * ((z : ℝ) - t))) := by
      intro n _ k z t
      have e1 := Np.ex_int_mul_fftfreq (((Spec.wrap n z : Fin n) : ℕ) : ℤ) k _ rfl
      have e2 := Np.ex_int_mul_fftfreq z k _ (Spec.wrap_modEq n z).symm
      have e3 := congrArg conj (e1.trans e2.symm)
      rw [conj_ex, conj_ex] at e3
      have s1 : -(Np.fftfreq n k * ((((Spec.wrap n z : Fin n) : ℕ) : ℝ) - t))
        = -(((((Spec.wrap n z : Fin n) : ℕ) : ℤ) : ℝ) * Np.fftfreq n k) + t * Np.fftfreq n k := by
          push_cast; ring
      have s2 : -(Np.fftfreq n k * ((z : ℝ) - t)) = -((z : ℝ) * Np.fftfreq n k) + t * Np.fftfreq n k := by
          ring
      rw [s1, s2, ex_add, ex_add, e3]
    rw [h3, h3]
  rw [interp2C_flip]
  have h4 : p + (Spec.wrap ny (Spec.zeroLag ny), Spec.wrap nx (Spec.zeroLag nx))
      = (Spec.wrap ny (((p.1 : ℕ) : ℤ) + Spec.zeroLag ny), Spec.wrap nx (((p.2 : ℕ) : ℤ) + Spec.zeroLag nx)) := by
    rw [Spec.wrap_add, Spec.wrap_add]; rfl
  rw [h2 _ _ _ h4]
  have h5 := interp2C_displaced b (ty - Spec.zeroLag ny) (tx - Spec.zeroLag nx) p
  unfold cshift
  rw [← Complex.conj_conj (filt _ _ p), ← h5]
  congr 2 <;> · push_cast; ring

/-- the squared residual of image `a` and the complex sub-pixel shift of `b` -/
noncomputable def Spec.resid (a b : Fin ny × Fin nx → ℝ) (s dy dx : ℝ) : ℝ :=
  ∑ p, ‖(a p : ℂ) - cshift dy dx b p‖ ^ 2 / s ^ 2

theorem resid_expand (a b : Fin ny × Fin nx → ℝ) (s dy dx : ℝ) :
    Spec.resid a b s dy dx = (∑ p, b p ^ 2 - 2 * (∑ p, (a p : ℂ) * cshift dy dx b p).re
      + ∑ p, a p ^ 2) / s ^ 2 := by
  unfold Spec.resid
  rw [← Finset.sum_div, ← cshift_energy dy dx b, Complex.re_sum, Finset.mul_sum,
    ← Finset.sum_sub_distrib, ← Finset.sum_add_distrib]
  congr 1
  refine Finset.sum_congr rfl fun p _ => ?_
  rw [← Complex.normSq_eq_norm_sq, ← Complex.normSq_eq_norm_sq, Complex.normSq_sub,
    Complex.normSq_ofReal]
  have : ((a p : ℂ) * conj (cshift dy dx b p)).re = ((a p : ℂ) * cshift dy dx b p).re := by
    simp
  rw [this]; ring

/-- interpolating the chi-squared map between pixels gives the residual of the sub-pixel shift -/
theorem interp2C_chi2 (a b : Fin ny × Fin nx → ℝ) (s ty tx : ℝ) :
    (interp2C (fun i => ((Spec.chi2 a b (fun _ => s) (Spec.lag ny i.1) (Spec.lag nx i.2) : ℝ) : ℂ)) ty tx).re
      = Spec.resid a b s (ty - Spec.zeroLag ny) (tx - Spec.zeroLag nx) := by
  have h1 : (fun i : Fin ny × Fin nx =>
      ((Spec.chi2 a b (fun _ => s) (Spec.lag ny i.1) (Spec.lag nx i.2) : ℝ) : ℂ))
      = fun i => (((∑ p, b p ^ 2 + ∑ p, a p ^ 2) / s ^ 2 : ℝ) : ℂ)
        + ((-2 / s ^ 2 : ℝ) : ℂ) * ((Spec.xcorr a b i : ℝ) : ℂ) := by
    funext i
    rw [← Complex.ofReal_mul, ← Complex.ofReal_add]
    congr 1
    rw [chi2_expand]
    unfold Spec.xcorr Spec.lag
    have : ∀ p : Fin ny × Fin nx → Fin ny × Fin nx, ∑ q, a q * (b (p q) / s ^ 2) = (∑ q, a q * b (p q)) / s ^ 2 := by
      intro p; rw [Finset.sum_div]; exact Finset.sum_congr rfl fun q _ => by ring
    rw [this, ← Finset.sum_mul, ← Finset.sum_div]
    ring
  rw [h1, interp2C_add, interp2C_const, interp2C_smul, interp2C_xcorr, resid_expand,
    Complex.add_re, Complex.ofReal_re, Complex.re_ofReal_mul]
  ring

theorem resid_nonneg (a b : Fin ny × Fin nx → ℝ) (s dy dx : ℝ) : 0 ≤ Spec.resid a b s dy dx :=
  Finset.sum_nonneg fun p _ => by positivity

/-! ### the structure of `chi2_shift` -/

theorem chi2Centre_eq (n : ℕ) [NeZero n] : chi2Centre n = (Spec.zeroLag n : ℕ) := by
  have hn := Nat.pos_of_ne_zero (NeZero.ne n)
  unfold chi2Centre Spec.zeroLag
  rcases Nat.even_or_odd' n with ⟨k, rfl | rfl⟩
  · have h1 : (2 * k - 1) / 2 = k - 1 := by omega
    have h2 : 1 ≤ k := by omega
    rw [h1, if_pos (by omega), Nat.cast_sub h2]; push_cast; ring
  · have h1 : (2 * k + 1 - 1) / 2 = k := by omega
    rw [h1, if_neg (by omega)]; push_cast; norm_num; ring

/-- the half pixel by which the zoom window of an even-sized map is displaced -/
noncomputable def Spec.halfPix (n : ℕ) : ℝ := if n % 2 = 0 then 1 / 2 else 0

theorem halfPix_eq (n : ℕ) [NeZero n] : ((n : ℝ) - 1) / 2 = (Spec.zeroLag n : ℕ) + Spec.halfPix n := by
  rw [← chi2Centre_eq]
  unfold chi2Centre Spec.halfPix
  split_ifs <;> ring

theorem zoomnd2_chi2 (cfg : FFTConfig) (c : Fin ny × Fin nx → ℝ) (oy ox us : ℝ) (hus : us ≠ 0)
    (s1 s2 : ℕ) (h1 : 0 < s1) (h2 : 0 < s2) :
    ∃ cube : Arr, (∀ (i : Fin s1) (j : Fin s2),
        cube.val [0, i, j] = Spec.zoomGrid (((ny : ℝ) - 1) / 2 + oy) us s1 i ∧
        cube.val [1, i, j] = Spec.zoomGrid (((nx : ℝ) - 1) / 2 + ox) us s2 j) ∧
      zoomnd2 cfg (rArr c) [oy, ox] id us (some (s1, s2)) true true
        = .ok (.withX cube ⟨s1, s2, .real (realArr fun i =>
          (interp2C (fun i => (c i : ℂ)) (Spec.zoomGrid (((ny : ℝ) - 1) / 2 + oy) us s1 i.1)
            (Spec.zoomGrid (((nx : ℝ) - 1) / 2 + ox) us s2 i.2)).re)⟩) := by
  obtain ⟨cube, -, hv, hz⟩ := zoomOnPixel2_eq cfg (fun i => (c i : ℂ))
    [((ny : ℝ) - 1) / 2 + oy, ((nx : ℝ) - 1) / 2 + ox] us hus (some (s1, s2)) s1 s2 rfl h1 h2 true true
  refine ⟨cube, fun i j => ?_, ?_⟩
  · have := hv i j
    simpa [zoomAxis_some] using this
  · unfold zoomnd2
    rw [zoomMiddle_ok _ _ rfl]
    show zoomOnPixel2 cfg (cArr fun i => (c i : ℂ)) [((ny : ℝ) - 1) / 2 + oy, ((nx : ℝ) - 1) / 2 + ox] us
      (some (s1, s2)) true true = _
    rw [hz]
    simp only [zoomReturn, if_true, retReal]
    simp [zoomAxis_some]

/-- the y (or x) shift a grid index of the zoomed map stands for, given the coarse minimum -/
noncomputable def Spec.gridShift (n : ℕ) (coarse : Fin n) (us : ℝ) (s : ℕ) (i : Fin s) : ℝ :=
  (((coarse : ℕ) : ℝ) - (Spec.zeroLag n : ℕ)) + Spec.halfPix n
    + (((i : ℕ) : ℝ) - ((s : ℝ) - 1) / 2) / us

theorem chi2ShiftB_finish (cfg : FFTConfig) (bd : CorrBoundary) (st : Stats) (im1 im2 : Fin ny × Fin nx → Pix)
    (err : ErrArg ny nx) (usArg : UsFactor) (zm : Bool) (nf : ℝ) (vb re rc : Bool) (mas : ℕ)
    (mns : ℝ) (ah : Bool) (cm : Chi2Map ny nx)
    (hcm : chi2nMapBodyB cfg bd im1 im2 err zm false ah = .ok cm) (us : ℝ) (s1 s2 : ℕ)
    (hch : chooseUpsample cm.chi2 usArg (mAuto st mns nf) mas vb = .ok (us, s1, s2)) (hus : us ≠ 0)
    [NeZero s1] [NeZero s2] :
    chi2ShiftB cfg bd st im1 im2 err usArg zm nf vb re rc mas mns ah
      = chi2ShiftFinish st
          (fun i : Fin s1 × Fin s2 => (interp2C (fun i => (cm.chi2 i : ℂ))
            (Spec.gridShift ny (Np.argmin cm.chi2).1 us s1 i.1 + (Spec.zeroLag ny : ℕ))
            (Spec.gridShift nx (Np.argmin cm.chi2).2 us s2 i.2 + (Spec.zeroLag nx : ℕ))).re)
          (fun i => Spec.gridShift ny (Np.argmin cm.chi2).1 us s1 i.1 + (Spec.zeroLag ny : ℕ))
          (fun i => Spec.gridShift nx (Np.argmin cm.chi2).2 us s2 i.2 + (Spec.zeroLag nx : ℕ))
          us (Spec.zeroLag ny : ℕ) (Spec.zeroLag nx : ℕ) vb re rc := by
  have hg : ∀ (n : ℕ) [NeZero n] (q : Fin n) (s : ℕ) (i : Fin s),
      Spec.zoomGrid (((n : ℝ) - 1) / 2 + (((q : ℕ) : ℝ) - chi2Centre n)) us s i
        = Spec.gridShift n q us s i + (Spec.zeroLag n : ℕ) := by
    intro n _ q s i
    unfold Spec.zoomGrid Spec.gridShift
    rw [halfPix_eq, chi2Centre_eq]; ring
  obtain ⟨cube, hv, hz⟩ := zoomnd2_chi2 ⟨cfg.hasFftw, false, 1⟩ cm.chi2
    ((((Np.argmin cm.chi2).1 : ℕ) : ℝ) - chi2Centre ny)
    ((((Np.argmin cm.chi2).2 : ℕ) : ℝ) - chi2Centre nx) us hus s1 s2
    (Nat.pos_of_ne_zero (NeZero.ne s1)) (Nat.pos_of_ne_zero (NeZero.ne s2))
  unfold chi2ShiftB
  rw [chi2nMapB_same, hcm]
  simp only [bind, Except.bind, pure, Except.pure, if_true, hch, hz]
  rw [dif_pos ⟨NeZero.ne s1, NeZero.ne s2⟩]
  simp only [finiteVals_realArr, (hv _ _).1, (hv _ _).2, hg]
  rw [chi2Centre_eq, chi2Centre_eq]

theorem chi2Shift_finish (cfg : FFTConfig) (st : Stats) (im1 im2 : Fin ny × Fin nx → Pix)
    (err : ErrArg ny nx) (usArg : UsFactor) (zm : Bool) (nf : ℝ) (vb re rc : Bool) (mas : ℕ)
    (mns : ℝ) (ah : Bool) (cm : Chi2Map ny nx)
    (hcm : chi2nMapBody cfg im1 im2 err zm false ah = .ok cm) (us : ℝ) (s1 s2 : ℕ)
    (hch : chooseUpsample cm.chi2 usArg (mAuto st mns nf) mas vb = .ok (us, s1, s2)) (hus : us ≠ 0)
    [NeZero s1] [NeZero s2] :
    chi2Shift cfg st im1 im2 err usArg zm nf vb re rc mas mns ah
      = chi2ShiftFinish st
          (fun i : Fin s1 × Fin s2 => (interp2C (fun i => (cm.chi2 i : ℂ))
            (Spec.gridShift ny (Np.argmin cm.chi2).1 us s1 i.1 + (Spec.zeroLag ny : ℕ))
            (Spec.gridShift nx (Np.argmin cm.chi2).2 us s2 i.2 + (Spec.zeroLag nx : ℕ))).re)
          (fun i => Spec.gridShift ny (Np.argmin cm.chi2).1 us s1 i.1 + (Spec.zeroLag ny : ℕ))
          (fun i => Spec.gridShift nx (Np.argmin cm.chi2).2 us s2 i.2 + (Spec.zeroLag nx : ℕ))
          us (Spec.zeroLag ny : ℕ) (Spec.zeroLag nx : ℕ) vb re rc :=
  chi2ShiftB_finish cfg .wrap st im1 im2 err usArg zm nf vb re rc mas mns ah cm hcm us s1 s2 hch hus

/-- thresholds for which the error region is never empty (true for `scipy.stats`) -/
def Spec.validStats : Stats → Prop
  | none => True
  | some ppf => 0 < ppf 1 2

theorem sigma_pos (st : Stats) (h : Spec.validStats st) : 0 < sigmaToChi2 st 2 1 := by
  unfold sigmaToChi2
  cases st with
  | none => norm_num
  | some ppf =>
    have : (1 : ℝ) < 8 := by norm_num
    simp only [this, if_true]; exact h

theorem chi2mapToErrors_ok {m n : ℕ} [NeZero m] [NeZero n] (st : Stats) (c : Fin m × Fin n → ℝ)
    (zf nsig nf : ℝ) (h : 0 < sigmaToChi2 st nf nsig) :
    ∃ er, chi2mapToErrors st c zf nsig nf = .ok er := by
  unfold chi2mapToErrors
  simp only []
  rw [dif_pos]
  · exact ⟨_, rfl⟩
  · exact ⟨Np.argmin c, by simp [h]⟩

theorem chi2ShiftFinish_eq {m l : ℕ} [NeZero m] [NeZero l] (st : Stats)
    (c ycor xcor : Fin m × Fin l → ℝ) (us ycen xcen : ℝ) (vb re rc : Bool)
    (hv : vb = false ∨ ∃ i j, c i ≠ c j) (er : Errors) (her : chi2mapToErrors st c us 1 2 = .ok er) :
    chi2ShiftFinish st c ycor xcor us ycen xcen vb re rc = .ok
      ([RetVal.num (-(xcor (Np.argmin c) - xcen)), .num (-(ycor (Np.argmin c) - ycen))]
        ++ (if re then [RetVal.num ((er.xLow + er.xHigh) / 2), .num ((er.yLow + er.yHigh) / 2)] else [])
        ++ (if rc then [RetVal.arrays m l (fun i => xcor i - xcen) (fun i => ycor i - ycen) c] else [])) := by
  unfold chi2ShiftFinish
  have hvb : (vb && decide (¬ ∃ i, 0 < c i - c (Np.argmin c))) = false := by
    rcases hv with rfl | ⟨i, j, hij⟩
    · rfl
    · have : ∃ i, 0 < c i - c (Np.argmin c) := by
        by_contra hcon
        push Not at hcon
        have hm := (Np.argmin_spec c).1
        apply hij
        have hi := hcon i; have hj := hcon j; have mi := hm i; have mj := hm j
        linarith
      rw [decide_eq_false (not_not_intro this), Bool.and_false]
  simp only [hvb, her, bind, Except.bind, pure, Except.pure]
  cases re <;> cases rc <;> rfl

/-- `upsample_factor` arguments for which `chi2_shift` chooses a grid -/
def Spec.validUs (ny mas : ℕ) : UsFactor → Prop
  | .auto => 0 < mas
  | .int u => 0 < u
  | .float u => 0 < u ∧ u < ny

/-- the size of the zoomed map -/
noncomputable def Spec.gridSize (ny nx mas : ℕ) : UsFactor → ℕ × ℕ
  | .auto => (mas, mas)
  | .int u => if ny ≤ u then (2 * u, 2 * u) else (ny, nx)
  | .float _ => (ny, nx)

omit [NeZero ny] [NeZero nx] in
theorem auto_size_pos (area : Finset (Fin ny × Fin nx)) (h : 1 < area.card) (hne : area.Nonempty) :
    1 ≤ max (Np.maxOver area hne (fun i => ((i.2 : ℕ) : ℝ)) - Np.minOver area hne (fun i => ((i.2 : ℕ) : ℝ)))
      (Np.maxOver area hne (fun i => ((i.1 : ℕ) : ℝ)) - Np.minOver area hne (fun i => ((i.1 : ℕ) : ℝ))) := by
  have gen : ∀ (v : Fin ny × Fin nx → ℕ) (i j : Fin ny × Fin nx), i ∈ area → j ∈ area → v i < v j →
      1 ≤ Np.maxOver area hne (fun i => (v i : ℝ)) - Np.minOver area hne (fun i => (v i : ℝ)) := by
    intro v i j hi hj hlt
    have h1 : (v j : ℝ) ≤ Np.maxOver area hne (fun i => (v i : ℝ)) := Finset.le_sup' (fun i => (v i : ℝ)) hj
    have h2 : Np.minOver area hne (fun i => (v i : ℝ)) ≤ (v i : ℝ) := Finset.inf'_le (fun i => (v i : ℝ)) hi
    have h3 : (v i : ℝ) + 1 ≤ v j := by exact_mod_cast hlt
    linarith
  obtain ⟨i, hi, j, hj, hij⟩ := Finset.one_lt_card.1 h
  by_cases h2 : (i.2 : ℕ) = j.2
  · have h1 : (i.1 : ℕ) ≠ j.1 := fun h1 => hij (Prod.ext (Fin.ext h1) (Fin.ext h2))
    apply le_max_of_le_right
    rcases lt_or_gt_of_ne h1 with h | h
    · exact gen (fun i => (i.1 : ℕ)) i j hi hj h
    · exact gen (fun i => (i.1 : ℕ)) j i hj hi h
  · apply le_max_of_le_left
    rcases lt_or_gt_of_ne h2 with h | h
    · exact gen (fun i => (i.2 : ℕ)) i j hi hj h
    · exact gen (fun i => (i.2 : ℕ)) j i hj hi h

/-- The extent of the confidence region of a chi-squared map: the larger of the row and column
ranges of `{Δχ² < t}`, or 1 if that region has fewer than two pixels. -/
noncomputable def Spec.regionSize (chi2 : Fin ny × Fin nx → ℝ) (t : ℝ) : ℝ :=
  open Classical in
  if h : 1 < (univ.filter fun i => chi2 i - chi2 (Np.argmin chi2) < t).card then
    max (Np.maxOver _ (card_pos.1 (Nat.lt_of_lt_of_le Nat.zero_lt_one h.le)) (fun i => ((i.2 : ℕ) : ℝ))
        - Np.minOver _ (card_pos.1 (Nat.lt_of_lt_of_le Nat.zero_lt_one h.le)) (fun i => ((i.2 : ℕ) : ℝ)))
      (Np.maxOver _ (card_pos.1 (Nat.lt_of_lt_of_le Nat.zero_lt_one h.le)) (fun i => ((i.1 : ℕ) : ℝ))
        - Np.minOver _ (card_pos.1 (Nat.lt_of_lt_of_le Nat.zero_lt_one h.le)) (fun i => ((i.1 : ℕ) : ℝ)))
  else 1

theorem regionSize_pos (chi2 : Fin ny × Fin nx → ℝ) (t : ℝ) : 1 ≤ Spec.regionSize chi2 t := by
  unfold Spec.regionSize
  split_ifs with h
  · exact auto_size_pos _ h _
  · exact le_rfl

theorem autoUpsample_eq (chi2 : Fin ny × Fin nx → ℝ) (t : ℝ) (mas : ℕ) (vb : Bool)
    (hv : vb = false ∨ ∃ i j, chi2 i ≠ chi2 j) :
    autoUpsample chi2 t mas vb = .ok (max 1 ((mas : ℝ) / 2 / Spec.regionSize chi2 t)) := by
  unfold autoUpsample
  have hvb : (vb && decide (¬ ∃ i, 0 < chi2 i - chi2 (Np.argmin chi2))) = false := by
    rcases hv with rfl | ⟨i, j, hij⟩
    · rfl
    · have : ∃ i, 0 < chi2 i - chi2 (Np.argmin chi2) := by
        by_contra hcon
        push Not at hcon
        have hm := (Np.argmin_spec chi2).1
        apply hij
        have hi := hcon i; have hj := hcon j; have mi := hm i; have mj := hm j
        linarith
      rw [decide_eq_false (not_not_intro this), Bool.and_false]
  have hsz := regionSize_pos chi2 t
  have hne : Spec.regionSize chi2 t ≠ 0 := by linarith
  show (if (vb && decide (¬ ∃ i, 0 < chi2 i - chi2 (Np.argmin chi2))) = true then _ else
    if Spec.regionSize chi2 t = 0 then _ else
      Except.ok (if (mas : ℝ) / 2 / Spec.regionSize chi2 t < 1 then 1
        else (mas : ℝ) / 2 / Spec.regionSize chi2 t)) = _
  rw [hvb, if_neg (by simp), if_neg hne]
  congr 1
  split_ifs with h
  · exact (max_eq_left h.le).symm
  · exact (max_eq_right (not_lt.1 h)).symm

/-- the threshold `m_auto`: the `max_nsig` threshold of `scipy.stats` for `nfitted` parameters, or
2.6088233328527037 (hard-coded, slightly above the 1-sigma value for 2 parameters) without scipy -/
noncomputable def Spec.autoThreshold : Stats → ℝ → ℝ → ℝ
  | some ppf, maxNsig, nfitted => ppf maxNsig nfitted
  | none, _, _ => 2.6088233328527037

theorem autoThreshold_eq (st : Stats) (mns nf : ℝ) : mAuto st mns nf = Spec.autoThreshold st mns nf := by
  cases st <;> rfl

/-- the upsampling factor used -/
noncomputable def Spec.usUsed (chi2 : Fin ny × Fin nx → ℝ) (t : ℝ) (mas : ℕ) : UsFactor → ℝ
  | .auto => max 1 ((mas : ℝ) / 2 / Spec.regionSize chi2 t)
  | .int u => u
  | .float u => u

theorem usUsed_pos (chi2 : Fin ny × Fin nx → ℝ) (t : ℝ) (mas : ℕ) (us : UsFactor)
    (h : Spec.validUs ny mas us) : 0 < Spec.usUsed chi2 t mas us := by
  cases us with
  | auto => exact lt_of_lt_of_le one_pos (le_max_left _ _)
  | int u => exact Nat.cast_pos.2 h
  | float u => exact h.1

theorem chooseUpsample_eq (chi2 : Fin ny × Fin nx → ℝ) (us : UsFactor) (t : ℝ) (mas : ℕ) (vb : Bool)
    (hv : vb = false ∨ ∃ i j, chi2 i ≠ chi2 j) (hus : Spec.validUs ny mas us) :
    chooseUpsample chi2 us t mas vb = .ok (Spec.usUsed chi2 t mas us, Spec.gridSize ny nx mas us) := by
  unfold chooseUpsample
  cases us with
  | auto => simp only [autoUpsample_eq chi2 t mas vb hv]; rfl
  | int u =>
    have h0 : u ≠ 0 := (show 0 < u from hus).ne'
    have hp : (0 : ℝ) < u := Nat.cast_pos.2 hus
    simp only [h0, if_false, Spec.usUsed, Spec.gridSize, div_le_one hp, Nat.cast_le]
    split_ifs <;> rfl
  | float u =>
    have hu : 0 < u ∧ u < ny := hus
    simp only [hu.1.ne', if_false, div_le_one hu.1, not_le.2 hu.2]
    rfl

theorem gridSize_pos (mas : ℕ) (us : UsFactor) (hus : Spec.validUs ny mas us) :
    0 < (Spec.gridSize ny nx mas us).1 ∧ 0 < (Spec.gridSize ny nx mas us).2 := by
  have h1 := Nat.pos_of_ne_zero (NeZero.ne ny)
  have h2 := Nat.pos_of_ne_zero (NeZero.ne nx)
  cases us with
  | auto => exact ⟨hus, hus⟩
  | int u =>
    have : 0 < u := hus
    simp only [Spec.gridSize]
    split_ifs
    · exact ⟨by omega, by omega⟩
    · exact ⟨h1, h2⟩
  | float u => exact ⟨h1, h2⟩

end

end ImgReg
