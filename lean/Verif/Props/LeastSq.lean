import Verif.Model.LeastSq
import Verif.Lemmas.Chi2Recover
import Mathlib.Tactic.FinCases
import Mathlib.Tactic.NormNum

/-!
# C89, C90: `chi2_shift_leastsq`
-/

open Finset

namespace ImgReg

variable {ny nx : ℕ} [NeZero ny] [NeZero nx]

/-- the image used by `chi2_shift_leastsq`: NaN counts as 0, and the mean of ALL pixels (the zeros included) is subtracted -/
noncomputable def Spec.lsqImage (im : Fin ny × Fin nx → Pix) : Fin ny × Fin nx → ℝ := fun p =>
  Spec.nan0 im p - (∑ q, Spec.nan0 im q) / ((ny : ℝ) * nx)

omit [NeZero ny] [NeZero nx] in
theorem lsqPrep_eq (im : Fin ny × Fin nx → Pix) : lsqPrep im = Spec.lsqImage im := by
  unfold lsqPrep Spec.lsqImage Spec.nan0
  push_cast
  rfl

/-- an error that is a nonzero number, or not given (1) -/
def Spec.lsqScalar : LsqErr ny nx → ℝ → Prop
  | .none, e => e = 1
  | .scalar s, e => s = e ∧ e ≠ 0
  | .image _, _ => False

/-- the minimiser calls the residual function: a function that only raises `e` makes it raise `e` -/
def Spec.Evaluates (m : Minimizer ny nx) : Prop :=
  ∀ res par e, (∀ x y, res x y = .error e) → m res par = .error e

/-- what `shift` returns in its default mode -/
theorem lsqShift_eq (fftw : Bool) (b : Fin ny × Fin nx → ℝ) (x y : ℝ) :
    lsqShift fftw (realArr b) x y = realArr fun p => (cshift (-y) (-x) b p).re := by
  have h := C06_shift2d_eq_shiftnd ⟨fftw, false, 1⟩ (rArr b) (-x) (-y) 0 false true
  have h2 : shift2d ⟨fftw, false, 1⟩ (rArr b) (-x) (-y) 0 false true
      = .real (realArr fun p => (cshift (-y) (-x) b p).re) := by
    rw [shift2d_eq, denan_rArr]
    simp only [shiftKernel_zero]
    simp [shiftReturn, cshift]
  unfold lsqShift
  have e : (fun i => toC (realArr b) (pairIdx i)) = fun i => rArr b (pairIdx (ny := ny) (nx := nx) i) := rfl
  rw [e, h, h2]
  rfl

theorem sqrt_div_sq (n : ℝ) (h : 0 ≤ n) (v : ℝ) : (|v| / Real.sqrt n) ^ 2 = v ^ 2 / n := by
  rw [div_pow, sq_abs, Real.sq_sqrt h]

variable (fftw nd : Bool) (mapImg : (Fin ny × Fin nx → ℝ) → ℝ → ℝ → Fin ny × Fin nx → Pix)
  (mapErr fftInf : (Fin ny × Fin nx → Fl) → ℝ → ℝ → Fin ny × Fin nx → Fl)

/-- C27 for `chi2_shift_leastsq`: images of different shape are refused with ValueError before anything else. -/
theorem C27_chi2_shift_leastsq {my mx : ℕ} (m : Option (Minimizer ny nx)) (im1 : Fin ny × Fin nx → Pix)
    (im2 : Fin my × Fin mx → Pix) (h : ¬ (ny = my ∧ nx = mx)) (err : LsqErr ny nx) (mo : Option ℝ) (re : Bool) (gx gy : ℝ)
    (uf io : Bool) :
    chi2ShiftLeastsq fftw nd mapImg mapErr fftInf m im1 im2 err mo re gx gy uf io = .error .valueError := by
  unfold chi2ShiftLeastsq
  rw [dif_neg h]

/-- C89: without lmfit, and without `use_fft` also without scipy.ndimage, images of the same shape give ImportError. -/
theorem C89_imports (m : Option (Minimizer ny nx)) (im1 im2 : Fin ny × Fin nx → Pix) (err : LsqErr ny nx) (mo : Option ℝ)
    (re : Bool) (gx gy : ℝ) (uf io : Bool) (h : m = none ∨ (uf = false ∧ nd = false)) :
    chi2ShiftLeastsq fftw nd mapImg mapErr fftInf m im1 im2 err mo re gx gy uf io = .error .importError := by
  unfold chi2ShiftLeastsq
  rw [dif_pos ⟨rfl, rfl⟩]
  rcases h with rfl | h
  · rfl
  · cases m with
    | none => rfl
    | some m => simp only; rw [if_pos h]

/-- C89: in its default configuration (`ignore_outside=True`), and whenever `maxoff` is given, `chi2_shift_leastsq` cannot
complete: every evaluation of the residuals raises TypeError. -/
theorem C89_default_fails (m : Minimizer ny nx) (hm : Spec.Evaluates m) (im1 im2 : Fin ny × Fin nx → Pix)
    (err : LsqErr ny nx) (mo : Option ℝ) (re : Bool) (gx gy : ℝ) (uf io : Bool) (himp : uf = true ∨ nd = true)
    (h : io = true ∨ mo ≠ none) :
    chi2ShiftLeastsq fftw nd mapImg mapErr fftInf (some m) im1 im2 err mo re gx gy uf io = .error .typeError := by
  unfold chi2ShiftLeastsq
  rw [dif_pos ⟨rfl, rfl⟩]
  simp only
  rw [if_neg (by rintro ⟨rfl, rfl⟩; simp at himp)]
  rw [hm _ _ PyErr.typeError]
  · rfl
  · intro x y
    unfold lsqResiduals
    rcases h with rfl | h
    · simp
    · cases mo with
      | none => exact absurd rfl h
      | some v => simp

/-- C89: with `use_fft=True, ignore_outside=False` and a scalar error (or none), lmfit is given, at every trial position
`(x, y)`, the moduli of `im1 - shift(im2, (-y, -x))` divided by the error and by the square root of the number of pixels -
for the images with NaN replaced by 0 and their means subtracted; the fitted values are returned, with `return_error`
followed by their standard errors. -/
theorem C89_residuals (m : Minimizer ny nx) (im1 im2 : Fin ny × Fin nx → Pix) (err : LsqErr ny nx) (e : ℝ)
    (he : Spec.lsqScalar err e) (gx gy : ℝ) :
    ∃ f : ℝ → ℝ → Fin ny × Fin nx → ℝ,
      (∀ x y, ∃ s : Fin ny × Fin nx → ℝ,
        (∀ cfg, shift2d cfg (rArr (Spec.lsqImage im2)) (-x) (-y) 0 false true = .real (realArr s)) ∧
        ∀ p, f x y p = |Spec.lsqImage im1 p - s p| / Real.sqrt ((ny : ℝ) * nx) / e) ∧
      ∀ re, chi2ShiftLeastsq fftw nd mapImg mapErr fftInf (some m) im1 im2 err none re gx gy true false
        = (m (fun x y => .ok (realArr (f x y))) ⟨gx, gy, none⟩).map fun fit =>
            [some fit.xsh, some fit.ysh] ++ if re then [fit.ex, fit.ey] else [] := by
  refine ⟨fun x y p => |Spec.lsqImage im1 p - (cshift (-y) (-x) (Spec.lsqImage im2) p).re| / Real.sqrt ((ny : ℝ) * nx) / e,
    fun x y => ⟨_, fun cfg => ?_, fun p => rfl⟩, fun re => ?_⟩
  · rw [shift2d_eq, denan_rArr]
    simp only [shiftKernel_zero]
    simp [shiftReturn, cshift]
  · unfold chi2ShiftLeastsq
    rw [dif_pos ⟨rfl, rfl⟩]
    simp only
    rw [if_neg (by simp)]
    have hres : lsqResiduals fftw true mapImg mapErr fftInf none false (lsqErrAfter im2 err) (lsqPrep im1) (lsqPrep im2)
        = fun x y => .ok (realArr fun p => |Spec.lsqImage im1 p - (cshift (-y) (-x) (Spec.lsqImage im2) p).re|
            / Real.sqrt ((ny : ℝ) * nx) / e) := by
      funext x y
      unfold lsqResiduals
      rw [lsqPrep_eq, lsqPrep_eq, lsqShift_eq]
      cases err with
      | none =>
        obtain rfl : e = 1 := he
        simp [lsqErrAfter, realArr]
        rfl
      | scalar s =>
        obtain ⟨rfl, h0⟩ := he
        simp [lsqErrAfter, realArr, divErr, h0]
        rfl
      | image _ => exact absurd he id
    have : (fun i : Fin ny × Fin nx => im2 (Fin.cast (rfl : ny = ny) i.1, Fin.cast (rfl : nx = nx) i.2)) = im2 := rfl
    rw [this, hres]
    cases m (fun x y => .ok (realArr fun p => |Spec.lsqImage im1 p - (cshift (-y) (-x) (Spec.lsqImage im2) p).re|
            / Real.sqrt ((ny : ℝ) * nx) / e)) ⟨gx, gy, none⟩ <;> rfl

/-- the result of the fit has the least sum of squares of all positions -/
def Spec.FindsMinimum (m : Minimizer ny nx) : Prop :=
  ∀ (f : ℝ → ℝ → Fin ny × Fin nx → ℝ) par fit, m (fun x y => .ok (realArr (f x y))) par = .ok fit →
    ∀ u v, ∑ p, f fit.xsh fit.ysh p ^ 2 ≤ ∑ p, f u v p ^ 2

/-- C89: if `im2` is `im1` rolled by `(dy, dx)` pixels (both finite, the lowest frequencies of `im1` present) and lmfit's
answer has the least sum of squares, then the answer is `(dx, dy)` up to whole turns of the image. -/
theorem C89_recovers_roll (m : Minimizer ny nx) (hm : Spec.FindsMinimum m) (a : Fin ny × Fin nx → ℝ)
    (hy : 2 ≤ ny) (hx : 2 ≤ nx) (h10 : dft (fun p => (a p : ℂ)) (1, 0) ≠ 0) (h01 : dft (fun p => (a p : ℂ)) (0, 1) ≠ 0)
    (dy dx : ℤ) (err : LsqErr ny nx) (e : ℝ) (he : Spec.lsqScalar err e) (gx gy : ℝ) (r : LsqRet)
    (hr : chi2ShiftLeastsq fftw nd mapImg mapErr fftInf (some m) (realArr a) (realArr (Spec.roll2 dy dx a)) err none false gx gy
      true false = .ok r) :
    ∃ x y : ℝ, r = [some x, some y] ∧ (∃ z : ℤ, x = dx + z * nx) ∧ ∃ z : ℤ, y = dy + z * ny := by
  obtain ⟨f, hf, hret⟩ := C89_residuals fftw nd mapImg mapErr fftInf m (realArr a) (realArr (Spec.roll2 dy dx a)) err e he gx gy
  rw [hret false] at hr
  cases hfit : m (fun x y => .ok (realArr (f x y))) ⟨gx, gy, none⟩ with
  | error er => rw [hfit] at hr; simp [Except.map] at hr
  | ok fit =>
    rw [hfit] at hr
    simp only [Except.map, Except.ok.injEq] at hr
    have he0 : e ≠ 0 := by
      cases err with
      | none => obtain rfl : e = 1 := he; exact one_ne_zero
      | scalar s => exact he.2
      | image _ => exact absurd he id
    set A := Spec.lsqImage (realArr a) with hA
    have hAe : A = fun p => a p - Spec.mean a := by
      funext p
      simp [hA, Spec.lsqImage, Spec.nan0, realArr, Spec.mean]
    have hB : Spec.lsqImage (realArr (Spec.roll2 dy dx a)) = Spec.roll2 dy dx A := by
      funext p
      have : ∑ q, Spec.nan0 (realArr (Spec.roll2 dy dx a)) q = ∑ q, a q := by
        rw [← Spec.roll2_sum dy dx a]; rfl
      unfold Spec.lsqImage
      rw [this, hAe]
      simp [Spec.roll2, Spec.nan0, realArr, Spec.mean]
    have hN : (0 : ℝ) < (ny : ℝ) * nx := by
      have := NeZero.pos ny; have := NeZero.pos nx; positivity
    have hfv : ∀ x y p, f x y p = |A p - (cshift (-y) (-x) (Spec.roll2 dy dx A) p).re| / Real.sqrt ((ny : ℝ) * nx) / e := by
      intro x y p
      obtain ⟨s, hs, hfs⟩ := hf x y
      rw [hfs]
      have h1 := hs ⟨false, false, 1⟩
      rw [hB, shift2d_eq, denan_rArr] at h1
      simp only [shiftKernel_zero, shiftReturn] at h1
      have h2 : ∀ p, s p = (cshift (-y) (-x) (Spec.roll2 dy dx A) p).re := by
        intro p
        have := congrFun (NdOut.real.inj h1) p
        simpa [cshift, realArr, cArr, Np.real] using this.symm
      rw [h2 p]
    have hbc : ∀ p, ((Spec.roll2 dy dx A p : ℝ) : ℂ) = cshift dy dx A p := Spec.roll2_eq_cshift A dy dx
    have hmin := hm f _ fit hfit dx dy
    have hz : ∑ p, f dx dy p ^ 2 = 0 := by
      apply Finset.sum_eq_zero
      intro p _
      rw [hfv, cshift_cshift _ _ _ _ _ _ hbc]
      have : cshift (-(dy : ℝ) + dy) (-(dx : ℝ) + dx) A p = A p := by
        have := cshift_period A 0 0 p
        simpa using this
      rw [this]
      simp
    rw [hz] at hmin
    have hzero : ∀ p, f fit.xsh fit.ysh p = 0 := by
      intro p
      have h0 : ∑ p, f fit.xsh fit.ysh p ^ 2 = 0 := le_antisymm hmin (Finset.sum_nonneg fun _ _ => sq_nonneg _)
      have := (Finset.sum_eq_zero_iff_of_nonneg fun _ _ => sq_nonneg _).1 h0 p (mem_univ p)
      exact pow_eq_zero_iff (two_ne_zero) |>.1 this
    have hre : ∀ p, A p = (cshift (-fit.ysh + dy) (-fit.xsh + dx) A p).re := by
      intro p
      have h1 := hzero p
      rw [hfv, cshift_cshift _ _ _ _ _ _ hbc] at h1
      have hs : Real.sqrt ((ny : ℝ) * nx) ≠ 0 := (Real.sqrt_pos.2 hN).ne'
      rcases div_eq_zero_iff.1 h1 with h2 | h2
      · rcases div_eq_zero_iff.1 h2 with h3 | h3
        · exact sub_eq_zero.1 (abs_eq_zero.1 h3)
        · exact absurd h3 hs
      · exact absurd h2 he0
    -- the energies agree, so the imaginary part vanishes
    have hc : ∀ p, (A p : ℂ) = cshift (-fit.ysh + dy) (-fit.xsh + dx) A p := by
      have hen := cshift_energy (-fit.ysh + dy) (-fit.xsh + dx) A
      have h2 : ∑ p, (cshift (-fit.ysh + dy) (-fit.xsh + dx) A p).im ^ 2 = 0 := by
        have h3 : ∑ p, ‖cshift (-fit.ysh + dy) (-fit.xsh + dx) A p‖ ^ 2
            = ∑ p, A p ^ 2 + ∑ p, (cshift (-fit.ysh + dy) (-fit.xsh + dx) A p).im ^ 2 := by
          rw [← Finset.sum_add_distrib]
          refine Finset.sum_congr rfl fun p _ => ?_
          rw [Complex.sq_norm, Complex.normSq_apply, ← hre p]
          ring
        linarith
      intro p
      have := (Finset.sum_eq_zero_iff_of_nonneg fun _ _ => sq_nonneg _).1 h2 p (mem_univ p)
      have him := (pow_eq_zero_iff (two_ne_zero)).1 this
      apply Complex.ext
      · simpa using hre p
      · simpa using him.symm
    have k10 : ((1, 0) : Fin ny × Fin nx) ≠ 0 := by
      intro h
      have h1 := congrArg (fun p : Fin ny × Fin nx => (p.1 : ℕ)) h
      obtain ⟨m, rfl⟩ : ∃ m, ny = m + 2 := ⟨ny - 2, by omega⟩
      simp at h1
    have k01 : ((0, 1) : Fin ny × Fin nx) ≠ 0 := by
      intro h
      have h1 := congrArg (fun p : Fin ny × Fin nx => (p.2 : ℕ)) h
      obtain ⟨m, rfl⟩ : ∃ m, nx = m + 2 := ⟨nx - 2, by omega⟩
      simp at h1
    obtain ⟨⟨z, hz1⟩, w, hw1⟩ := period_of_cshift_self A hy hx
      (by rw [hAe, dft_sub_const _ _ _ k10]; exact h10) (by rw [hAe, dft_sub_const _ _ _ k01]; exact h01) _ _ hc
    refine ⟨fit.xsh, fit.ysh, hr.symm, ⟨-w, ?_⟩, ⟨-z, ?_⟩⟩ <;> push_cast <;> linarith

/-- an ideal minimiser: it calls the residual function, and answers only with a global minimum -/
noncomputable def Spec.idealMinimizer : Minimizer ny nx := fun res _ =>
  open Classical in
  match res 0 0 with
  | .error e => .error e
  | .ok _ =>
    if h : ∃ q : ℝ × ℝ, ∃ r, res q.1 q.2 = .ok r ∧ ∀ u v r', res u v = .ok r' →
        ∑ p, (r p).getD 0 ^ 2 ≤ ∑ p, (r' p).getD 0 ^ 2
    then .ok ⟨h.choose.1, h.choose.2, none, none⟩
    else .error .exception

omit [NeZero ny] [NeZero nx] in
/-- the conditions on lmfit can be met -/
theorem idealMinimizer_ok : Spec.Evaluates (Spec.idealMinimizer (ny := ny) (nx := nx)) ∧
    Spec.FindsMinimum (Spec.idealMinimizer (ny := ny) (nx := nx)) := by
  constructor
  · intro res par e h
    unfold Spec.idealMinimizer
    rw [h 0 0]
  · intro f par fit h u v
    unfold Spec.idealMinimizer at h
    simp only at h
    split_ifs at h with hx
    obtain ⟨r, hr, hall⟩ := hx.choose_spec
    have hfit := (Except.ok.inj h).symm
    rw [hfit]
    have h1 : r = realArr (f hx.choose.1 hx.choose.2) := (Except.ok.inj hr).symm
    have := hall u v _ rfl
    rw [h1] at this
    simpa [realArr] using this

/-- a case of `C89_recovers_roll`: a single bright pixel in 4 × 5, moved by one row and back by two columns -/
example (err : LsqErr 4 5) (e : ℝ) (he : Spec.lsqScalar err e)
    (mapImg : (Fin 4 × Fin 5 → ℝ) → ℝ → ℝ → Fin 4 × Fin 5 → Pix)
    (mapErr fftInf : (Fin 4 × Fin 5 → Fl) → ℝ → ℝ → Fin 4 × Fin 5 → Fl) :
    ∃ x y : ℝ, chi2ShiftLeastsq fftw nd mapImg mapErr fftInf (some Spec.idealMinimizer)
      (realArr fun p : Fin 4 × Fin 5 => if p = 0 then (1 : ℝ) else 0)
      (realArr (Spec.roll2 1 (-2) fun p : Fin 4 × Fin 5 => if p = 0 then (1 : ℝ) else 0)) err none false 0 0 true false
        = .ok [some x, some y] ∧ (∃ z : ℤ, x = -2 + z * 5) ∧ ∃ z : ℤ, y = 1 + z * 4 := by
  have hd : ∀ k : Fin 4 × Fin 5,
      dft (fun p : Fin 4 × Fin 5 => ((if p = 0 then (1 : ℝ) else 0 : ℝ) : ℂ)) k ≠ 0 := by
    intro k
    have h1 : dft (fun p : Fin 4 × Fin 5 => ((if p = 0 then (1 : ℝ) else 0 : ℝ) : ℂ)) k = 1 := by
      unfold dft
      rw [Finset.sum_eq_single 0]
      · simp [FFTIndex.e_zero]
      · intro p _ hp; simp [hp]
      · simp
    rw [h1]; exact one_ne_zero
  set a : Fin 4 × Fin 5 → ℝ := fun p => if p = 0 then (1 : ℝ) else 0 with ha
  obtain ⟨f, hf, hret⟩ := C89_residuals fftw nd mapImg mapErr fftInf Spec.idealMinimizer (realArr a)
    (realArr (Spec.roll2 1 (-2) a)) err e he 0 0
  have hok : ∃ r, chi2ShiftLeastsq fftw nd mapImg mapErr fftInf (some Spec.idealMinimizer) (realArr a)
      (realArr (Spec.roll2 1 (-2) a)) err none false 0 0 true false = .ok r := by
    rw [hret false]
    unfold Spec.idealMinimizer
    simp only
    rw [dif_pos]
    · exact ⟨_, rfl⟩
    · refine ⟨(-2, 1), _, rfl, ?_⟩
      intro u v r' _
      refine le_trans (le_of_eq ?_) (Finset.sum_nonneg fun _ _ => sq_nonneg _)
      apply Finset.sum_eq_zero
      intro p _
      obtain ⟨s, hs, hfs⟩ := hf (-2) 1
      have hB : Spec.lsqImage (realArr (Spec.roll2 1 (-2) a)) = Spec.roll2 1 (-2) (Spec.lsqImage (realArr a)) := by
        funext p
        have : ∑ q, Spec.nan0 (realArr (Spec.roll2 1 (-2) a)) q = ∑ q, Spec.nan0 (realArr a) q :=
          Spec.roll2_sum 1 (-2) a
        unfold Spec.lsqImage
        rw [this]
        rfl
      have h1 := hs ⟨false, false, 1⟩
      rw [hB, shift2d_eq, denan_rArr] at h1
      simp only [shiftKernel_zero, shiftReturn] at h1
      have h2 : s p = (cshift (-1) (-(-2)) (Spec.roll2 1 (-2) (Spec.lsqImage (realArr a))) p).re := by
        have := congrFun (NdOut.real.inj h1) p
        simpa [cshift, realArr, cArr, Np.real] using this.symm
      have hbc := Spec.roll2_eq_cshift (Spec.lsqImage (realArr a)) 1 (-2)
      rw [cshift_cshift _ _ _ _ _ _ hbc] at h2
      have h3 : cshift (-1 + ((1 : ℤ) : ℝ)) (-(-2) + ((-2 : ℤ) : ℝ)) (Spec.lsqImage (realArr a)) p
          = Spec.lsqImage (realArr a) p := by
        have := cshift_period (Spec.lsqImage (realArr a)) 0 0 p
        simpa using this
      rw [h3] at h2
      simp [realArr, hfs, h2]
  obtain ⟨r, hr⟩ := hok
  obtain ⟨x, y, rfl, hx, hy⟩ := C89_recovers_roll fftw nd mapImg mapErr fftInf Spec.idealMinimizer idealMinimizer_ok.2 a
    (by norm_num) (by norm_num) (hd _) (hd _) 1 (-2) err e he 0 0 r hr
  refine ⟨x, y, hr, ?_, ?_⟩
  · simpa using hx
  · simpa using hy

/-- a case of `C89_default_fails`: the default call `chi2_shift_leastsq(im1, im2)` -/
example (im : Fin ny × Fin nx → Pix) : chi2ShiftLeastsq fftw true mapImg mapErr fftInf (some Spec.idealMinimizer) im im .none
    none true 0 0 false true = .error .typeError :=
  C89_default_fails fftw true mapImg mapErr fftInf _ idealMinimizer_ok.1 im im .none none true 0 0 false true (Or.inr rfl)
    (Or.inl rfl)

/-- C89 for error arrays: with `use_fft=True, ignore_outside=False` and an error array, without NaN in `im2` and without
zeros in the shifted error image, every residual is divided by the error image shifted in the same way. -/
theorem C89_residuals_image (m : Minimizer ny nx) (im1 im2 : Fin ny × Fin nx → Pix) (hn : ∀ i, im2 i ≠ none)
    (e : Fin ny × Fin nx → ℝ) (gx gy : ℝ)
    (h0 : ∀ x y s, shift2d ⟨fftw, false, 1⟩ (rArr e) (-x) (-y) 0 false true = .real (realArr s) → ∀ p, s p ≠ 0) :
    ∃ f : ℝ → ℝ → Fin ny × Fin nx → ℝ,
      (∀ x y, ∃ s t : Fin ny × Fin nx → ℝ,
        (∀ cfg, shift2d cfg (rArr (Spec.lsqImage im2)) (-x) (-y) 0 false true = .real (realArr s)) ∧
        (∀ cfg, shift2d cfg (rArr e) (-x) (-y) 0 false true = .real (realArr t)) ∧
        ∀ p, f x y p = |Spec.lsqImage im1 p - s p| / Real.sqrt ((ny : ℝ) * nx) / t p) ∧
      ∀ re, chi2ShiftLeastsq fftw nd mapImg mapErr fftInf (some m) im1 im2 (.image fun i => .fin (e i)) none re gx gy true false
        = (m (fun x y => .ok (realArr (f x y))) ⟨gx, gy, none⟩).map fun fit =>
            [some fit.xsh, some fit.ysh] ++ if re then [fit.ex, fit.ey] else [] := by
  have hsh : ∀ (b : Fin ny × Fin nx → ℝ) x y cfg, shift2d cfg (rArr b) (-x) (-y) 0 false true
      = .real (realArr fun p => (cshift (-y) (-x) b p).re) := by
    intro b x y cfg
    rw [shift2d_eq, denan_rArr]
    simp only [shiftKernel_zero]
    simp [shiftReturn, cshift]
  refine ⟨fun x y p => |Spec.lsqImage im1 p - (cshift (-y) (-x) (Spec.lsqImage im2) p).re| / Real.sqrt ((ny : ℝ) * nx)
      / (cshift (-y) (-x) e p).re, fun x y => ⟨_, _, hsh _ x y, hsh _ x y, fun p => rfl⟩, fun re => ?_⟩
  unfold chi2ShiftLeastsq
  rw [dif_pos ⟨rfl, rfl⟩]
  simp only
  rw [if_neg (by simp)]
  have herr : lsqErrAfter im2 (.image fun i => .fin (e i)) = .image fun i => .fin (e i) := by
    simp only [lsqErrAfter]
    congr 1
    funext i
    rw [if_neg]
    rw [Option.isNone_iff_eq_none]
    exact hn _
  have hres : lsqResiduals fftw true mapImg mapErr fftInf none false (lsqErrAfter im2 (.image fun i => .fin (e i))) (lsqPrep im1)
        (lsqPrep im2)
      = fun x y => .ok (realArr fun p => |Spec.lsqImage im1 p - (cshift (-y) (-x) (Spec.lsqImage im2) p).re|
          / Real.sqrt ((ny : ℝ) * nx) / (cshift (-y) (-x) e p).re) := by
    funext x y
    have hz := h0 x y _ (hsh e x y _)
    unfold lsqResiduals
    rw [herr, lsqPrep_eq, lsqPrep_eq, lsqShift_eq]
    have hse : lsqShiftErr fftw fftInf (fun i => .fin (e i)) x y = fun p => .fin (cshift (-y) (-x) e p).re := by
      unfold lsqShiftErr
      rw [if_neg (by simp)]
      simp only
      have : lsqShift fftw (fun i => some (e i)) x y = _ := lsqShift_eq fftw e x y
      rw [this]
      rfl
    simp only [Option.isSome_none, Bool.false_eq_true, if_false, if_true]
    rw [hse]
    simp [realArr, divErr, hz]
    rfl
  have : (fun i : Fin ny × Fin nx => im2 (Fin.cast (rfl : ny = ny) i.1, Fin.cast (rfl : nx = nx) i.2)) = im2 := rfl
  rw [this, hres]
  cases m (fun x y => .ok (realArr fun p => |Spec.lsqImage im1 p - (cshift (-y) (-x) (Spec.lsqImage im2) p).re|
          / Real.sqrt ((ny : ℝ) * nx) / (cshift (-y) (-x) e p).re)) ⟨gx, gy, none⟩ <;> rfl

/-- the error that belongs to a pixel at the trial position `(x, y)` without `use_fft`: 1, the given number, or
`map_coordinates` of the error array in which the NaN pixels of `im2` have got infinite errors -/
def Spec.lsqErrAt (mapErr : (Fin ny × Fin nx → Fl) → ℝ → ℝ → Fin ny × Fin nx → Fl) (im2 : Fin ny × Fin nx → Pix) (x y : ℝ)
    (p : Fin ny × Fin nx) : LsqErr ny nx → Fl
  | .none => .fin 1
  | .scalar s => .fin s
  | .image e => mapErr (fun i => if im2 i = none then .inf else e i) x y p

/-- C89 without `use_fft` (`ignore_outside=False`): lmfit is given the moduli of `im1 - map_coordinates(im2, (y, x))`, divided by the
error at the same position and by the square root of the number of pixels, for the images with NaN replaced by 0 and their
means subtracted; where the error is infinite the residual is 0. -/
theorem C89_residuals_map (hnd : nd = true) (m : Minimizer ny nx) (im1 im2 : Fin ny × Fin nx → Pix) (err : LsqErr ny nx) (gx gy : ℝ)
    (g : ℝ → ℝ → Fin ny × Fin nx → ℝ) (hg : ∀ x y, mapImg (Spec.lsqImage im2) x y = realArr (g x y)) :
    ∃ f : ℝ → ℝ → Fin ny × Fin nx → Pix,
      (∀ x y p, (∀ e, Spec.lsqErrAt mapErr im2 x y p err = .fin e → e ≠ 0 →
          f x y p = some (|Spec.lsqImage im1 p - g x y p| / Real.sqrt ((ny : ℝ) * nx) / e)) ∧
        (Spec.lsqErrAt mapErr im2 x y p err = .inf → f x y p = some 0)) ∧
      ∀ re, chi2ShiftLeastsq fftw nd mapImg mapErr fftInf (some m) im1 im2 err none re gx gy false false
        = (m (fun x y => .ok (f x y)) ⟨gx, gy, none⟩).map fun fit =>
            [some fit.xsh, some fit.ysh] ++ if re then [fit.ex, fit.ey] else [] := by
  subst hnd
  have hres : ∃ f : ℝ → ℝ → Fin ny × Fin nx → Pix,
      (∀ x y p, (∀ e, Spec.lsqErrAt mapErr im2 x y p err = .fin e → e ≠ 0 →
          f x y p = some (|Spec.lsqImage im1 p - g x y p| / Real.sqrt ((ny : ℝ) * nx) / e)) ∧
        (Spec.lsqErrAt mapErr im2 x y p err = .inf → f x y p = some 0)) ∧
      lsqResiduals fftw false mapImg mapErr fftInf none false (lsqErrAfter im2 err) (lsqPrep im1) (lsqPrep im2) = fun x y => .ok (f x y) := by
    unfold lsqResiduals
    rw [lsqPrep_eq, lsqPrep_eq]
    simp only [Option.isSome_none, Bool.false_eq_true, if_false, hg]
    cases err with
    | none =>
      refine ⟨_, fun x y p => ⟨fun e he h0 => ?_, fun h => ?_⟩, rfl⟩
      · simp only [Spec.lsqErrAt, Fl.fin.injEq] at he
        subst he
        simp [realArr]
      · simp [Spec.lsqErrAt] at h
    | scalar s =>
      refine ⟨_, fun x y p => ⟨fun e he h0 => ?_, fun h => ?_⟩, rfl⟩
      · simp only [Spec.lsqErrAt, Fl.fin.injEq] at he
        subst he
        simp [realArr, divErr, h0]
      · simp [Spec.lsqErrAt] at h
    | image e0 =>
      have hA : (fun i => if (im2 i).isNone then Fl.inf else e0 i) = fun i => if im2 i = none then Fl.inf else e0 i := by
        funext i
        simp only [Option.isNone_iff_eq_none]
      refine ⟨_, fun x y p => ⟨fun e he h0 => ?_, fun h => ?_⟩, rfl⟩
      · simp only [Spec.lsqErrAt] at he
        simp only [hA, he]
        simp [realArr, divErr, h0]
      · simp only [Spec.lsqErrAt] at h
        simp only [hA, h]
        simp [realArr, divErr]
  obtain ⟨f, hf, hr⟩ := hres
  refine ⟨f, hf, fun re => ?_⟩
  unfold chi2ShiftLeastsq
  rw [dif_pos ⟨rfl, rfl⟩]
  simp only
  rw [if_neg (by simp)]
  have : (fun i : Fin ny × Fin nx => im2 (Fin.cast (rfl : ny = ny) i.1, Fin.cast (rfl : nx = nx) i.2)) = im2 := rfl
  rw [this, hr]
  cases m (fun x y => .ok (f x y)) ⟨gx, gy, none⟩ <;> rfl

omit [NeZero ny] [NeZero nx] in
/-- C90: `chi2_shift_leastsq` writes infinities into the caller's error array at the pixels where `im2` is NaN - for images of
the same shape, even if the call then fails - and leaves the other pixels alone. -/
theorem C90_error_array_modified (im2 : Fin ny × Fin nx → Pix) (e : Fin ny × Fin nx → Fl) :
    ∃ e', chi2ShiftLeastsqErrAfter im2 (.image e) = .image e' ∧
      ∀ i, (im2 i = none → e' i = .inf) ∧ (im2 i ≠ none → e' i = e i) := by
  unfold chi2ShiftLeastsqErrAfter
  rw [dif_pos ⟨rfl, rfl⟩]
  refine ⟨_, rfl, fun i => ⟨fun h => ?_, fun h => ?_⟩⟩
  · exact if_pos (by simpa using congrArg Option.isNone h)
  · refine if_neg ?_
    rw [Option.isNone_iff_eq_none]
    exact h

omit [NeZero ny] [NeZero nx] in
/-- C90: it is not modified when the shapes differ or `im2` has no NaN. -/
theorem C90_error_array_kept {my mx : ℕ} (im2 : Fin my × Fin mx → Pix) (err : LsqErr ny nx)
    (h : ¬ (ny = my ∧ nx = mx) ∨ ∀ i, im2 i ≠ none) : chi2ShiftLeastsqErrAfter im2 err = err := by
  unfold chi2ShiftLeastsqErrAfter
  rcases h with h | h
  · rw [dif_neg h]
  · by_cases hs : ny = my ∧ nx = mx
    · rw [dif_pos hs]
      cases err with
      | none => rfl
      | scalar => rfl
      | image e =>
        simp only [lsqErrAfter]
        congr 1
        funext i
        rw [if_neg]
        rw [Option.isNone_iff_eq_none]
        exact h _
    · rw [dif_neg hs]

end ImgReg
