import Verif.Props.Testing
import Verif.Props.Noise
import Verif.Props.Upsample
import Verif.Props.RegisterNoise
import Mathlib.Tactic.FinCases

/-!
# Properties C106, C107: `make_offset_extended` and the helper `chi2`
-/

open Complex Finset
open scoped ComplexConjugate

namespace ImgReg

variable {ny nx : ℕ} [NeZero ny] [NeZero nx]

theorem lsqShift_nan0 (fftw : Bool) (im : Fin ny × Fin nx → Pix) (x y : ℝ) :
    lsqShift fftw im x y = lsqShift fftw (realArr (Spec.nan0 im)) x y := by
  unfold lsqShift
  have h : shiftnd (s := ![ny, nx]) ⟨fftw, false, 1⟩ (fun i => toC im (pairIdx i)) [-y, -x] 0 false true
      = shiftnd (s := ![ny, nx]) ⟨fftw, false, 1⟩ (fun i => toC (realArr (Spec.nan0 im)) (pairIdx i)) [-y, -x] 0 false true := by
    rw [shiftnd_eq, shiftnd_eq]
    congr 2
    congr 1
    funext i
    have key : ∀ v : Pix, ((v.map fun r => (r : ℂ)).getD 0 : ℂ) = ((v.getD 0 : ℝ) : ℂ) := by intro v; cases v <;> simp
    exact key _
  rw [h]

theorem lsqShift_nan (fftw : Bool) (im : Fin ny × Fin nx → Pix) (x y : ℝ) :
    lsqShift fftw im x y = realArr fun p => (cshift (-y) (-x) (Spec.nan0 im) p).re := by
  rw [lsqShift_nan0, lsqShift_eq]

theorem shift2d_nan (cfg : FFTConfig) (im : Fin ny × Fin nx → Pix) (dx dy : ℝ) (ra : Bool) :
    shift2d cfg (toC im) dx dy 0 ra true = .real (realArr fun p => (cshift dy dx (Spec.nan0 im) p).re) := by
  rw [shift2d_eq]
  have : denan (toC im) = fun i => (Spec.nan0 im i : ℂ) := by
    funext i; unfold denan toC Spec.nan0; cases im i <;> simp
  rw [this]
  simp only [shiftKernel_zero]
  cases ra <;> simp [shiftReturn, cshift]

theorem cshift_real_odd (h1 : Odd ny) (h2 : Odd nx) (t u : ℝ) (a : Fin ny × Fin nx → ℝ) (p : Fin ny × Fin nx) :
    ((cshift t u a p).re : ℂ) = cshift t u a p := by
  unfold cshift
  refine filt_real _ _ (fun k => ?_) p
  rw [freq2_neg _ _ _ h1 h2, conj_ex]

theorem nan0_realArr {ι : Type} (a : ι → ℝ) : Spec.nan0 (realArr a) = a := rfl

/-! ### C106 -/

/-- C106: `make_offset_extended(img, xsh, ysh, noise)` is `shift2d(img, xsh, ysh)` (the first of the two offsets is the one in x) plus `noise`
times the draws; NaN pixels of `img` count as 0 and there are none in the result. -/
theorem C106_image (cfg : FFTConfig) (fftw sc : Bool) (randn : Fin ny × Fin nx → ℝ) (img : Fin ny × Fin nx → Pix) (xsh ysh noise : ℝ) :
    ∃ s : Fin ny × Fin nx → ℝ, shift2d cfg (toC img) xsh ysh 0 false true = .real (realArr s) ∧
      shift2d cfg (rArr (Spec.nan0 img)) xsh ysh 0 false true = .real (realArr s) ∧
      makeOffsetExtended fftw sc randn img xsh ysh noise false = .ok (realArr fun p => s p + noise * randn p) := by
  refine ⟨_, shift2d_nan cfg img xsh ysh false, shift2d_nan cfg (realArr (Spec.nan0 img)) xsh ysh false, ?_⟩
  unfold makeOffsetExtended
  simp only [Bool.false_eq_true, if_false, bind, Except.bind, pure, Except.pure]
  rw [lsqShift_nan]
  congr 1
  funext p
  simp only [realArr, Option.map_some, neg_neg]
  rw [mul_comm]

theorem makeOffsetExtended_eq (fftw sc : Bool) (randn : Fin ny × Fin nx → ℝ) (img : Fin ny × Fin nx → ℝ) (xsh ysh noise : ℝ) :
    makeOffsetExtended fftw sc randn (realArr img) xsh ysh noise false
      = .ok (realArr fun p => (cshift ysh xsh img p).re + noise * randn p) := by
  obtain ⟨s, h1, -, h2⟩ := C106_image ⟨fftw, false, 1⟩ fftw sc randn (realArr img) xsh ysh noise
  rw [shift2d_nan] at h1
  have h3 := NdOut.real.inj h1
  rw [h2]
  congr 1
  funext p
  have := Option.some.inj (congrFun h3 p)
  simp only [realArr, ← this, nan0_realArr]

/-- C106: whole-pixel offsets: the image rolled by `ysh` rows and `xsh` columns, plus the noise. -/
theorem C106_whole_pixels (fftw sc : Bool) (randn img : Fin ny × Fin nx → ℝ) (dx dy : ℤ) (noise : ℝ) :
    makeOffsetExtended fftw sc randn (realArr img) dx dy noise false = .ok (realArr fun p => Spec.roll2 dy dx img p + noise * randn p) := by
  rw [makeOffsetExtended_eq]
  simp only [cshift_int, Complex.ofReal_re]

/-- C106: odd sizes: the offset image shifted back by the true offset is the image plus noise of the same total power: the residual
that is left after a perfect registration is exactly the noise. -/
theorem C106_undone (cfg : FFTConfig) (fftw sc : Bool) (oy : Odd ny) (ox : Odd nx) (randn img : Fin ny × Fin nx → ℝ) (xsh ysh noise : ℝ) (ra : Bool) :
    ∃ off back : Fin ny × Fin nx → ℝ, makeOffsetExtended fftw sc randn (realArr img) xsh ysh noise false = .ok (realArr off) ∧
      shift2d cfg (rArr off) (-xsh) (-ysh) 0 ra true = .real (realArr back) ∧
      ∑ p, (back p - img p) ^ 2 = ∑ p, (noise * randn p) ^ 2 := by
  refine ⟨_, _, makeOffsetExtended_eq fftw sc randn img xsh ysh noise, shift2d_nan cfg (realArr _) _ _ ra, ?_⟩
  have hb : ∀ p, (((cshift ysh xsh img p).re : ℝ) : ℂ) = cshift ysh xsh img p := fun p => cshift_real_odd oy ox _ _ _ p
  have e : ∀ p, (cshift (-ysh) (-xsh) (fun p => (cshift ysh xsh img p).re + noise * randn p) p).re - img p
      = (cshift (-ysh) (-xsh) (fun p => noise * randn p) p).re := by
    intro p
    rw [cshift_add, cshift_cshift (-ysh) (-xsh) ysh xsh _ img hb]
    have := cshift_period img 0 0 p
    simp only [Int.cast_zero, zero_mul] at this
    rw [neg_add_cancel, neg_add_cancel, this]
    simp
  simp only [nan0_realArr, e]
  rw [← cshift_energy (-ysh) (-xsh) (fun p => noise * randn p)]
  refine Finset.sum_congr rfl fun p _ => ?_
  rw [← cshift_real_odd oy ox, Complex.norm_real, Real.norm_eq_abs, sq_abs]
  simp

/-- C106: with `noise_taper=True` the function cannot complete: TypeError below 30 rows, AttributeError from 30 on (`smooth`, C57). -/
theorem C106_taper (fftw sc : Bool) (randn : Fin ny × Fin nx → ℝ) (img : Fin ny × Fin nx → Pix) (xsh ysh noise : ℝ) :
    makeOffsetExtended fftw sc randn img xsh ysh noise true = .error (if ny < 30 then .typeError else .attributeError) := by
  have hn : 0 < ny := Nat.pos_of_ne_zero (NeZero.ne ny)
  have h := C57_smooth sc ⟨ny, ny, fun _ _ => some 1⟩ hn hn (.int 5) .gaussian none true .max 6 (.fn NArr.sum)
  have hv : ((KWidth.int 5).val : ℝ) * 6 = 30 := by simp [KWidth.val]; norm_num
  have key : edgeWeight sc ny (.int 5) 2 = .error (if ny < 30 then .typeError else .attributeError) := by
    unfold edgeWeight
    by_cases hlt : ny < 30
    · rw [if_pos hlt]
      refine h.1 (.inr (.inl ?_))
      rw [hv]; exact_mod_cast hlt
    · rw [if_neg hlt]
      have hge : ¬ ((NWidths.max ≠ .max) ∨ ((ny : ℝ) < (KWidth.int 5).val * 6) ∨ ((ny : ℝ) < (KWidth.int 5).val * 6)) := by
        rw [hv]
        have : (30 : ℝ) ≤ ny := by exact_mod_cast not_lt.1 hlt
        rintro (h | h | h)
        · exact h rfl
        · linarith
        · linarith
      obtain ⟨k, hk, -⟩ := C58_gaussian sc ![ny + ny % 2, ny + ny % 2] (by intro d; fin_cases d <;> simp <;> omega) (.int 5)
        (by simp [KWidth.val]) none (.fn NArr.sum) (by first | exact rfl | exact trivial | (unfold Spec.DefaultNorm; simp)) false
      exact (h.2 hge).2 k hk
  unfold makeOffsetExtended
  simp only [if_true, key, bind, Except.bind]

/-- C106, the example of the README, whole pixels: `chi2_shift` of an image and its noiseless offset copy returns the offset `(xsh, ysh)` that
was put in (modulo the image size, `-n ≤ 2·d < n`), under the conditions of C33. -/
theorem C106_recovered (cfg : FFTConfig) (st : Stats) (hst : Spec.validStats st) (fftw sc : Bool) (randn img : Fin ny × Fin nx → ℝ)
    (hy : 2 ≤ ny) (hx : 2 ≤ nx) (h10 : dft (fun p => (img p : ℂ)) (1, 0) ≠ 0) (h01 : dft (fun p => (img p : ℂ)) (0, 1) ≠ 0)
    (dx dy : ℤ) (err : ErrArg ny nx) (s : ℝ) (hs : s ≠ 0) (herr : Spec.isScalarErr err s) (u : ℕ) (hu : 0 < u) (zm : Bool) (nf : ℝ) (mas : ℕ)
    (mns : ℝ) (ah : Bool) (hf : Spec.fits ah ny nx) (hgy : Spec.wholeOnGrid ny (if ny ≤ u then 2 * u else ny) u)
    (hgx : Spec.wholeOnGrid nx (if ny ≤ u then 2 * u else nx) u) :
    ∃ (off : Fin ny × Fin nx → Pix) (dx' dy' : ℤ), makeOffsetExtended fftw sc randn (realArr img) dx dy 0 false = .ok off ∧
      chi2Shift cfg st (realArr img) off err (.int u) zm nf false false false mas mns ah = .ok [.num dx', .num dy'] ∧
      dx' ≡ dx [ZMOD nx] ∧ -(nx : ℤ) ≤ 2 * dx' ∧ 2 * dx' < nx ∧ dy' ≡ dy [ZMOD ny] ∧ -(ny : ℤ) ≤ 2 * dy' ∧ 2 * dy' < ny := by
  obtain ⟨dx', dy', h, h'⟩ := C33_recovers_roll cfg st hst img hy hx h10 h01 dy dx err s hs herr u hu zm nf mas mns ah hf hgy hgx
  refine ⟨_, dx', dy', C106_whole_pixels fftw sc randn img dx dy 0, ?_, h'⟩
  simpa using h

/-- C106, with noise: the whole-pixel offset is recovered exactly as long as the noise that was drawn stays below the level of C96. -/
theorem C106_recovered_noise (cfg : FFTConfig) (st : Stats) (hst : Spec.validStats st) (fftw sc : Bool) (randn img : Fin ny × Fin nx → ℝ)
    (hy : 2 ≤ ny) (dx dy : ℤ) (noise : ℝ) (hn : noise ≠ 0)
    (hnoise : ∀ ey ex : ℤ, ¬ (ey ≡ dy [ZMOD ny] ∧ ex ≡ dx [ZMOD nx]) →
      4 * noise ^ 2 * ∑ p, randn p ^ 2 < ∑ p, (Spec.roll2 ey ex img p - Spec.roll2 dy dx img p) ^ 2)
    (nf : ℝ) (mas : ℕ) (mns : ℝ) (ah : Bool) (hf : Spec.fits ah ny nx) :
    ∃ (off : Fin ny × Fin nx → Pix) (dx' dy' : ℤ), makeOffsetExtended fftw sc randn (realArr img) dx dy noise false = .ok off ∧
      chi2Shift cfg st (realArr img) off (.scalar noise) (.int 1) false nf false false false mas mns ah = .ok [.num dx', .num dy'] ∧
      dx' ≡ dx [ZMOD nx] ∧ -(nx : ℤ) ≤ 2 * dx' ∧ 2 * dx' < nx ∧ dy' ≡ dy [ZMOD ny] ∧ -(ny : ℤ) ≤ 2 * dy' ∧ 2 * dy' < ny := by
  have hp : 0 < noise ^ 2 := by positivity
  obtain ⟨dx', dy', h, h'⟩ := C96_roll_with_noise cfg st hst img (fun p => noise * randn p) hy dy dx (.scalar noise) (fun _ => noise) (fun _ => hn)
    (.inl ⟨noise, rfl, fun _ => rfl⟩) (by
      intro ey ex hne
      have := hnoise ey ex hne
      have e1 : 4 * ∑ p, (noise * randn p) ^ 2 / noise ^ 2 = (4 * noise ^ 2 * ∑ p, randn p ^ 2) / noise ^ 2 := by
        rw [Finset.mul_sum, Finset.mul_sum, Finset.sum_div]
        refine Finset.sum_congr rfl fun p _ => ?_
        ring
      rw [e1, ← Finset.sum_div]
      exact div_lt_div_of_pos_right this hp) nf mas mns ah hf
  exact ⟨_, dx', dy', C106_whole_pixels fftw sc randn img dx dy noise, h, h'⟩

/-- C106, sub-pixel offsets, odd sizes: if the true offset is one of the points of the search grid, `chi2_shift` returns exactly
`(xsh, ysh)` for the noiseless copy. -/
theorem C106_recovered_subpixel (cfg : FFTConfig) (st : Stats) (hst : Spec.validStats st) (fftw sc : Bool) (randn img : Fin ny × Fin nx → ℝ)
    (oy : Odd ny) (ox : Odd nx) (hy : 2 ≤ ny) (hx : 2 ≤ nx) (h10 : dft (fun p => (img p : ℂ)) (1, 0) ≠ 0) (h01 : dft (fun p => (img p : ℂ)) (0, 1) ≠ 0)
    (xsh ysh : ℝ) (err : ErrArg ny nx) (s : ℝ) (hs : s ≠ 0) (herr : Spec.isScalarErr err s) (u : ℕ) (hu : 0 < u) (zm : Bool) (nf : ℝ) (mas : ℕ)
    (mns : ℝ) (ah : Bool) (hf : Spec.fits ah ny nx) :
    ∃ (off : Fin ny × Fin nx → Pix) (rx ry : ℝ) (s1 s2 : ℕ) (xv yv c : Fin s1 × Fin s2 → ℝ),
      makeOffsetExtended fftw sc randn (realArr img) xsh ysh 0 false = .ok off ∧
      chi2Shift cfg st (realArr img) off err (.int u) zm nf false false true mas mns ah = .ok [.num rx, .num ry, .arrays s1 s2 xv yv c] ∧
      ((∃ i, xv i = -xsh ∧ yv i = -ysh) → rx = xsh ∧ ry = ysh) := by
  have him : shift2d cfg (rArr img) xsh ysh 0 false false = .cplx (rArr fun p => (cshift ysh xsh img p).re) := by
    rw [shift2d_eq, denan_rArr]
    simp only [shiftKernel_zero]
    rw [shiftReturn_cplx]
    congr 1
    funext p
    simp only [cArr, rArr]
    rw [cshift_real_odd oy ox]
    rfl
  obtain ⟨rx, ry, s1, s2, xv, yv, c, h, h'⟩ := C33_recovers_subpixel cfg cfg st hst img _ hy hx h10 h01 ysh xsh him err s hs herr u hu zm nf mas mns
    ah hf
  refine ⟨_, rx, ry, s1, s2, xv, yv, c, makeOffsetExtended_eq fftw sc randn img xsh ysh 0, ?_, h'⟩
  simpa using h

/-- C106 for a single bright pixel of a 3×3 image moved by one row and minus one column: `chi2_shift` finds `(-1, 1)` (conditions met). -/
example (cfg : FFTConfig) (fftw sc : Bool) (randn : Fin 3 × Fin 3 → ℝ) :
    ∃ (off : Fin 3 × Fin 3 → Pix) (dx' dy' : ℤ),
      makeOffsetExtended fftw sc randn (realArr fun p : Fin 3 × Fin 3 => if p = 0 then 1 else 0) ((-1 : ℤ) : ℝ) ((1 : ℤ) : ℝ) 0 false = .ok off ∧
      chi2Shift cfg none (realArr fun p : Fin 3 × Fin 3 => if p = 0 then 1 else 0) off .none (.int 1) false 2 false false false 512 1.1 true
        = .ok [.num dx', .num dy'] ∧ dx' = -1 ∧ dy' = 1 := by
  have hd : ∀ k : Fin 3 × Fin 3, dft (fun p : Fin 3 × Fin 3 => (((if p = 0 then 1 else 0 : ℝ)) : ℂ)) k ≠ 0 := by
    intro k
    unfold dft
    rw [Finset.sum_eq_single 0 (fun p _ hp => by simp [hp]) (fun h => absurd (Finset.mem_univ _) h)]
    simp only [if_true, Complex.ofReal_one, one_mul]
    intro h
    have := congrArg norm h
    simp [norm_e] at this
  obtain ⟨off, dx', dy', h1, h2, h3, h4, h5, h6, h7, h8⟩ := C106_recovered cfg none trivial fftw sc randn
    (fun p : Fin 3 × Fin 3 => if p = 0 then (1 : ℝ) else 0) (by norm_num) (by norm_num) (hd _) (hd _) (-1) 1 .none 1 one_ne_zero rfl 1 one_pos
    false 2 512 1.1 true (.inl rfl) (.inl ⟨by decide, by norm_num; decide⟩) (.inl ⟨by decide, by norm_num; decide⟩)
  refine ⟨off, dx', dy', h1, h2, ?_, ?_⟩
  · have := h3.dvd; omega
  · have := h6.dvd; omega

/-! ### C107 -/

theorem nanToNum_eq {ι : Type} (im : ι → Pix) : Np.nanToNum im = realArr (Spec.nan0 im) := by
  funext i
  unfold Np.nanToNum realArr Spec.nan0
  cases im i <;> rfl

theorem sumPix_real {K : Type} [AddCommMonoid K] {ι : Type} [Fintype ι] (f : ι → K) : sumPix (fun i => some (f i)) = some (∑ i, f i) := by
  unfold sumPix
  simp

theorem sumPix_none {K : Type} [AddCommMonoid K] {ι : Type} [Fintype ι] (a : ι → Option K) (i : ι) (h : a i = none) : sumPix a = none := by
  classical
  unfold sumPix
  rw [if_neg]
  intro hh
  have := hh i
  rw [h] at this
  simp at this

theorem absShifted_eq (fftw : Bool) (im : Fin ny × Fin nx → Pix) (dx dy : ℝ) :
    absShifted fftw im dx dy = realArr fun p => |(cshift (-dy) (-dx) (Spec.nan0 im) p).re| := by
  unfold absShifted
  rw [lsqShift_nan]
  rfl

theorem chi2Term_some {K : Type} [Field K] (a b e : K) (h : e ≠ 0) : chi2Term (some a) (some b) (some e) = some ((a - b) ^ 2 / e ^ 2) := by
  classical
  unfold chi2Term; simp [h]

theorem chi2Term_zero {K : Type} [Field K] (a b : K) : chi2Term (some a) (some b) (some 0) = none := by
  classical
  unfold chi2Term; simp

/-- the error of `chi2`: 1 if none is given -/
noncomputable def Spec.errOrOne (err : Option (Fin ny × Fin nx → Pix)) : Fin ny × Fin nx → ℝ :=
  match err with
  | none => fun _ => 1
  | some e => Spec.nan0 e

theorem chi2Helper_eq (fftw : Bool) (im1 im2 : Fin ny × Fin nx → Pix) (dx dy : ℝ) (err : Option (Fin ny × Fin nx → Pix)) (us : ℕ) (hu : us ≤ 1) :
    chi2Helper fftw im1 im2 dx dy err us = .ok (.real (sumPix fun p => chi2Term (some (Spec.nan0 im1 p))
      (some |(cshift (-dy) (-dx) (Spec.nan0 im2) p).re|) (some |(cshift (-dy) (-dx) (Spec.errOrOne err) p).re|))) := by
  unfold chi2Helper
  rw [if_neg (by omega), nanToNum_eq, nanToNum_eq]
  simp only [absShifted_eq]
  cases err with
  | none =>
    have he : Spec.nan0 (fun i => (realArr (Spec.nan0 im2) i).map fun v => v * 0 + 1) = Spec.errOrOne none := by
      funext i; simp [Spec.nan0, realArr, Spec.errOrOne]
    simp only [he]
    rfl
  | some e => rfl

theorem roll2_neg_eq_move (dy dx : ℤ) (x : Fin ny × Fin nx → ℝ) (p : Fin ny × Fin nx) :
    Spec.roll2 (-dy) (-dx) x p = x (Spec.move dy dx p) := by
  unfold Spec.roll2 Spec.move
  rw [sub_neg_eq_add, sub_neg_eq_add]

/-- C107: whole-pixel offsets, `upsample` 0 or 1: the sum over all pixels of `(im1[p] - |im2[p+d]|)² / err[p+d]²`, NaN pixels of the images
counted as 0, for an error array whose pixels are neither 0 nor NaN or for none (all errors 1). It is the MODULUS of `im2` that is compared. -/
theorem C107_whole_pixels (fftw : Bool) (im1 im2 : Fin ny × Fin nx → Pix) (dx dy : ℤ) (err : Option (Fin ny × Fin nx → Pix)) (us : ℕ) (hu : us ≤ 1)
    (herr : ∀ e, err = some e → ∀ p, e p ≠ none ∧ e p ≠ some 0) :
    chi2Helper fftw im1 im2 dx dy err us
      = .ok (.real (some (Spec.chi2 (Spec.nan0 im1) (fun p => |Spec.nan0 im2 p|) (Spec.errOrOne err) dy dx))) := by
  rw [chi2Helper_eq fftw im1 im2 dx dy err us hu]
  have hc : ∀ (x : Fin ny × Fin nx → ℝ) (p : Fin ny × Fin nx), (cshift (-(dy : ℝ)) (-(dx : ℝ)) x p).re = x (Spec.move dy dx p) := by
    intro x p
    have := cshift_int (-dy) (-dx) x p
    rw [Int.cast_neg, Int.cast_neg] at this
    rw [this, Complex.ofReal_re, roll2_neg_eq_move]
  simp only [hc]
  have h0 : ∀ p, Spec.errOrOne err p ≠ 0 := by
    intro p
    cases hE : err with
    | none => exact one_ne_zero
    | some e =>
      have := herr e hE p
      unfold Spec.errOrOne Spec.nan0
      cases hv : e p with
      | none => exact absurd hv this.1
      | some v =>
        intro h0
        have h0' : v = 0 := by simpa [hv] using h0
        exact this.2 (by rw [hv, h0'])
  simp only [chi2Term_some _ _ _ (abs_ne_zero.2 (h0 _)), sq_abs, sumPix_real]
  rfl

/-- C107: an error array with a pixel that is 0 or NaN gives NaN (or an infinity; not told apart) for every whole-pixel offset. -/
theorem C107_zero_error (fftw : Bool) (im1 im2 : Fin ny × Fin nx → Pix) (dx dy : ℤ) (e : Fin ny × Fin nx → Pix) (us : ℕ) (hu : us ≤ 1)
    (q : Fin ny × Fin nx) (hq : e q = none ∨ e q = some 0) : chi2Helper fftw im1 im2 dx dy (some e) us = .ok (.real none) := by
  rw [chi2Helper_eq fftw im1 im2 dx dy (some e) us hu]
  congr 2
  refine sumPix_none _ (Spec.move (-dy) (-dx) q) ?_
  have hm : Spec.move dy dx (Spec.move (-dy) (-dx) q) = q := by
    unfold Spec.move
    refine Prod.ext ?_ ?_
    · show Spec.wrap ny _ = q.1
      have := (Spec.wrap_modEq ny (((q.1 : ℕ) : ℤ) + -dy)).add_right dy
      rw [neg_add_cancel_right] at this
      rw [Spec.wrap_congr _ this, Spec.wrap_val]
    · show Spec.wrap nx _ = q.2
      have := (Spec.wrap_modEq nx (((q.2 : ℕ) : ℤ) + -dx)).add_right dx
      rw [neg_add_cancel_right] at this
      rw [Spec.wrap_congr _ this, Spec.wrap_val]
  have h0 : |(cshift (-(dy : ℝ)) (-(dx : ℝ)) (Spec.errOrOne (some e)) (Spec.move (-dy) (-dx) q)).re| = 0 := by
    have := cshift_int (-dy) (-dx) (Spec.errOrOne (some e)) (Spec.move (-dy) (-dx) q)
    rw [Int.cast_neg, Int.cast_neg] at this
    rw [this, Complex.ofReal_re, roll2_neg_eq_move, hm]
    unfold Spec.errOrOne Spec.nan0
    rcases hq with h | h <;> simp [h]
  rw [h0, chi2Term_zero]

/-- C107: it agrees with `chi2n_map`: for `im2` without negative pixels and no errors, `chi2(im1, im2, dx, dy)` is the entry of the
chi-squared map for the offset `(dx, dy)`. -/
theorem C107_is_map_entry (cfg : FFTConfig) (fftw : Bool) (im1 im2 : Fin ny × Fin nx → Pix) (hpos : ∀ p v, im2 p = some v → 0 ≤ v) (ah : Bool)
    (hf : Spec.fits ah ny nx) (us : ℕ) (hu : us ≤ 1) :
    ∃ c : Fin ny × Fin nx → ℝ, chi2nMap cfg im1 im2 .none false false false ah = .ok (.only c) ∧
      ∀ dx dy : ℤ, chi2Helper fftw im1 im2 dx dy none us
        = .ok (.real (some (c (Spec.wrap ny (((ny - 1) / 2 : ℕ) - dy), Spec.wrap nx (((nx - 1) / 2 : ℕ) - dx))))) := by
  obtain ⟨c, hc, hv⟩ := C23_scalar_error cfg ah hf im1 im2 .none 1 one_ne_zero rfl
  refine ⟨c, hc, fun dx dy => ?_⟩
  rw [hv, C107_whole_pixels fftw im1 im2 dx dy none us hu (by intro e he; cases he)]
  have habs : (fun p => |Spec.nan0 im2 p|) = Spec.nan0 im2 := by
    funext p
    unfold Spec.nan0
    cases h : im2 p with
    | none => simp
    | some v => simpa using hpos p v h
  rw [habs]
  congr 3
  unfold Spec.chi2
  simp only [roll2_neg_eq_move, Spec.errOrOne]

/-- C107: fractional offsets, no errors: the sum of `(im1 - |s|)²` with `s = shift2d(im2, -dx, -dy)`. -/
theorem C107_fractional (cfg : FFTConfig) (fftw : Bool) (im1 im2 : Fin ny × Fin nx → Pix) (dx dy : ℝ) (us : ℕ) (hu : us ≤ 1) :
    ∃ s : Fin ny × Fin nx → ℝ, shift2d cfg (toC im2) (-dx) (-dy) 0 false true = .real (realArr s) ∧
      chi2Helper fftw im1 im2 dx dy none us = .ok (.real (some (∑ p, (Spec.nan0 im1 p - |s p|) ^ 2))) := by
  refine ⟨_, shift2d_nan cfg im2 (-dx) (-dy) false, ?_⟩
  rw [chi2Helper_eq fftw im1 im2 dx dy none us hu]
  have h1 : ∀ p, (cshift (-dy) (-dx) (Spec.errOrOne (none : Option (Fin ny × Fin nx → Pix))) p).re = 1 := by
    intro p
    have h := cshift_sub_const (-dy) (-dx) (-1) (fun _ : Fin ny × Fin nx => 0) p
    have h2 : cshift (-dy) (-dx) (fun _ : Fin ny × Fin nx => (0 : ℝ)) p = 0 := by
      have := filt_smul (fun k : Fin ny × Fin nx => ex (-(freq2 (-dx) (-dy) k))) (fun _ => 0) 0
      unfold cshift
      simpa using congrFun this p
    rw [h2] at h
    have e : Spec.errOrOne (none : Option (Fin ny × Fin nx → Pix)) = fun _ : Fin ny × Fin nx => (0 : ℝ) - -1 := by funext; simp [Spec.errOrOne]
    rw [e, h]; simp
  simp only [h1, abs_one, chi2Term_some _ _ _ (one_ne_zero (α := ℝ)), sumPix_real, one_pow, div_one]

theorem chi2Upsampled_eq (fftw : Bool) (a : Fin ny × Fin nx → ℝ) (us : ℕ) (hus : 0 < us) (xs ys : ℝ) :
    chi2Upsampled fftw (realArr a) us xs ys
      = .ok (cArr fun i => interp2C (fun i => (a i : ℂ)) ((((i.1 : ℕ) : ℝ) - ys) / us) ((((i.2 : ℕ) : ℝ) - xs) / us)) := by
  unfold chi2Upsampled
  have h := upsampleImage_eq ⟨fftw, false, 1⟩ (fun i => (a i : ℂ)) us hus (.pair ny nx) xs ys
  have e : toC (realArr a) = cArr fun i => (a i : ℂ) := rfl
  rw [e, h]
  simp only
  rw [dif_pos ⟨rfl, rfl⟩]
  rfl

/-- C107: `upsample > 1`, no errors. The number returned is complex: the sum of the SQUARES (not of the squared moduli) of the differences of
the Fourier interpolants of `im1` at `(a/upsample, b/upsample)` and of `im2` at `(a/upsample + dy, b/upsample + dx)`, over as many
points as the image has pixels - so only the first `1/upsample` of each axis is compared. -/
theorem C107_upsampled (cfg : FFTConfig) (fftw : Bool) (im1 im2 : Fin ny × Fin nx → Pix) (dx dy : ℝ) (us : ℕ) (hu : 1 < us) :
    ∃ y1 y2 : Fin ny × Fin nx → ℂ,
      fourierInterp2d cfg (rArr (Spec.nan0 im1)) (pairInds (fun a : Fin ny => ((a : ℕ) : ℝ) / us) (fun b : Fin nx => ((b : ℕ) : ℝ) / us)) false
        = .ok ⟨ny, nx, .cplx (cArr y1)⟩ ∧
      fourierInterp2d cfg (rArr (Spec.nan0 im2))
        (pairInds (fun a : Fin ny => ((a : ℕ) : ℝ) / us + dy) (fun b : Fin nx => ((b : ℕ) : ℝ) / us + dx)) false
        = .ok ⟨ny, nx, .cplx (cArr y2)⟩ ∧
      chi2Helper fftw im1 im2 dx dy none us = .ok (.cplx (some (∑ p, (y1 p - y2 p) ^ 2))) := by
  have hu0 : (us : ℝ) ≠ 0 := by exact_mod_cast (by omega : us ≠ 0)
  refine ⟨fun p => interp2C (fun i => (Spec.nan0 im1 i : ℂ)) (((p.1 : ℕ) : ℝ) / us) (((p.2 : ℕ) : ℝ) / us),
    fun p => interp2C (fun i => (Spec.nan0 im2 i : ℂ)) (((p.1 : ℕ) : ℝ) / us + dy) (((p.2 : ℕ) : ℝ) / us + dx), ?_, ?_, ?_⟩
  · exact (fourierInterp2d_ok cfg (fun i => (Spec.nan0 im1 i : ℂ)) (pairInds _ _) rfl ⟨_, _⟩ ⟨_, _⟩ rfl rfl false).trans (by rw [retReal_false])
  · exact (fourierInterp2d_ok cfg (fun i => (Spec.nan0 im2 i : ℂ)) (pairInds _ _) rfl ⟨_, _⟩ ⟨_, _⟩ rfl rfl false).trans (by rw [retReal_false])
  · unfold chi2Helper
    rw [if_pos hu, nanToNum_eq, nanToNum_eq]
    have e1 : (fun i => (realArr (Spec.nan0 im2) i).map fun v => v * 0 + 1) = realArr fun _ : Fin ny × Fin nx => (1 : ℝ) := by
      funext i; simp [realArr]
    simp only [e1, chi2Upsampled_eq fftw _ us (by omega), bind, Except.bind, pure, Except.pure]
    congr 2
    have h1 : ∀ t u, interp2C (fun i : Fin ny × Fin nx => (((1 : ℝ)) : ℂ)) t u = 1 := by
      intro t u
      rw [interp2C_const]; simp
    have hd : ∀ x d : ℝ, (x - -d * us) / us = x / us + d := by
      intro x d; field_simp; ring
    simp only [cArr, h1, chi2Term_some _ _ _ (one_ne_zero (α := ℂ)), sumPix_real, one_pow, div_one, sub_zero, hd]

theorem interp2C_of_shift (a b : Fin ny × Fin nx → ℝ) (dy dx : ℝ) (hb : ∀ p, (b p : ℂ) = cshift dy dx a p) (t u : ℝ) :
    interp2C (fun i => (b i : ℂ)) (t + dy) (u + dx) = interp2C (fun i => (a i : ℂ)) t u := by
  have hid : ∀ (x : Fin ny × Fin nx → ℝ) k, idft (fun i => (x i : ℂ)) k = conj (dft (fun i => (x i : ℂ)) k) / ((Fintype.card (Fin ny × Fin nx) : ℕ) : ℂ) := by
    intro x k
    unfold idft dft
    rw [map_sum, one_div, inv_mul_eq_div]
    congr 1
    refine Finset.sum_congr rfl fun i _ => ?_
    rw [map_mul, Complex.conj_ofReal, Complex.conj_conj, FFTIndex.e_symm]
  have hdft : ∀ k, dft (fun i => (b i : ℂ)) k = dft (fun i => (a i : ℂ)) k * ex (-(freq2 dx dy k)) := by
    intro k
    have : (fun i => (b i : ℂ)) = cshift dy dx a := by funext p; exact hb p
    rw [this, dft_cshift]
  unfold interp2C
  refine Finset.sum_congr rfl fun k _ => ?_
  rw [hid, hid, hdft, map_mul, conj_ex, neg_neg]
  have : ex (freq2 dx dy k) * ex (-(Np.fftfreq ny k.1 * (t + dy))) * ex (-(Np.fftfreq nx k.2 * (u + dx)))
      = ex (-(Np.fftfreq ny k.1 * t)) * ex (-(Np.fftfreq nx k.2 * u)) := by
    rw [← ex_add, ← ex_add, ← ex_add]
    congr 1
    unfold freq2
    ring
  rw [mul_assoc, mul_assoc, ← this]
  ring

/-- C107: at the true offset. If `im2` is the Fourier-shifted `im1` (real, as it is for odd sizes), `chi2` at that offset is 0, for every
`upsample > 1`, and for `upsample ≤ 1` if no pixel of `im1` is negative. -/
theorem C107_zero_at_truth (cfg : FFTConfig) (fftw : Bool) (a b : Fin ny × Fin nx → ℝ) (dx dy : ℝ)
    (hb : shift2d cfg (rArr a) dx dy 0 false false = .cplx (rArr b)) (us : ℕ) :
    (1 < us → chi2Helper fftw (realArr a) (realArr b) dx dy none us = .ok (.cplx (some 0))) ∧
    (us ≤ 1 → (∀ p, 0 ≤ a p) → chi2Helper fftw (realArr a) (realArr b) dx dy none us = .ok (.real (some 0))) := by
  have hb' : ∀ p, (b p : ℂ) = cshift dy dx a p := by
    rw [shift2d_eq, denan_rArr, shiftReturn_cplx] at hb
    intro p
    have h := Option.some.inj (congrFun (NdOut.cplx.inj hb) p)
    rw [← h]
    unfold cshift
    simp only [shiftKernel_zero]
  constructor
  · intro hu
    obtain ⟨y1, y2, h1, h2, h3⟩ := C107_upsampled cfg fftw (realArr a) (realArr b) dx dy us hu
    rw [h3]
    have hy1 := (fourierInterp2d_ok cfg (fun i => (a i : ℂ)) (pairInds (fun a : Fin ny => ((a : ℕ) : ℝ) / us) (fun b : Fin nx => ((b : ℕ) : ℝ) / us))
      rfl ⟨_, _⟩ ⟨_, _⟩ rfl rfl false).symm.trans h1
    have hy2 := (fourierInterp2d_ok cfg (fun i => (b i : ℂ)) (pairInds (fun a : Fin ny => ((a : ℕ) : ℝ) / us + dy)
      (fun b : Fin nx => ((b : ℕ) : ℝ) / us + dx)) rfl ⟨_, _⟩ ⟨_, _⟩ rfl rfl false).symm.trans h2
    rw [retReal_false] at hy1 hy2
    have e1 : y1 = fun p : Fin ny × Fin nx => interp2C (fun i => (a i : ℂ)) (((p.1 : ℕ) : ℝ) / us) (((p.2 : ℕ) : ℝ) / us) := by
      simp only [Except.ok.injEq, Out2.mk.injEq, heq_eq_eq, true_and, NdOut.cplx.injEq] at hy1
      funext p; exact (Option.some.inj (congrFun hy1 p)).symm
    have e2 : y2 = fun p : Fin ny × Fin nx => interp2C (fun i => (b i : ℂ)) (((p.1 : ℕ) : ℝ) / us + dy) (((p.2 : ℕ) : ℝ) / us + dx) := by
      simp only [Except.ok.injEq, Out2.mk.injEq, heq_eq_eq, true_and, NdOut.cplx.injEq] at hy2
      funext p; exact (Option.some.inj (congrFun hy2 p)).symm
    rw [e1, e2]
    simp only [interp2C_of_shift a b dy dx hb', sub_self]
    simp
  · intro hu ha
    obtain ⟨s, hs, h⟩ := C107_fractional cfg fftw (realArr a) (realArr b) dx dy us hu
    rw [h]
    rw [shift2d_nan] at hs
    have hs' : ∀ p, s p = a p := by
      intro p
      have h1 := Option.some.inj (congrFun (NdOut.real.inj hs) p)
      rw [← h1, nan0_realArr, cshift_cshift (-dy) (-dx) dy dx b a hb']
      have := cshift_period a 0 0 p
      simp only [Int.cast_zero, zero_mul] at this
      beta_reduce
      rw [neg_add_cancel, neg_add_cancel, this, Complex.ofReal_re]
    simp [hs', nan0_realArr, abs_of_nonneg (ha _)]

/-- C107 compares the modulus: for the 1×1 image -1 and itself the result is 4, not 0; `chi2n_map` gives 0. -/
theorem C107_negative_pixels (fftw : Bool) :
    chi2Helper fftw (realArr fun _ : Fin 1 × Fin 1 => (-1 : ℝ)) (realArr fun _ : Fin 1 × Fin 1 => (-1 : ℝ)) 0 0 none 1 = .ok (.real (some 4)) := by
  have h := C107_whole_pixels fftw (realArr fun _ : Fin 1 × Fin 1 => (-1 : ℝ)) (realArr fun _ : Fin 1 × Fin 1 => (-1 : ℝ)) 0 0 none 1 le_rfl
    (by intro e he; cases he)
  rw [Int.cast_zero] at h
  rw [h]
  simp [Spec.chi2, nan0_realArr, Spec.errOrOne]
  norm_num

/-- C107 for two different images: pixel values 1, 2 against 2, 5 with errors 1, 2: (1-2)²/1 + (2-5)²/4. -/
example (fftw : Bool) :
    chi2Helper fftw (realArr fun p : Fin 1 × Fin 2 => if p.2 = 0 then 1 else 2) (realArr fun p : Fin 1 × Fin 2 => if p.2 = 0 then 2 else 5)
      ((0 : ℤ) : ℝ) ((0 : ℤ) : ℝ) (some (realArr fun p : Fin 1 × Fin 2 => if p.2 = 0 then 1 else 2)) 1 = .ok (.real (some (13 / 4))) := by
  rw [C107_whole_pixels fftw _ _ 0 0 _ 1 le_rfl (by
    intro e he p
    rw [← Option.some.inj he]
    refine ⟨by simp [realArr], ?_⟩
    unfold realArr
    beta_reduce
    split_ifs <;> simp)]
  have hm : ∀ p : Fin 1 × Fin 2, Spec.move 0 0 p = p := by
    intro p; unfold Spec.move; rw [add_zero, add_zero, Spec.wrap_val, Spec.wrap_val]
  simp only [Spec.chi2, hm, nan0_realArr, Spec.errOrOne]
  simp [Fintype.sum_prod_type]
  norm_num

end ImgReg
