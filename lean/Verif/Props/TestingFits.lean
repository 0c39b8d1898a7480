import Verif.Props.TestingOffset
import Verif.Props.Register
import Verif.Props.Chi2Shift

/-!
# Property C109: the repeated fits of `image_registration.tests`
-/

open Complex Finset

namespace ImgReg

variable {ny nx : ℕ} [NeZero ny] [NeZero nx]

theorem mapM_ok {α β : Type} (f : α → Py β) (g : α → β) (l : List α) (h : ∀ x ∈ l, f x = .ok (g x)) : l.mapM f = .ok (l.map g) := by
  induction l with
  | nil => rfl
  | cons x l ih =>
    rw [List.mapM_cons, h x List.mem_cons_self, ih fun y hy => h y (List.mem_cons_of_mem _ hy)]
    rfl

theorem mapM_error {α β : Type} (f : α → Py β) (x : α) (l : List α) (e : PyErr) (h : f x = .error e) : (x :: l).mapM f = .error e := by
  rw [List.mapM_cons, h]
  rfl

/-- the turns of the loop: `n` with the package `progressbar`, one without -/
def Spec.turns (hasProgressbar : Bool) (n : ℕ) : ℕ := if hasProgressbar then n else 1

theorem progress_ok {β : Type} (pb : Bool) (n : ℕ) (f : Option ℕ × ℕ → Py β) (r : ℕ → β)
    (h : ∀ k < Spec.turns pb n, ∀ o, f (o, k) = .ok (r k)) :
    (progressLoop pb n).zipIdx.mapM f = .ok ((List.range (Spec.turns pb n)).map r) := by
  cases pb with
  | true =>
    unfold progressLoop
    have hl : (List.map some (List.range n)).zipIdx = (List.range n).map fun k => (some k, k) := by
      apply List.ext_getElem
      · simp
      · intro i h1 h2; simp
    simp only [if_true]
    rw [hl, mapM_ok f (fun x => r x.2)]
    · simp [Spec.turns, List.map_map, Function.comp_def]
    · rintro x hx
      obtain ⟨k, hk, rfl⟩ := List.mem_map.1 hx
      exact h k (by simpa [Spec.turns] using hk) _
  | false =>
    unfold progressLoop
    simp only [Bool.false_eq_true, if_false]
    show (([(none, 0)] : List (Option ℕ × ℕ)).mapM f) = _
    rw [mapM_ok f (fun x => r x.2)]
    · rfl
    · intro x hx
      obtain rfl := List.mem_singleton.1 hx
      exact h 0 (by simp [Spec.turns]) _

theorem progress_error {β : Type} (pb : Bool) (n : ℕ) (f : Option ℕ × ℕ → Py β) (hn : 0 < Spec.turns pb n) (h : ∀ x, ∃ e, f x = .error e) :
    ∃ e, (progressLoop pb n).zipIdx.mapM f = .error e := by
  have : ∃ x l, (progressLoop pb n).zipIdx = x :: l := by
    cases pb with
    | true =>
      cases n with
      | zero => exact absurd hn (by simp [Spec.turns])
      | succ n =>
        unfold progressLoop
        simp only [if_true]
        rw [List.range_succ_eq_map]
        exact ⟨_, _, rfl⟩
    | false => exact ⟨_, _, rfl⟩
  obtain ⟨x, l, hx⟩ := this
  obtain ⟨e, he⟩ := h x
  exact ⟨e, by rw [hx]; exact mapM_error f x l e he⟩

/-- C109: `do_n_extended_fits` in its default configuration gives one result of `shift_func` for each offset image, in order: `nfits` of them with
the package `progressbar`, but exactly one without it, whatever `nfits` is. All fits use the same image, and the k-th the k-th draw of noise. -/
theorem C109_number_of_fits {β : Type} (fftw sc pb : Bool) (g1 g2 : Fin nx × Fin nx → ℝ) (draws : ℕ → Fin nx × Fin nx → ℝ) (nfits : ℕ)
    (xsh ysh pl noise : ℝ) (zeropad : ℤ) (hzp : zeropad ≤ 0) (shiftFunc : (Fin nx × Fin nx → Pix) → (Fin nx × Fin nx → Pix) → Py β) (r : ℕ → β)
    (h : ∀ k < Spec.turns pb nfits, ∃ off, makeOffsetExtended fftw sc (draws k) (makeExtended pl g1 g2) xsh ysh noise false = .ok off ∧
      shiftFunc (makeExtended pl g1 g2) off = .ok (r k)) :
    ∃ l, doNExtendedFits fftw sc pb g1 g2 draws nfits xsh ysh pl noise false zeropad shiftFunc false false = .ok l ∧
      l.length = (if pb then nfits else 1) ∧ ∀ k (hk : k < l.length), l[k] = r k := by
  refine ⟨(List.range (Spec.turns pb nfits)).map r, ?_, by simp [Spec.turns], fun k hk => by simp⟩
  unfold doNExtendedFits
  simp only [not_lt.2 hzp, if_false, Bool.false_eq_true, bind, Except.bind, pure, Except.pure]
  refine progress_ok pb nfits _ r fun k hk o => ?_
  obtain ⟨off, h1, h2⟩ := h k hk
  simp only [h1, h2]

/-- C109: zero padding raises TypeError; without it and without `unsharp_mask`, `doplot` raises UnboundLocalError. -/
theorem C109_zeropad_doplot {β : Type} (fftw sc pb : Bool) (g1 g2 : Fin nx × Fin nx → ℝ) (draws : ℕ → Fin nx × Fin nx → ℝ) (nfits : ℕ)
    (xsh ysh pl noise : ℝ) (um : Bool) (zeropad : ℤ) (shiftFunc : (Fin nx × Fin nx → Pix) → (Fin nx × Fin nx → Pix) → Py β) (dp nt : Bool) :
    (0 < zeropad → doNExtendedFits fftw sc pb g1 g2 draws nfits xsh ysh pl noise um zeropad shiftFunc dp nt = .error .typeError) ∧
    (zeropad ≤ 0 →
      doNExtendedFits fftw sc pb g1 g2 draws nfits xsh ysh pl noise false zeropad shiftFunc true nt = .error .unboundLocalError) := by
  constructor
  · intro h
    unfold doNExtendedFits
    simp only [h, if_true, bind, Except.bind]
  · intro h
    unfold doNExtendedFits
    simp only [not_lt.2 h, if_false, if_true, Bool.false_eq_true, bind, Except.bind, pure, Except.pure]

/-- C109: `unsharp_mask=True` and `noise_taper=True` fail as soon as one fit is made (`smooth` cannot complete, C57). -/
theorem C109_smoothing_fails {β : Type} (fftw sc pb : Bool) (g1 g2 : Fin nx × Fin nx → ℝ) (draws : ℕ → Fin nx × Fin nx → ℝ) (nfits : ℕ)
    (hn : pb = true → 0 < nfits) (xsh ysh pl noise : ℝ) (um : Bool) (zeropad : ℤ)
    (shiftFunc : (Fin nx × Fin nx → Pix) → (Fin nx × Fin nx → Pix) → Py β) (dp nt : Bool) (h : um = true ∨ nt = true) :
    ∃ e, doNExtendedFits fftw sc pb g1 g2 draws nfits xsh ysh pl noise um zeropad shiftFunc dp nt = .error e := by
  have ht : 0 < Spec.turns pb nfits := by
    unfold Spec.turns; split_ifs with hp
    · exact hn hp
    · exact one_pos
  by_cases hz : 0 < zeropad
  · exact ⟨_, (C109_zeropad_doplot fftw sc pb g1 g2 draws nfits xsh ysh pl noise um zeropad shiftFunc dp nt).1 hz⟩
  cases um with
  | true =>
    unfold doNExtendedFits
    simp only [hz, if_false, if_true, bind, Except.bind, pure, Except.pure]
    refine progress_error pb nfits _ ht fun x => ?_
    obtain ⟨e, he⟩ := C57_smooth_never sc ⟨nx, nx, fun a b => makeExtended pl g1 g2 (Fin.ofNat nx a, Fin.ofNat nx b)⟩ (.int 5) .gaussian none true .max 6
      (.fn NArr.sum)
    exact ⟨e, by simp only [he]⟩
  | false =>
    obtain rfl : nt = true := by simpa using h
    cases dp with
    | true => exact ⟨_, (C109_zeropad_doplot fftw sc pb g1 g2 draws nfits xsh ysh pl noise false zeropad shiftFunc true true).2 (not_lt.1 hz)⟩
    | false =>
      unfold doNExtendedFits
      simp only [hz, if_false, Bool.false_eq_true, bind, Except.bind, pure, Except.pure]
      refine progress_error pb nfits _ ht fun x => ?_
      exact ⟨if nx < 30 then .typeError else .attributeError, by simp only [C106_taper]⟩

/-- C109: `register_noise_test`: one row per noise realisation, of the second image plus `noise` times the draws; `ntests` rows with the package
`progressbar`, one without. -/
theorem C109_noise_test {β : Type} (pb : Bool) (draws : ℕ → Fin ny × Fin nx → ℝ) (im1 im2 : Fin ny × Fin nx → Pix) (ntests : ℕ) (noise : ℝ)
    (method : (Fin ny × Fin nx → Pix) → (Fin ny × Fin nx → Pix) → Py β) (r : ℕ → β)
    (h : ∀ k < (if pb then ntests else 1), method im1 (fun p => (im2 p).map fun v => v + noise * draws k p) = .ok (r k)) :
    ∃ l, registerNoiseTest pb draws im1 im2 ntests noise method = .ok l ∧ l.length = (if pb then ntests else 1) ∧
      ∀ k (hk : k < l.length), l[k] = r k := by
  refine ⟨(List.range (Spec.turns pb ntests)).map r, ?_, by simp [Spec.turns], fun k hk => by simp⟩
  unfold registerNoiseTest
  refine progress_ok pb ntests _ r fun k hk o => ?_
  rw [← h k hk]
  simp only [mul_comm noise]

theorem modEq_unique {n : ℕ} {a b : ℤ} (h : a ≡ b [ZMOD n]) (h1 : -(n : ℤ) ≤ 2 * a) (h2 : 2 * a < n) (h3 : -(n : ℤ) ≤ 2 * b) (h4 : 2 * b < n) :
    a = b := by
  obtain ⟨t, ht⟩ := h.dvd
  have hn : (0 : ℤ) < n := by omega
  have : t = 0 := by
    by_contra h0
    rcases lt_or_gt_of_ne h0 with h0 | h0
    · have : (n : ℤ) * t ≤ (n : ℤ) * (-1) := mul_le_mul_of_nonneg_left (by omega) hn.le
      omega
    · have : (n : ℤ) * 1 ≤ (n : ℤ) * t := mul_le_mul_of_nonneg_left (by omega) hn.le
      omega
  subst this
  omega

theorem noise_row (cfg : FFTConfig) (st : Stats) (hst : Spec.validStats st) (draw im1 : Fin ny × Fin nx → ℝ) (hy : 2 ≤ ny) (dy dx : ℤ)
    (hdy : -(ny : ℤ) ≤ 2 * dy ∧ 2 * dy < ny) (hdx : -(nx : ℤ) ≤ 2 * dx ∧ 2 * dx < nx) (noise : ℝ)
    (hnoise : ∀ ey ex : ℤ, ¬ (ey ≡ dy [ZMOD ny] ∧ ex ≡ dx [ZMOD nx]) →
      4 * noise ^ 2 * ∑ p, draw p ^ 2 < ∑ p, (Spec.roll2 ey ex im1 p - Spec.roll2 dy dx im1 p) ^ 2)
    (nf : ℝ) (mas : ℕ) (mns : ℝ) (ah : Bool) (hf : Spec.fits ah ny nx) :
    chi2Shift cfg st (realArr im1) (realArr fun p => Spec.roll2 dy dx im1 p + noise * draw p) .none (.int 1) false nf false false false mas mns ah
      = .ok [.num dx, .num dy] := by
  have hs : ∀ ey ex : ℤ, ¬ (ey ≡ dy [ZMOD ny] ∧ ex ≡ dx [ZMOD nx]) →
      4 * ∑ p, (noise * draw p) ^ 2 / (1 : ℝ) ^ 2 < ∑ p, (Spec.roll2 ey ex im1 p - Spec.roll2 dy dx im1 p) ^ 2 / (1 : ℝ) ^ 2 := by
    intro ey ex hne
    have := hnoise ey ex hne
    simp only [one_pow, div_one, mul_pow, ← Finset.mul_sum]
    linarith
  have hsc : Spec.isScalarErr (.none : ErrArg ny nx) 1 := rfl
  obtain ⟨dx', dy', h, c1, c2, c3, c4, c5, c6⟩ := C96_roll_with_noise cfg st hst im1 (fun p => noise * draw p) hy dy dx .none (fun _ => 1)
    (fun _ => one_ne_zero) (.inl ⟨1, hsc, fun _ => rfl⟩) hs nf mas mns ah hf
  have e1 : dx' = dx := modEq_unique c1 c2 c3 hdx.1 hdx.2
  have e2 : dy' = dy := modEq_unique c4 c5 c6 hdy.1 hdy.2
  rw [h, e1, e2]

/-- C109: `register_noise_test` with `chi2_shift` (`upsample_factor=1`): if the second image is the first rolled by whole pixels and every noise
realisation stays below the level of C96, every row is exactly the true offset: the scatter that is measured is 0. -/
theorem C109_noise_test_exact (cfg : FFTConfig) (st : Stats) (hst : Spec.validStats st) (pb : Bool) (draws : ℕ → Fin ny × Fin nx → ℝ)
    (im1 : Fin ny × Fin nx → ℝ) (hy : 2 ≤ ny) (dy dx : ℤ) (hdy : -(ny : ℤ) ≤ 2 * dy ∧ 2 * dy < ny) (hdx : -(nx : ℤ) ≤ 2 * dx ∧ 2 * dx < nx)
    (ntests : ℕ) (noise : ℝ)
    (hnoise : ∀ k < (if pb then ntests else 1), ∀ ey ex : ℤ, ¬ (ey ≡ dy [ZMOD ny] ∧ ex ≡ dx [ZMOD nx]) →
      4 * noise ^ 2 * ∑ p, draws k p ^ 2 < ∑ p, (Spec.roll2 ey ex im1 p - Spec.roll2 dy dx im1 p) ^ 2)
    (nf : ℝ) (mas : ℕ) (mns : ℝ) (ah : Bool) (hf : Spec.fits ah ny nx) :
    registerNoiseTest pb draws (realArr im1) (realArr (Spec.roll2 dy dx im1)) ntests noise
        (fun a b => chi2Shift cfg st a b .none (.int 1) false nf false false false mas mns ah)
      = .ok (List.replicate (if pb then ntests else 1) [.num dx, .num dy]) := by
  have key : ∀ k < (if pb then ntests else 1), chi2Shift cfg st (realArr im1)
      (fun p => (realArr (Spec.roll2 dy dx im1) p).map fun v => v + noise * draws k p) .none (.int 1) false nf false false false mas mns ah
      = .ok [.num dx, .num dy] :=
    fun k hk => noise_row cfg st hst (draws k) im1 hy dy dx hdy hdx noise (hnoise k hk) nf mas mns ah hf
  obtain ⟨l, h1, h2, h3⟩ := C109_noise_test pb draws (realArr im1) (realArr (Spec.roll2 dy dx im1)) ntests noise
    (fun a b => chi2Shift cfg st a b .none (.int 1) false nf false false false mas mns ah) (fun _ => [.num dx, .num dy]) key
  rw [h1]
  refine congrArg Except.ok ?_
  refine List.ext_getElem (by rw [h2, List.length_replicate]) fun i hi1 hi2 => ?_
  rw [h3 i hi1, List.getElem_replicate]

/-- C109: `register_accuracy_test`. With the package `progressbar` (and `usf_range` starting at 1 or later) there is one row for each upsampling
factor `a, …, a+n-1`, and it is `(y shift, x shift)` of `register_images` - not `(x, y)`; without the package the call raises TypeError. A range
that starts at 0 raises ValueError. -/
theorem C109_accuracy_test (cfg : FFTConfig) (im1 im2 : Fin ny × Fin nx → Pix) (a n : ℕ) :
    registerAccuracyTest cfg false im1 im2 a n = .error .typeError ∧
    (0 < n → registerAccuracyTest cfg true im1 im2 0 n = .error .valueError) ∧
    (1 ≤ a → ∃ l : List (ℝ × ℝ), registerAccuracyTest cfg true im1 im2 a n = .ok l ∧ l.length = n ∧
      ∀ k (hk : k < l.length), registerImages cfg im1 im2 (a + k) false false true none = .ok [.num l[k].2, .num l[k].1]) := by
  refine ⟨?_, ?_, ?_⟩
  · unfold registerAccuracyTest progressLoop
    exact mapM_error _ _ _ _ rfl
  · intro hn
    obtain ⟨m, rfl⟩ : ∃ m, n = m + 1 := ⟨n - 1, by omega⟩
    unfold registerAccuracyTest progressLoop
    simp only [if_true]
    rw [List.range_succ_eq_map]
    refine mapM_error _ _ _ _ ?_
    simp only [bind, Except.bind, add_zero, C48_usfac_zero]
  · intro ha
    have hex : ∀ k : ℕ, ∃ q : ℝ × ℝ, registerImages cfg im1 im2 (a + k) false false true none = .ok [.num q.2, .num q.1] := by
      intro k
      obtain ⟨dx, dy, h, -⟩ := C45_grid_and_range cfg im1 im2 (a + k) (by omega) true none
      exact ⟨(dy, dx), h⟩
    choose q hq using hex
    refine ⟨(List.range n).map q, ?_, by simp, fun k hk => by simpa using hq k⟩
    unfold registerAccuracyTest progressLoop
    simp only [if_true]
    rw [mapM_ok _ (fun t : Option ℕ => q (t.getD 0))]
    · simp [List.map_map, Function.comp_def]
    · intro x hx
      obtain ⟨k, -, rfl⟩ := List.mem_map.1 hx
      simp only [bind, Except.bind, hq k, pure, Except.pure, Option.getD_some]

/-- C109: `do_n_fits` always gives `nfits` results, of the pairs of `make_offset_images` with the k-th draw; if one fit is made at all, a centre
that is not an integer makes it fail with TypeError and a noise level 0 with ZeroDivisionError. -/
theorem C109_do_n_fits {β : Type} (n : ℕ) (draws : ℕ → Fin n × Fin n → ℝ) (nfits : ℕ) (xsh ysh width amp na : ℝ) (xcen ycen : Centre)
    (shiftFunc : (Fin n × Fin n → Pix) → (Fin n × Fin n → Pix) → Py β) :
    (∀ r : ℕ → β, (∀ k < nfits, ∃ image new tol, makeOffsetImages n (draws k) xsh ysh width amp na xcen ycen = .ok (image, new, tol) ∧
        shiftFunc image new = .ok (r k)) →
      ∃ l, doNFits n draws nfits xsh ysh width amp na xcen ycen shiftFunc = .ok l ∧ l.length = nfits ∧ ∀ k (hk : k < l.length), l[k] = r k) ∧
    (0 < nfits → (∃ c, xcen = .float c ∨ ycen = .float c) →
      doNFits n draws nfits xsh ysh width amp na xcen ycen shiftFunc = .error .typeError) ∧
    (0 < nfits → ∀ cx cy : ℤ, doNFits n draws nfits xsh ysh width amp 0 (.int cx) (.int cy) shiftFunc = .error .zeroDivisionError) := by
  refine ⟨fun r h => ⟨(List.range nfits).map r, ?_, by simp, fun k hk => by simp⟩, ?_, ?_⟩
  · unfold doNFits
    refine mapM_ok _ _ _ fun k hk => ?_
    obtain ⟨image, new, tol, h1, h2⟩ := h k (by simpa using hk)
    simp only [bind, Except.bind, h1, h2]
  · intro hn hc
    obtain ⟨m, rfl⟩ : ∃ m, nfits = m + 1 := ⟨nfits - 1, by omega⟩
    unfold doNFits
    rw [List.range_succ_eq_map]
    refine mapM_error _ _ _ _ ?_
    simp only [bind, Except.bind, (C104_errors n (draws 0) xsh ysh width amp na xcen ycen).1 hc]
  · intro hn cx cy
    obtain ⟨m, rfl⟩ : ∃ m, nfits = m + 1 := ⟨nfits - 1, by omega⟩
    unfold doNFits
    rw [List.range_succ_eq_map]
    refine mapM_error _ _ _ _ ?_
    simp only [bind, Except.bind, (C104_errors n (draws 0) xsh ysh width amp na (.int cx) (.int cy)).2 cx cy]

/-- C109: `do_n_fits_register`: `nfits` rows `(x shift, y shift, chi2)` of `register_images`; the "chi2" is the mean squared difference between
the reference image and the image that `register_images` returns, which is rolled by half its size (C49). -/
theorem C109_do_n_fits_register (cfg : FFTConfig) (draws : ℕ → Fin nx × Fin nx → ℝ) (nfits : ℕ) (xsh ysh : ℝ) (usfac : ℕ) (hu : 1 ≤ usfac)
    (width amp na : ℝ) (hw : width ≠ 0) (hna : na ≠ 0) (cx cy : ℤ) :
    ∃ l, doNFitsRegister cfg draws nfits xsh ysh usfac width amp na (.int cx) (.int cy) = .ok l ∧ l.length = nfits ∧
      ∀ k (hk : k < l.length), ∃ (im1 im2 reg : Fin nx × Fin nx → ℝ) (tol : Fl) (xoff yoff : ℝ),
        makeOffsetImages nx (draws k) xsh ysh width amp na (.int cx) (.int cy) = .ok (realArr im1, realArr im2, tol) ∧
        registerImages cfg (realArr im1) (realArr im2) usfac true false true none = .ok [.num xoff, .num yoff, .image (realArr reg)] ∧
        l[k] = (xoff, yoff, some ((∑ p, (im1 p - reg p) ^ 2) / ((nx : ℝ) * nx))) := by
  have hex : ∀ k : ℕ, ∃ (q : ℝ × ℝ × Pix) (im1 im2 reg : Fin nx × Fin nx → ℝ) (tol : Fl) (xoff yoff : ℝ),
        makeOffsetImages nx (draws k) xsh ysh width amp na (.int cx) (.int cy) = .ok (realArr im1, realArr im2, tol) ∧
        registerImages cfg (realArr im1) (realArr im2) usfac true false true none = .ok [.num xoff, .num yoff, .image (realArr reg)] ∧
        q = (xoff, yoff, some ((∑ p, (im1 p - reg p) ^ 2) / ((nx : ℝ) * nx))) := by
    intro k
    obtain ⟨im1, im2, tol, h1, -⟩ := C104_images nx (draws k) xsh ysh width amp na hw hna cx cy
    obtain ⟨dx, dy, h2⟩ := C49_registered_image cfg (realArr im1) (realArr im2) usfac hu true none
    exact ⟨_, im1, im2, _, tol, dx, dy, h1, h2, rfl⟩
  choose q im1 im2 reg tol xoff yoff h1 h2 h3 using hex
  refine ⟨(List.range nfits).map q, ?_, by simp, fun k hk => ⟨im1 k, im2 k, reg k, tol k, xoff k, yoff k, h1 k, h2 k, ?_⟩⟩
  · unfold doNFitsRegister
    refine mapM_ok _ _ _ fun k _ => ?_
    simp only [bind, Except.bind, h1 k, h2 k, pure, Except.pure, h3 k]
    have : (sumPix fun p => Option.map₂ (fun a b : ℝ => (a - b) ^ 2) (realArr (im1 k) p) (realArr (reg k) p))
        = some (∑ p, (im1 k p - reg k p) ^ 2) := by
      simp only [realArr, Option.map₂_some_some, sumPix_real]
    rw [this]
    simp
  · simp only [List.getElem_map, List.getElem_range]
    exact h3 k

/-- C109: `fit_extended_shifts` without taper always succeeds for images that `chi2_shift` accepts, and gives its four numbers and `nsigma`; with
`noise_taper=True` it fails. -/
theorem C109_fit_extended (cfg : FFTConfig) (st : Stats) (hst : Spec.validStats st) (sc : Bool) (g1 g2 randn : Fin nx × Fin nx → ℝ) (xsh ysh nsigma noise : ℝ) :
    (∃ e, fitExtendedShifts cfg st sc g1 g2 randn xsh ysh true nsigma noise = .error e) ∧
    (Spec.fits false nx nx → ∃ (off : Fin nx × Fin nx → Pix) (x y ex ey : ℝ),
      makeOffsetExtended cfg.hasFftw sc randn (makeExtended 2 g1 g2) xsh ysh noise false = .ok off ∧
      chi2Shift cfg st (makeExtended 2 g1 g2) off (.scalar noise) .auto false 2 false true false 512 1.1 false
        = .ok [.num x, .num y, .num ex, .num ey] ∧
      fitExtendedShifts cfg st sc g1 g2 randn xsh ysh false nsigma noise = .ok (x, y, ex, ey, nsigma)) := by
  constructor
  · refine ⟨if nx < 30 then .typeError else .attributeError, ?_⟩
    unfold fitExtendedShifts
    simp only [C106_taper, bind, Except.bind]
  · intro hf
    obtain ⟨s, -, -, h1⟩ := C106_image cfg cfg.hasFftw sc randn (makeExtended 2 g1 g2) xsh ysh noise
    obtain ⟨x, y, ex, ey, s1, s2, xv, yv, c, -, h2⟩ := C36_layout cfg st hst (makeExtended 2 g1 g2) (realArr fun p => s p + noise * randn p) (.scalar noise)
      .auto false 2 512 1.1 false hf (by simp [Spec.validUs])
    have h2' := h2 true false
    refine ⟨_, x, y, ex, ey, h1, by simpa using h2', ?_⟩
    unfold fitExtendedShifts
    simp only [h1, bind, Except.bind, Bool.false_eq_true, if_false, pure, Except.pure]
    rw [h2']
    simp

/-- C109: without `progressbar` a hundred noise tests are one; a method that always answers 7. -/
example (draws : ℕ → Fin 2 × Fin 2 → ℝ) (im : Fin 2 × Fin 2 → Pix) :
    registerNoiseTest false draws im im 100 1 (fun _ _ => .ok 7) = .ok [7] ∧
    registerNoiseTest true draws im im 3 1 (fun _ _ => .ok 7) = .ok [7, 7, 7] := ⟨rfl, rfl⟩

end ImgReg
