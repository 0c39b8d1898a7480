import Verif.Model.TestingMore
import Verif.Props.TestingFits
import Verif.Props.CrossCorrNoise

/-!
# Property C122: the comparison helpers of `image_registration.tests`
-/

open Complex Finset

namespace ImgReg

variable {ny nx : ℕ} [NeZero ny] [NeZero nx]

/-- the second image with the k-th noise added -/
noncomputable def Spec.noisy (im2 : Fin ny × Fin nx → Pix) (noise : ℝ) (draw : Fin ny × Fin nx → ℝ) : Fin ny × Fin nx → Pix :=
  fun p => (im2 p).map fun v => v + noise * draw p

/-- an image that is `c` where `im` is a number, and NaN elsewhere -/
noncomputable def Spec.constLike (im : Fin ny × Fin nx → Pix) (c : ℝ) : Fin ny × Fin nx → Pix := fun p => (im p).map fun _ => c

theorem compareTurn_eq (cfg : FFTConfig) (agpy : Agpy ny nx) (st : Stats) (hst : Spec.validStats st) (draw : Fin ny × Fin nx → ℝ)
    (im1 im2 : Fin ny × Fin nx → Pix) (noise : ℝ) (usfac : ℕ) (hu : 1 ≤ usfac) (hf : Spec.fits false ny nx) :
    ∃ (std : ℝ) (dxr dyr dxc dyc exc eyc : ℝ),
      (∀ re, registerImages cfg im1 (Spec.noisy im2 noise draw) usfac false re true none
        = .ok ([.num dxr, .num dyr] ++ if re then [.num (1 / usfac), .num (1 / usfac)] else [])) ∧
      chi2Shift cfg st im1 (Spec.noisy im2 noise draw) (.image (Spec.constLike im2 noise)) .auto false 2 false true false 512 1.1 false
        = .ok [.num dxc, .num dyc, .num exc, .num eyc] ∧
      compareTurn cfg agpy st draw im1 im2 noise usfac =
        match crossCorrelationShifts cfg agpy im1 (Spec.noisy im2 noise draw) none (some (Spec.constLike im2 std)) none false true true false with
        | .ok [a, b, c, d] => .ok ([.fin dxr, .fin dyr, a, b, .fin 0, .fin 0, .fin dxc, .fin dyc],
            [.fin (1 / usfac), .fin (1 / usfac), c, d, .fin 0, .fin 0, .fin exc, .fin eyc])
        | .ok _ => .error .valueError
        | .error e => .error e := by
  have hn : (fun p => (im2 p).map fun v => v + draw p * noise) = Spec.noisy im2 noise draw := by
    funext p; unfold Spec.noisy; simp only [mul_comm]
  have hc : ∀ c : ℝ, (fun p => (im2 p).map fun v => v * 0 + c) = Spec.constLike im2 c := by
    intro c; funext p; unfold Spec.constLike; simp only [mul_zero, zero_add]
  obtain ⟨dxr, dyr, im, hr⟩ := C48_layout cfg im1 (Spec.noisy im2 noise draw) usfac hu true none
  obtain ⟨dxc, dyc, exc, eyc, s1, s2, xv, yv, c, -, h2⟩ := C36_layout cfg st hst im1 (Spec.noisy im2 noise draw)
    (.image (Spec.constLike im2 noise)) .auto false 2 512 1.1 false hf (by simp [Spec.validUs])
  have h2' := h2 true false
  simp only [if_true, Bool.false_eq_true, if_false, List.append_nil, List.cons_append, List.nil_append] at h2'
  have hr' := hr false true
  simp only [if_true, Bool.false_eq_true, if_false, List.append_nil, List.cons_append, List.nil_append] at hr'
  refine ⟨npStd fun p => draw p * noise, dxr, dyr, dxc, dyc, exc, eyc, fun re => ?_, h2', ?_⟩
  · have := hr false re
    simpa only [Bool.false_eq_true, if_false, List.append_nil] using this
  · unfold compareTurn
    simp only [hn, hc, hr', bind, Except.bind, pure, Except.pure, h2']
    generalize crossCorrelationShifts cfg agpy im1 (Spec.noisy im2 noise draw) none _ none false true true false = r
    rcases r with e | l
    · rfl
    · rcases l with _ | ⟨a, _ | ⟨b, _ | ⟨c, _ | ⟨d, _ | ⟨e, l⟩⟩⟩⟩⟩ <;> rfl

/-- C122: `compare_methods` (with a positive `usfac` and images that the functions accept). If `cross_correlation_shifts` gives four values for
every noise realisation, whatever error image is passed (it has no effect without `gaussfit`), the call succeeds; there is one row per
realisation - `ntests` with the package `progressbar`, one without - and row k holds the shifts that `register_images`,
`cross_correlation_shifts` and `chi2_shift` find between `im1` and `im2` plus the k-th noise, with zeros where the Gaussian fit would be; the
second array holds their errors in the same order, `1/usfac` for `register_images`. -/
theorem C122_compare_methods (cfg : FFTConfig) (agpy : Agpy ny nx) (st : Stats) (hst : Spec.validStats st) (pb : Bool)
    (draws : ℕ → Fin ny × Fin nx → ℝ) (im1 im2 : Fin ny × Fin nx → Pix) (ntests : ℕ) (noise : ℝ) (usfac : ℕ) (hu : 1 ≤ usfac)
    (hf : Spec.fits false ny nx) (a b c d : ℕ → Fl)
    (hcc : ∀ k < (if pb then ntests else 1), ∀ e, crossCorrelationShifts cfg agpy im1 (Spec.noisy im2 noise (draws k)) none e none false true true
      false = .ok [a k, b k, c k, d k]) :
    ∃ offsets errors : List (List Fl), compareMethods cfg agpy st pb draws im1 im2 ntests noise usfac = .ok (offsets, errors) ∧
      offsets.length = (if pb then ntests else 1) ∧ errors.length = (if pb then ntests else 1) ∧
      ∀ k (h1 : k < offsets.length) (h2 : k < errors.length), ∃ dxr dyr dxc dyc exc eyc : ℝ,
        registerImages cfg im1 (Spec.noisy im2 noise (draws k)) usfac false false true none = .ok [.num dxr, .num dyr] ∧
        chi2Shift cfg st im1 (Spec.noisy im2 noise (draws k)) (.image (Spec.constLike im2 noise)) .auto false 2 false true false 512 1.1 false
          = .ok [.num dxc, .num dyc, .num exc, .num eyc] ∧
        offsets[k] = [.fin dxr, .fin dyr, a k, b k, .fin 0, .fin 0, .fin dxc, .fin dyc] ∧
        errors[k] = [.fin (1 / usfac), .fin (1 / usfac), c k, d k, .fin 0, .fin 0, .fin exc, .fin eyc] := by
  have ht : ∀ k, ∃ r : List Fl × List Fl, k < Spec.turns pb ntests → compareTurn cfg agpy st (draws k) im1 im2 noise usfac = .ok r ∧
      ∃ dxr dyr dxc dyc exc eyc : ℝ,
        registerImages cfg im1 (Spec.noisy im2 noise (draws k)) usfac false false true none = .ok [.num dxr, .num dyr] ∧
        chi2Shift cfg st im1 (Spec.noisy im2 noise (draws k)) (.image (Spec.constLike im2 noise)) .auto false 2 false true false 512 1.1 false
          = .ok [.num dxc, .num dyc, .num exc, .num eyc] ∧
        r.1 = [.fin dxr, .fin dyr, a k, b k, .fin 0, .fin 0, .fin dxc, .fin dyc] ∧
        r.2 = [.fin (1 / usfac), .fin (1 / usfac), c k, d k, .fin 0, .fin 0, .fin exc, .fin eyc] := by
    intro k
    obtain ⟨std, dxr, dyr, dxc, dyc, exc, eyc, h1, h2, h3⟩ := compareTurn_eq cfg agpy st hst (draws k) im1 im2 noise usfac hu hf
    refine ⟨_, fun hk => ⟨by rw [h3, hcc k hk], dxr, dyr, dxc, dyc, exc, eyc, h1 false, h2, rfl, rfl⟩⟩
  choose r hr using ht
  refine ⟨(List.range (Spec.turns pb ntests)).map fun k => (r k).1, (List.range (Spec.turns pb ntests)).map fun k => (r k).2, ?_,
    by simp [Spec.turns], by simp [Spec.turns], ?_⟩
  · unfold compareMethods
    rw [progress_ok pb ntests _ r fun k hk _ => (hr k hk).1]
    simp only [bind, Except.bind, pure, Except.pure, List.map_map, Function.comp_def]
  · intro k h1 h2
    have hk : k < Spec.turns pb ntests := by simpa using h1
    obtain ⟨-, dxr, dyr, dxc, dyc, exc, eyc, e1, e2, e3, e4⟩ := hr k hk
    refine ⟨dxr, dyr, dxc, dyc, exc, eyc, e1, e2, ?_, ?_⟩
    · simpa using e3
    · simpa using e4

theorem progress_error_first {β : Type} (pb : Bool) (n : ℕ) (f : Option ℕ × ℕ → Py β) (hn : 0 < Spec.turns pb n) (e : PyErr)
    (h : ∀ o, f (o, 0) = .error e) : (progressLoop pb n).zipIdx.mapM f = .error e := by
  cases pb with
  | true =>
    cases n with
    | zero => exact absurd hn (by simp [Spec.turns])
    | succ n =>
      unfold progressLoop
      simp only [if_true]
      rw [List.range_succ_eq_map]
      exact mapM_error f _ _ e (h _)
  | false => exact mapM_error f _ _ e (h _)

/-- C122: if the first image has no structure (`cross_correlation_shifts` then returns two values only, see C53, whatever the flags), or
`cross_correlation_shifts` fails for the first realisation, `compare_methods` fails as soon as one test is made: with ValueError, or with the error
of `cross_correlation_shifts`. -/
theorem C122_compare_methods_fails (cfg : FFTConfig) (agpy : Agpy ny nx) (st : Stats) (hst : Spec.validStats st) (pb : Bool)
    (draws : ℕ → Fin ny × Fin nx → ℝ) (im1 im2 : Fin ny × Fin nx → Pix) (ntests : ℕ) (hn : pb = true → 0 < ntests) (noise : ℝ) (usfac : ℕ)
    (hu : 1 ≤ usfac) (hf : Spec.fits false ny nx) :
    ((∃ v : ℝ, im1 = realArr fun _ => v) → compareMethods cfg agpy st pb draws im1 im2 ntests noise usfac = .error .valueError) ∧
    (∀ e, (∀ er, crossCorrelationShifts cfg agpy im1 (Spec.noisy im2 noise (draws 0)) none er none false true true false = .error e) →
      compareMethods cfg agpy st pb draws im1 im2 ntests noise usfac = .error e) := by
  have ht : 0 < Spec.turns pb ntests := by
    unfold Spec.turns; split_ifs with hp
    · exact hn hp
    · exact one_pos
  have key : ∀ e, compareTurn cfg agpy st (draws 0) im1 im2 noise usfac = .error e →
      compareMethods cfg agpy st pb draws im1 im2 ntests noise usfac = .error e := by
    intro e he
    unfold compareMethods
    rw [progress_error_first pb ntests _ ht e fun _ => he]
    rfl
  obtain ⟨std, dxr, dyr, dxc, dyc, exc, eyc, h1, h2, h3⟩ := compareTurn_eq cfg agpy st hst (draws 0) im1 im2 noise usfac hu hf
  constructor
  · rintro ⟨v, rfl⟩
    apply key
    have h0 : prep true (realArr fun _ : Fin ny × Fin nx => v) = fun _ => 0 := by
      rw [prep_real]
      funext p
      simp only [if_true, Spec.mean, Finset.sum_const, Finset.card_univ, nsmul_eq_mul, Fintype.card_prod, Fintype.card_fin]
      have := size_pos (ny := ny) (nx := nx)
      field_simp
      simp
    rw [h3, C53_no_signal cfg agpy _ _ _ _ none false true true false hf (fun i => by rw [h0]; simp [Spec.xcorr])
      ⟨0, by rw [h0]; simp [Spec.xcorr]⟩]
  · intro e he
    apply key
    rw [h3, he]

/-- C122: `run_tests` never returns: every call ends in an exception (`"…"+"…" % (eight values)` formats a string with four conversions). With
`maxoff` (the default is 20) and images that correlate it is a TypeError, already in the first fit. -/
theorem C122_run_tests (cfg : FFTConfig) (agpy : Agpy nx nx) (draws : ℕ → Fin nx × Fin nx → ℝ) (draw : Fin nx × Fin nx → ℝ)
    (xsh ysh amp : ℝ) (gaussfit : Bool) (nfits : ℕ) (maxoff : Option ℕ) :
    (∃ e, runTests cfg agpy draws draw xsh ysh amp gaussfit nfits maxoff = .error e) ∧
    (0 < nfits → ∀ mo image new tol, maxoff = some mo → Spec.fits false nx nx →
      makeOffsetImages nx (draws 0) xsh ysh 3 amp 1 (.int 50) (.int 50) = .ok (image, new, tol) →
      (∃ i, 0 < Spec.xcorr (prep true image) (prep true new) i) →
      runTests cfg agpy draws draw xsh ysh amp gaussfit nfits maxoff = .error .typeError) := by
  constructor
  · unfold runTests
    simp only [bind, Except.bind]
    split
    · exact ⟨_, rfl⟩
    · split
      · exact ⟨_, rfl⟩
      · split
        · exact ⟨_, rfl⟩
        · split
          · split_ifs
            · exact ⟨_, rfl⟩
            · exact ⟨_, rfl⟩
          · exact ⟨_, rfl⟩
  · rintro hn mo image new tol rfl hf hm hex
    have hd : doNFits nx draws nfits xsh ysh 3 amp 1 (.int 50) (.int 50)
        (fun a b => crossCorrelationShifts cfg agpy a b none none (some mo) false false true false) = .error .typeError := by
      obtain ⟨n, rfl⟩ : ∃ n, nfits = n + 1 := ⟨nfits - 1, by omega⟩
      unfold doNFits
      rw [List.range_succ_eq_map]
      refine mapM_error _ _ _ _ ?_
      simp only [bind, Except.bind, hm]
      exact C53_maxoff cfg agpy image new none none mo false false true false hf (Or.inl hex)
    unfold runTests
    rw [hd]
    rfl

/-- C122: `determine_error_offsets` never returns. -/
theorem C122_determine_error_offsets (cfg : FFTConfig) (agpy : Agpy 50 50) (draws : ℕ → ℕ → Fin 50 × Fin 50 → ℝ) (draw : ℕ → Fin 50 × Fin 50 → ℝ) :
    ∃ e, determineErrorOffsets cfg agpy draws draw = .error e := by
  unfold determineErrorOffsets
  obtain ⟨e, he⟩ := (C122_run_tests cfg agpy (draws 0) (draw 0) 1.5 1.5 ((10 : ℝ) ^ (1.5 + 1.5 * ((0 : ℕ) : ℝ) / 29)) false 200 (some 20)).1
  have : (List.range 30).mapM (fun a : ℕ =>
      runTests cfg agpy (draws a) (draw a) 1.5 1.5 ((10 : ℝ) ^ (1.5 + 1.5 * (a : ℝ) / 29)) false 200 (some 20)) = .error e := by
    rw [List.range_succ_eq_map]
    exact mapM_error (fun a : ℕ => runTests cfg agpy (draws a) (draw a) 1.5 1.5 ((10 : ℝ) ^ (1.5 + 1.5 * (a : ℝ) / 29)) false 200 (some 20)) 0 _ e he
  rw [this]
  exact ⟨e, rfl⟩

/-- C122: `error_test` (with a positive upsampling factor). For noise 0 it raises ZeroDivisionError. Otherwise it returns the offsets that
`register_images` finds for each realisation, their standard deviations, a third value that is NOT the difference between the mean offset and the
true one: it is the mean x offset plus `ysh` and the mean y offset plus `xsh` - and 3.05/(0.8·noise). -/
theorem C122_error_test (cfg : FFTConfig) (sc pb : Bool) (g1 g2 : Fin nx × Fin nx → ℝ) (draws : ℕ → Fin nx × Fin nx → ℝ) (xsh ysh : ℝ)
    (usf : ℕ) (hu : 1 ≤ usf) (nsamples : ℕ) (hn : pb = true → 0 < nsamples) (maxoff : Option ℕ) :
    errorTest cfg sc pb g1 g2 draws xsh ysh 0 usf nsamples maxoff = .error .zeroDivisionError ∧
    ∀ noise : ℝ, noise ≠ 0 → ∃ (r : ErrorTest) (x y : ℕ → ℝ) (T : ℕ), T = (if pb then nsamples else 1) ∧
      errorTest cfg sc pb g1 g2 draws xsh ysh noise usf nsamples maxoff = .ok r ∧
      (∀ k, ∃ off, makeOffsetExtended cfg.hasFftw sc (draws k) (makeExtended 2 g1 g2) xsh ysh noise false = .ok off ∧
        registerImages cfg (makeExtended 2 g1 g2) off usf false false true maxoff = .ok [.num (x k), .num (y k)]) ∧
      r.offsets = (List.range T).map (fun k => (x k, y k)) ∧
      r.std = (some (Real.sqrt ((∑ k ∈ range T, (x k - (∑ j ∈ range T, x j) / T) ^ 2) / T)),
        some (Real.sqrt ((∑ k ∈ range T, (y k - (∑ j ∈ range T, y j) / T) ^ 2) / T))) ∧
      r.mean = (some ((∑ k ∈ range T, x k) / T + ysh), some ((∑ k ∈ range T, y k) / T + xsh)) ∧
      r.signalToNoise = 3.05 / (0.8 * noise) := by
  have hfit : ∀ (noise : ℝ) (k : ℕ), ∃ dx dy : ℝ, ∃ off,
      makeOffsetExtended cfg.hasFftw sc (draws k) (makeExtended 2 g1 g2) xsh ysh noise false = .ok off ∧
      registerImages cfg (makeExtended 2 g1 g2) off usf false false true maxoff = .ok [.num dx, .num dy] := by
    intro noise k
    obtain ⟨s, -, -, h1⟩ := C106_image cfg cfg.hasFftw sc (draws k) (makeExtended 2 g1 g2) xsh ysh noise
    obtain ⟨dx, dy, im, hr⟩ := C48_layout cfg (makeExtended 2 g1 g2) (realArr fun p => s p + noise * draws k p) usf hu true maxoff
    have hr' := hr false false
    simp only [Bool.false_eq_true, if_false, List.append_nil] at hr'
    exact ⟨dx, dy, _, h1, hr'⟩
  set T := (if pb then nsamples else 1 : ℕ) with hT
  have hT0 : 0 < T := by
    rw [hT]; split_ifs with hp
    · exact hn hp
    · exact one_pos
  have hsz : (0 : ℝ) < 0.8 * (nx : ℝ) ^ 2 := by
    have : (0 : ℝ) < nx := by exact_mod_cast Nat.pos_of_ne_zero (NeZero.ne nx)
    positivity
  have main : ∀ (noise : ℝ), ∃ x y : ℕ → ℝ,
      (∀ k, ∃ off, makeOffsetExtended cfg.hasFftw sc (draws k) (makeExtended 2 g1 g2) xsh ysh noise false = .ok off ∧
        registerImages cfg (makeExtended 2 g1 g2) off usf false false true maxoff = .ok [.num (x k), .num (y k)]) ∧
      doNExtendedFits cfg.hasFftw sc pb g1 g2 draws nsamples xsh ysh 2 noise false 0
        (fun a b => registerImages cfg a b usf false false true maxoff) false false
        = .ok ((List.range T).map fun k => [.num (x k), .num (y k)]) := by
    intro noise
    choose x y h using hfit noise
    refine ⟨x, y, h, ?_⟩
    obtain ⟨l, h1, h2, h3⟩ := C109_number_of_fits cfg.hasFftw sc pb g1 g2 draws nsamples xsh ysh 2 noise 0 le_rfl
      (fun a b => registerImages cfg a b usf false false true maxoff) (fun k => [.num (x k), .num (y k)]) fun k _ => h k
    rw [h1]
    congr 1
    apply List.ext_getElem
    · rw [h2, List.length_map, List.length_range]
    · intro i i1 i2
      rw [h3 i i1]; simp
  constructor
  · obtain ⟨x, y, -, h⟩ := main 0
    unfold errorTest
    simp only [h, bind, Except.bind]
    rw [mapM_ok _ (fun r => match r with | [.num dx, .num dy] => (dx, dy) | _ => (0, 0))]
    · simp
    · intro r hr
      obtain ⟨k, -, rfl⟩ := List.mem_map.1 hr
      rfl
  · intro noise hnz
    obtain ⟨x, y, hk, h⟩ := main noise
    have hs : ∀ f : ℕ → ℝ, ((List.range T).map f).sum = ∑ k ∈ range T, f k := by
      intro f
      rw [Finset.sum_range, ← List.sum_ofFn]
      congr 1
      apply List.ext_getElem <;> simp
    have hne : ∀ f : ℕ → ℝ, (List.range T).map f ≠ [] := by
      intro f; simp; omega
    have hl : ∀ f : ℕ → ℝ, colMean ((List.range T).map f) = some ((∑ k ∈ range T, f k) / (T : ℝ)) := by
      intro f
      unfold colMean
      rw [if_neg (hne f), hs]
      simp
    have hd : ∀ f : ℕ → ℝ, colStd ((List.range T).map f)
        = some (Real.sqrt ((∑ k ∈ range T, (f k - (∑ j ∈ range T, f j) / T) ^ 2) / T)) := by
      intro f
      unfold colStd
      rw [if_neg (hne f), List.map_map, hs, hs]
      simp
    refine ⟨⟨(List.range T).map (fun k => (x k, y k)), (colStd ((List.range T).map x), colStd ((List.range T).map y)),
      ((colMean ((List.range T).map x)).map fun v => v + ysh, (colMean ((List.range T).map y)).map fun v => v + xsh),
      3.05 * (nx : ℝ) ^ 2 / (0.8 * (nx : ℝ) ^ 2 * noise)⟩, x, y, T, hT, ?_, hk, rfl, ?_, ?_, ?_⟩
    · unfold errorTest
      simp only [h, bind, Except.bind]
      rw [mapM_ok _ (fun r => match r with | [.num dx, .num dy] => (dx, dy) | _ => (0, 0))]
      · simp only [List.map_map, Function.comp_def]
        rw [if_neg (mul_ne_zero hsz.ne' hnz)]
        rfl
      · intro r hr
        obtain ⟨k, -, rfl⟩ := List.mem_map.1 hr
        rfl
    · simp only [hd]
    · simp only [hl, Option.map_some]
    · have : (nx : ℝ) ≠ 0 := by exact_mod_cast NeZero.ne nx
      simp only
      field_simp

/-- C122, non-vacuity of `C122_compare_methods`: a star moved by `(dy, dx) = (1, 2)` on a 10×9 detector, three tests whose draws are all 0; in
every row `cross_correlation_shifts` has the values (5/2, 1). -/
example (cfg : FFTConfig) (usfac : ℕ) (hu : 1 ≤ usfac) : ∃ offsets errors : List (List Fl),
    compareMethods cfg none none true (fun _ _ => 0) (realArr fun p : Fin 10 × Fin 9 => if p = (4, 3) then (1 : ℝ) else 0)
      (realArr (Spec.roll2 1 2 fun p : Fin 10 × Fin 9 => if p = (4, 3) then (1 : ℝ) else 0)) 3 1 usfac = .ok (offsets, errors) ∧
    offsets.length = 3 ∧ ∀ k (h : k < offsets.length), ∃ a b c d : ℝ,
      offsets[k] = [.fin a, .fin b, .fin (5 / 2), .fin 1, .fin 0, .fin 0, .fin c, .fin d] := by
  have hf : Spec.fits false 10 9 := Or.inr (by norm_num)
  have hz : ∀ im : Fin 10 × Fin 9 → Pix, Spec.noisy im 1 (fun _ => 0) = im := by
    intro im; funext p; unfold Spec.noisy; simp
  have hr := fun e => C50_roll cfg none _ (aperiodic_point ((4, 3) : Fin 10 × Fin 9)) 1 2 (by norm_num) (by norm_num) (by norm_num) (by norm_num) none e true
    false hf
  have hap : Spec.aperiodic (prep true (realArr fun p : Fin 10 × Fin 9 => if p = (4, 3) then (1 : ℝ) else 0)) := by
    rw [prep_real]; exact aperiodic_sub_const _ (aperiodic_point _)
  have hs : ∑ p, prep true (realArr fun p : Fin 10 × Fin 9 => if p = (4, 3) then (1 : ℝ) else 0) p ^ 2 = 89 / 90 := by
    rw [prep_real]
    have : ∀ p : Fin 10 × Fin 9, ((if p = (4, 3) then (1 : ℝ) else 0)
        - if true = true then Spec.mean (fun p : Fin 10 × Fin 9 => if p = (4, 3) then (1 : ℝ) else 0) else 0) ^ 2
        = (if p = (4, 3) then 1 - 2 / 90 else 0) + 1 / 8100 := by
      intro p
      have hm : Spec.mean (fun p : Fin 10 × Fin 9 => if p = (4, 3) then (1 : ℝ) else 0) = 1 / 90 := by
        unfold Spec.mean
        simp only [Finset.sum_ite_eq', Finset.mem_univ, if_true]
        norm_num
      rw [hm, if_pos rfl]
      split_ifs <;> norm_num
    rw [Finset.sum_congr rfl fun p _ => this p, Finset.sum_add_distrib, Finset.sum_ite_eq', if_pos (Finset.mem_univ _), Finset.sum_const]
    norm_num
  have hd : ∀ s t : ℤ, ¬ ((10 : ℤ) ∣ s ∧ (9 : ℤ) ∣ t) →
      2 * (Spec.autocorr (prep true (realArr fun p : Fin 10 × Fin 9 => if p = (4, 3) then (1 : ℝ) else 0)) 0 0
        - Spec.autocorr (prep true (realArr fun p : Fin 10 × Fin 9 => if p = (4, 3) then (1 : ℝ) else 0)) s t) = 2 := by
    intro s t hst
    rw [← sq_dist, prep_real, ← selfDist_point ((4, 3) : Fin 10 × Fin 9) s t hst]
    unfold Spec.selfDist
    exact Finset.sum_congr rfl fun p _ => by ring
  have h0 : Spec.autocorr (prep true (realArr fun p : Fin 10 × Fin 9 => if p = (4, 3) then (1 : ℝ) else 0)) 0 0 = 89 / 90 := by
    rw [← hs]
    unfold Spec.autocorr
    exact Finset.sum_congr rfl fun p _ => by rw [move_zero, sq]
  have hpr := prep_roll true (fun p : Fin 10 × Fin 9 => if p = (4, 3) then (1 : ℝ) else 0) 1 2
  have d1 := hd 0 1 (by norm_num)
  have d2 := hd 1 0 (by norm_num)
  have hcc : ∃ c d : Fl, ∀ e, crossCorrelationShifts cfg none (realArr fun p : Fin 10 × Fin 9 => if p = (4, 3) then (1 : ℝ) else 0)
      (realArr (Spec.roll2 1 2 fun p : Fin 10 × Fin 9 => if p = (4, 3) then (1 : ℝ) else 0)) none e none false true true false
      = .ok [.fin (5 / 2), .fin 1, c, d] := by
    have hx : Spec.xcorr (prep true (realArr fun p : Fin 10 × Fin 9 => if p = (4, 3) then (1 : ℝ) else 0))
        (Spec.roll2 1 2 (prep true (realArr fun p : Fin 10 × Fin 9 => if p = (4, 3) then (1 : ℝ) else 0))) (3, 2) = 89 / 90 := by
      rw [xcorr_roll, ← h0]; rfl
    have hq := roll_localFit (prep true (realArr fun p : Fin 10 × Fin 9 => if p = (4, 3) then (1 : ℝ) else 0)) 1 2 (3, 2)
      (by norm_num [Spec.zeroLag]) (by norm_num [Spec.zeroLag]) (by decide) (by decide) (by decide) (by decide)
    have hS : ∑ p, Spec.roll2 1 2 (prep true (realArr fun p : Fin 10 × Fin 9 => if p = (4, 3) then (1 : ℝ) else 0)) p ^ 2 = 89 / 90 := by
      rw [← hs]
      exact Spec.roll2_sum 1 2 fun p => prep true (realArr fun p : Fin 10 × Fin 9 => if p = (4, 3) then (1 : ℝ) else 0) p ^ 2
    have hall : ∀ e, ∃ rx ry, _ := fun e => C78_errors cfg none (realArr fun p : Fin 10 × Fin 9 => if p = (4, 3) then (1 : ℝ) else 0)
      (realArr (Spec.roll2 1 2 fun p : Fin 10 × Fin 9 => if p = (4, 3) then (1 : ℝ) else 0)) none e true false hf (3, 2) (by
        rw [hpr]
        have := Np.argmax_spec (Spec.xcorr (prep true (realArr fun p : Fin 10 × Fin 9 => if p = (4, 3) then (1 : ℝ) else 0))
          (Spec.roll2 1 2 (prep true (realArr fun p : Fin 10 × Fin 9 => if p = (4, 3) then (1 : ℝ) else 0))))
        rwa [Np.argmax_eq_of_unique (roll_peak _ hap 1 2 (3, 2) (by norm_num [Spec.zeroLag]) (by norm_num [Spec.zeroLag]))] at this)
      (by rw [hpr, hx]; norm_num) (by decide) (by decide)
      _ rfl 90 (89 / 90 * (89 / 90)) (8100 / 89) (by norm_num) (by rw [hpr, hS, hs]) (by rw [hpr, hx]; norm_num) (by norm_num)
      (by rw [hpr, hq]; simp only; norm_num; intro hc; linarith) (by rw [hpr, hq]; simp only; norm_num; intro hc; linarith)
    obtain ⟨c, d, hcd⟩ : ∃ c d : Fl, ∀ e, ∃ rx ry,
        crossCorrelationShifts cfg none (realArr fun p : Fin 10 × Fin 9 => if p = (4, 3) then (1 : ℝ) else 0)
          (realArr (Spec.roll2 1 2 fun p : Fin 10 × Fin 9 => if p = (4, 3) then (1 : ℝ) else 0)) none e none false false true false = .ok [rx, ry] ∧
        crossCorrelationShifts cfg none (realArr fun p : Fin 10 × Fin 9 => if p = (4, 3) then (1 : ℝ) else 0)
          (realArr (Spec.roll2 1 2 fun p : Fin 10 × Fin 9 => if p = (4, 3) then (1 : ℝ) else 0)) none e none false true true false = .ok [rx, ry, c, d] :=
      ⟨_, _, hall⟩
    refine ⟨c, d, fun e => ?_⟩
    obtain ⟨rx, ry, e1, e2⟩ := hcd e
    rw [hr e] at e1
    obtain ⟨rfl, rfl⟩ : rx = .fin (5 / 2) ∧ ry = .fin 1 := by
      have := Except.ok.inj e1
      norm_num at this
      exact ⟨this.1.symm, this.2.symm⟩
    exact e2
  obtain ⟨c, d, hcc⟩ := hcc
  obtain ⟨o, e, h1, h2, h3, h4⟩ := C122_compare_methods cfg none none trivial true (fun _ _ => 0)
    (realArr fun p : Fin 10 × Fin 9 => if p = (4, 3) then (1 : ℝ) else 0)
    (realArr (Spec.roll2 1 2 fun p : Fin 10 × Fin 9 => if p = (4, 3) then (1 : ℝ) else 0)) 3 1 usfac hu hf
    (fun _ => .fin (5 / 2)) (fun _ => .fin 1) (fun _ => c) (fun _ => d) (fun k _ e => by rw [hz]; exact hcc e)
  refine ⟨o, e, h1, h2, fun k hk => ?_⟩
  obtain ⟨a, b, cc, dd, -, -, -, -, h5, -⟩ := h4 k hk (by rw [h3, ← h2]; exact hk)
  exact ⟨a, b, cc, dd, h5⟩

/-- C122, non-vacuity of the second part of `C122_run_tests`: without noise and offset, images of 2×2 pixels do correlate, so `run_tests` raises
TypeError. -/
example (cfg : FFTConfig) (agpy : Agpy 2 2) (gaussfit : Bool) :
    runTests cfg agpy (fun _ _ => 0) (fun _ => 0) 0 0 1 gaussfit 1000 (some 20) = .error .typeError := by
  have hg : ∀ r2 : ℝ, testGauss 1 3 r2 = some (Real.exp (-r2 / 18)) := by
    intro r2
    unfold testGauss
    rw [if_neg (by norm_num)]
    norm_num
  let g : Fin 2 × Fin 2 → ℝ := fun i =>
    Real.exp (-(((((i.2 : ℕ) : ℤ) - 50 : ℤ) : ℝ) ^ 2 + ((((i.1 : ℕ) : ℤ) - 50 : ℤ) : ℝ) ^ 2) / 18)
  have hm : ∃ tol, makeOffsetImages 2 (fun _ => 0) 0 0 3 1 1 (.int 50) (.int 50) = .ok (realArr g, realArr g, tol) := by
    refine ⟨testTolerance 3 1 1, ?_⟩
    unfold makeOffsetImages
    simp only [one_ne_zero, if_false, hg, Option.map_some]
    congr 2
    · funext i
      show some _ = some _
      rw [Real.sq_sqrt (by exact_mod_cast add_nonneg (mul_self_nonneg _) (mul_self_nonneg _))]
      simp only [g]
      push_cast
      ring_nf
    · congr 1
      funext i
      show some _ = some _
      simp only [g]
      norm_num
  obtain ⟨tol, hm⟩ := hm
  refine (C122_run_tests cfg agpy (fun _ _ => 0) (fun _ => 0) 0 0 1 gaussfit 1000 (some 20)).2 (by norm_num) 20 _ _ _ rfl (Or.inr (by norm_num)) hm
    ⟨(0, 0), ?_⟩
  have hx : Spec.xcorr (prep true (realArr g)) (prep true (realArr g)) (0, 0) = ∑ p, prep true (realArr g) p ^ 2 := by
    unfold Spec.xcorr
    refine Finset.sum_congr rfl fun p _ => ?_
    have : Spec.move ((Spec.zeroLag 2 : ℤ) - (((0 : Fin 2) : ℕ) : ℤ)) ((Spec.zeroLag 2 : ℤ) - (((0 : Fin 2) : ℕ) : ℤ)) p = p := by
      have h := move_zero p
      simpa [Spec.zeroLag] using h
    rw [this, sq]
  rw [hx, prep_real]
  refine lt_of_le_of_ne (Finset.sum_nonneg fun p _ => sq_nonneg _) fun hc => ?_
  have hz := (Finset.sum_eq_zero_iff_of_nonneg fun p _ => sq_nonneg _).1 hc.symm
  have h1 := pow_eq_zero_iff (two_ne_zero) |>.1 (hz (0, 0) (Finset.mem_univ _))
  have h2 := pow_eq_zero_iff (two_ne_zero) |>.1 (hz (0, 1) (Finset.mem_univ _))
  have h3 : g (0, 0) = g (0, 1) := by linarith
  simp only [g, Real.exp_eq_exp] at h3
  norm_num at h3

end ImgReg
