import Verif.Model.Testing
import Verif.Model.CrossCorr

/-!
# Model of the comparison helpers

`compare_methods`, `error_test`, `run_tests`, `determine_error_offsets` of `image_registration/tests/registration_testing.py`.
`np.random.randn` is a parameter, as in `Verif/Model/Testing.lean`. Printing is not modelled, except for the format operation that fails.
-/

namespace ImgReg

variable {ny nx : ℕ}

/-- population standard deviation of the pixels, `a.std()` (registration_testing.py:496) -/
noncomputable def npStd (a : Fin ny × Fin nx → ℝ) : ℝ :=
  Real.sqrt ((∑ i, (a i - (∑ j, a j) / ((ny * nx : ℕ) : ℝ)) ^ 2) / ((ny * nx : ℕ) : ℝ))

/-- one turn of the loop of `compare_methods` (registration_testing.py:491-508): the row of offsets and the row of errors.  Each unpacking
`a, b, c, d = …` of a result that does not have four members is a ValueError. -/
noncomputable def compareTurn [NeZero ny] [NeZero nx] (cfg : FFTConfig) (agpy : Agpy ny nx) (st : Stats) (draw : Fin ny × Fin nx → ℝ)
    (im1 im2 : Fin ny × Fin nx → Pix) (noise : ℝ) (usfac : ℕ) : Py (List Fl × List Fl) := do
  let extraNoise := fun p => draw p * noise
  let noisy : Fin ny × Fin nx → Pix := fun p => (im2 p).map fun v => v + extraNoise p
  let r ← registerImages cfg im1 noisy usfac false true true none
  let errim2 : Fin ny × Fin nx → Pix := fun p => (im2 p).map fun v => v * 0 + npStd extraNoise
  match r with
  | [.num dxr, .num dyr, .num edxr, .num edyr] =>
    let c ← crossCorrelationShifts cfg agpy im1 noisy none (some errim2) none false true true false
    match c with
    | [dxccs, dyccs, edxccs, edyccs] =>
      let err : Fin ny × Fin nx → Pix := fun p => (im2 p).map fun v => v * 0 + noise
      let x ← chi2Shift cfg st im1 noisy (.image err) .auto false 2 false true false 512 1.1 false
      match x with
      | [.num dxchi, .num dychi, .num edxchi, .num edychi] =>
        return ([.fin dxr, .fin dyr, dxccs, dyccs, .fin 0, .fin 0, .fin dxchi, .fin dychi],
          [.fin edxr, .fin edyr, edxccs, edyccs, .fin 0, .fin 0, .fin edxchi, .fin edychi])
      | _ => .error .valueError
    | _ => .error .valueError
  | _ => .error .valueError

/-- `compare_methods(im1, im2, ntests, noise, usfac)` (registration_testing.py:460-511) without further keyword arguments; `noise` is the noise
level (the number, or what the function `noise` gives for `im2`), `draws k` the draws of the k-th turn. -/
noncomputable def compareMethods [NeZero ny] [NeZero nx] (cfg : FFTConfig) (agpy : Agpy ny nx) (st : Stats) (hasProgressbar : Bool)
    (draws : ℕ → Fin ny × Fin nx → ℝ) (im1 im2 : Fin ny × Fin nx → Pix) (ntests : ℕ) (noise : ℝ) (usfac : ℕ) :
    Py (List (List Fl) × List (List Fl)) := do
  let rows ← (progressLoop hasProgressbar ntests).zipIdx.mapM fun t => compareTurn cfg agpy st (draws t.2) im1 im2 noise usfac
  return (rows.map Prod.fst, rows.map Prod.snd)

/-- mean of a column, NaN for no rows (registration_testing.py:401) -/
noncomputable def colMean (l : List ℝ) : Pix := if l = [] then none else some (l.sum / l.length)

/-- standard deviation of a column, NaN for no rows (registration_testing.py:401) -/
noncomputable def colStd (l : List ℝ) : Pix :=
  if l = [] then none else some (Real.sqrt ((l.map fun v => (v - l.sum / l.length) ^ 2).sum / l.length))

/-- what `error_test` returns -/
structure ErrorTest where
  offsets : List (ℝ × ℝ)
  std : Pix × Pix
  mean : Pix × Pix
  signalToNoise : ℝ

/-- `error_test(xsh, ysh, noise, imsize, usf, nsamples, maxoff)` (registration_testing.py:382-401): fits of `register_images`; the third
value returned is `offsets.mean(axis=0)+np.array([ysh,xsh])`, and the ratio of two Python numbers raises ZeroDivisionError for noise 0.
Members other than two numbers in a fit do not occur. -/
noncomputable def errorTest [NeZero nx] (cfg : FFTConfig) (hasScipy hasProgressbar : Bool) (g1 g2 : Fin nx × Fin nx → ℝ)
    (draws : ℕ → Fin nx × Fin nx → ℝ) (xsh ysh noise : ℝ) (usf nsamples : ℕ) (maxoff : Option ℕ) : Py ErrorTest :=
  open Classical in do
  let fits ← doNExtendedFits cfg.hasFftw hasScipy hasProgressbar g1 g2 draws nsamples xsh ysh 2 noise false 0
    (fun a b => registerImages cfg a b usf false false true maxoff) false false
  let offsets ← fits.mapM fun r => match r with
    | [.num dx, .num dy] => pure (dx, dy)
    | _ => (.error .valueError : Py (ℝ × ℝ))
  let xs := offsets.map Prod.fst
  let ys := offsets.map Prod.snd
  let signal : ℝ := 3.05 * (nx : ℝ) ^ 2
  let noise : ℝ := 0.8 * (nx : ℝ) ^ 2 * noise
  if noise = 0 then .error .zeroDivisionError
  return ⟨offsets, (colStd xs, colStd ys), ((colMean xs).map fun v => v + ysh, (colMean ys).map fun v => v + xsh), signal / noise⟩

/-- `run_tests(xsh, ysh, imsize, amp, gaussfit, nfits, maxoff)` (registration_testing.py:294-307).  `errors[0]` of no fits at all is an
IndexError (`errors` is a number); the string with four conversions is formatted with eight values: TypeError
(registration_testing.py:302-305). -/
noncomputable def runTests [NeZero nx] (cfg : FFTConfig) (agpy : Agpy nx nx) (draws : ℕ → Fin nx × Fin nx → ℝ) (draw : Fin nx × Fin nx → ℝ)
    (xsh ysh amp : ℝ) (gaussfit : Bool) (nfits : ℕ) (maxoff : Option ℕ) : Py (List Fl) := do
  let _fits ← doNFits nx draws nfits xsh ysh 3 amp 1 (.int 50) (.int 50)
    (fun a b => crossCorrelationShifts cfg agpy a b none none maxoff false false true false)
  let (image, newImage, _) ← makeOffsetImages nx draw xsh ysh 3 amp 1 (.int 50) (.int 50)
  let r ← crossCorrelationShifts cfg agpy image newImage (some fun _ => some 1) (some fun _ => some 1) maxoff gaussfit true true false
  match r with
  | [_, _, _, _] => if nfits = 0 then .error .indexError else .error .typeError
  | _ => .error .valueError

/-- `determine_error_offsets()` (registration_testing.py:326-335): 30 calls of `run_tests` for amplitudes `np.logspace(1.5,3,30)` and 30 more
with `gaussfit`; `draws a` are the draws of the a-th call. What follows is not modelled, as it is never reached (C122). -/
noncomputable def determineErrorOffsets (cfg : FFTConfig) (agpy : Agpy 50 50) (draws : ℕ → ℕ → Fin 50 × Fin 50 → ℝ)
    (draw : ℕ → Fin 50 × Fin 50 → ℝ) : Py (List (List Fl) × List (List Fl)) := do
  let A ← (List.range 30).mapM fun a =>
    runTests cfg agpy (draws a) (draw a) 1.5 1.5 ((10 : ℝ) ^ (1.5 + 1.5 * (a : ℝ) / 29)) false 200 (some 20)
  let G ← (List.range 30).mapM fun a =>
    runTests cfg agpy (draws (30 + a)) (draw (30 + a)) 1.5 1.5 ((10 : ℝ) ^ (1.5 + 1.5 * (a : ℝ) / 29)) true 200 (some 20)
  return (A, G)

end ImgReg
