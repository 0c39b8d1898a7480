import Verif.Model.LeastSq
import Verif.Model.Chi2
import Verif.Model.Register
import Verif.Model.Kernel

/-!
# Model of `image_registration/tests/registration_testing.py`

The synthetic images and the helpers that `image_registration.tests` exports (the README builds its example with them).
`np.random.randn` is a parameter: the array of draws.  Plotting functions and pytest tests are not modelled.
-/

open Complex

namespace ImgReg

variable {ny nx : ℕ}

/-! ### `upsample_ft_raw` -/

/-- number of indices of the slice `a:b` of an axis of length `n`, for `0 ≤ a`, `0 ≤ b` -/
def rawSliceLen (n : ℕ) (a b : ℤ) : ℤ := max 0 (min b n - min a n)

/-- `upsample_ft_raw(buf1ft, buf2ft, zoomfac)` (registration_testing.py:17-37) for two spectra of the same shape and a non-negative
integer `zoomfac`.  The slices of registration_testing.py:31 have length `rawSliceLen`; the product is broadcast into them, which numpy
refuses with ValueError unless its length is that length or 1. `0/0.` of Python numbers raises ZeroDivisionError. -/
noncomputable def upsampleFtRaw [NeZero ny] [NeZero nx] (buf1ft buf2ft : Fin ny × Fin nx → CPix) (zoomfac : ℕ) : Py COut2 :=
  open Classical in
  if hz : zoomfac = 0 then .error .zeroDivisionError
  else
    have : NeZero (ny * zoomfac) := ⟨Nat.mul_ne_zero (NeZero.ne ny) hz⟩
    have : NeZero (nx * zoomfac) := ⟨Nat.mul_ne_zero (NeZero.ne nx) hz⟩
    let r0 : ℤ := pyRound ((ny * zoomfac : ℕ) / (zoomfac * 2 : ℝ))
    let r1 : ℤ := pyRound ((ny * zoomfac : ℕ) / (zoomfac * 2 : ℝ) * 3)
    let c0 : ℤ := pyRound ((nx * zoomfac : ℕ) / (zoomfac * 2 : ℝ))
    let c1 : ℤ := pyRound ((nx * zoomfac : ℕ) / (zoomfac * 2 : ℝ) * 3)
    let prod := Np.mul (Np.fftshift2 buf1ft) (Np.conjA (Np.fftshift2 buf2ft))
    if ((ny : ℤ) = rawSliceLen (ny * zoomfac) r0 r1 ∨ ny = 1) ∧ ((nx : ℤ) = rawSliceLen (nx * zoomfac) c0 c1 ∨ nx = 1) then
      let big : Fin (ny * zoomfac) × Fin (nx * zoomfac) → CPix := fun i =>
        if (r0 ≤ ((i.1 : ℕ) : ℤ) ∧ ((i.1 : ℕ) : ℤ) < r1) ∧ (c0 ≤ ((i.2 : ℕ) : ℤ) ∧ ((i.2 : ℕ) : ℤ) < c1) then
          prod (Fin.ofNat ny (((i.1 : ℕ) : ℤ) - r0).toNat, Fin.ofNat nx (((i.2 : ℕ) : ℤ) - c0).toNat)
        else some 0
      .ok ⟨ny * zoomfac, nx * zoomfac, Np.ifftn (Np.ifftshift2 big)⟩
    else .error .valueError

/-! ### `chi2` -/

/-- the number `chi2` returns: real, or complex when the images were upsampled -/
inductive Chi2Num where
  | real (v : Pix)
  | cplx (v : CPix)

/-- `np.abs(shift.shiftnd(im, (-dy, -dx)))` (registration_testing.py:55-56) -/
noncomputable def absShifted [NeZero ny] [NeZero nx] (hasFftw : Bool) (im : Fin ny × Fin nx → Pix) (dx dy : ℝ) :
    Fin ny × Fin nx → Pix :=
  fun p => (lsqShift hasFftw im dx dy p).map fun v => |v|

/-- one term of `(im1-im2s)**2/err**2` (registration_testing.py:58).  Division by 0 gives an infinity or NaN in numpy, NaN here. -/
noncomputable def chi2Term {K : Type} [Field K] (a b e : Option K) : Option K :=
  open Classical in
  match a, b, e with
  | some a, some b, some e => if e = 0 then none else some ((a - b) ^ 2 / e ^ 2)
  | _, _, _ => none

/-- `.sum()` of an array: NaN as soon as one pixel is NaN (registration_testing.py:58) -/
noncomputable def sumPix {K : Type} [AddCommMonoid K] {ι : Type} [Fintype ι] (a : ι → Option K) : Option K :=
  open Classical in
  if ∀ i, (a i).isSome then some (∑ i, (a i).getD 0) else none

/-- `upsample_image(im, upsample_factor=upsample, output_size=im.shape, xshift=xs, yshift=ys)` (registration_testing.py:49-51), which
returns an array of the shape of the image -/
noncomputable def chi2Upsampled [NeZero ny] [NeZero nx] (hasFftw : Bool) (im : Fin ny × Fin nx → Pix) (upsample : ℕ) (xs ys : ℝ) :
    Py (Fin ny × Fin nx → CPix) :=
  match upsampleImage ⟨hasFftw, false, 1⟩ (toC im) upsample (.pair ny nx) xs ys with
  | .error e => .error e
  | .ok r => if h : r.rows = ny ∧ r.cols = nx then .ok fun i => r.arr (Fin.cast h.1.symm i.1, Fin.cast h.2.symm i.2)
    else .error .valueError

/-- `chi2(im1, im2, dx, dy, err, upsample)` (registration_testing.py:39-58) for images of the same shape and an integer `upsample`. -/
noncomputable def chi2Helper [NeZero ny] [NeZero nx] (hasFftw : Bool) (im1 im2 : Fin ny × Fin nx → Pix) (dx dy : ℝ)
    (err : Option (Fin ny × Fin nx → Pix)) (upsample : ℕ) : Py Chi2Num :=
  let im1 := Np.nanToNum im1
  let im2 := Np.nanToNum im2
  let err : Fin ny × Fin nx → Pix := match err with
    | none => fun i => (im2 i).map fun v => v * 0 + 1
    | some e => e
  if 1 < upsample then do
    let im1 ← chi2Upsampled hasFftw im1 upsample 0 0
    let im2s ← chi2Upsampled hasFftw im2 upsample (-dx * upsample) (-dy * upsample)
    let err ← chi2Upsampled hasFftw err upsample (-dx * upsample) (-dy * upsample)
    return .cplx (sumPix fun p => chi2Term (im1 p) (im2s p) (err p))
  else
    let im2s := absShifted hasFftw im2 dx dy
    let err := absShifted hasFftw err dx dy
    return .real (sumPix fun p => chi2Term (im1 p) (im2s p) (err p))

/-! ### `make_offset_images` -/

/-- a centre coordinate: Python int or float -/
inductive Centre where
  | int (c : ℤ)
  | float (c : ℝ)

/-- `amp*np.exp(-r2/(2.*width**2))` at one pixel (registration_testing.py:79, 83): for width 0 the exponent is `-inf`, or NaN at
`r2 = 0` -/
noncomputable def testGauss (amp width r2 : ℝ) : Pix :=
  open Classical in
  if width = 0 then (if r2 = 0 then none else some (amp * 0)) else some (amp * Real.exp (-r2 / (2 * width ^ 2)))

/-- `3. * 1./np.sqrt(2*np.pi*width**2*amp/noiseamp)` for `noiseamp ≠ 0` (registration_testing.py:81): the root of a negative number
is NaN -/
noncomputable def testTolerance (width amp noiseamp : ℝ) : Fl :=
  open Classical in
  if 2 * Real.pi * width ^ 2 * amp / noiseamp < 0 then .nan
  else Fl.div 3 (Real.sqrt (2 * Real.pi * width ^ 2 * amp / noiseamp))

/-- `make_offset_images(xsh, ysh, imsize, width, amp, noiseamp, xcen, ycen)` (registration_testing.py:67-85); `randn` is the array of
draws, `imsize` is the size after `int()`, not negative.  The index arrays are integer arrays: subtracting a float in place is refused
with TypeError. -/
noncomputable def makeOffsetImages (imsize : ℕ) (randn : Fin imsize × Fin imsize → ℝ) (xsh ysh width amp noiseamp : ℝ)
    (xcen ycen : Centre) : Py ((Fin imsize × Fin imsize → Pix) × (Fin imsize × Fin imsize → Pix) × Fl) :=
  open Classical in
  match xcen, ycen with
  | .int xcen, .int ycen =>
    let X := fun i : Fin imsize × Fin imsize => ((i.2 : ℕ) : ℤ) - xcen
    let Y := fun i : Fin imsize × Fin imsize => ((i.1 : ℕ) : ℤ) - ycen
    let newR := fun i => Real.sqrt ((X i * X i + Y i * Y i : ℤ) : ℝ)
    let image := fun i => testGauss amp width (newR i ^ 2)
    if noiseamp = 0 then .error .zeroDivisionError
    else
      let tolerance := testTolerance width amp noiseamp
      let newImage := fun i => (testGauss amp width (((X i : ℝ) - xsh) ^ 2 + ((Y i : ℝ) - ysh) ^ 2)).map fun v => randn i * noiseamp + v
      .ok (image, newImage, tolerance)
  | _, _ => .error .typeError

/-! ### `make_extended` -/

/-- `imsize/2.-(1.-imsize % 2)` (registration_testing.py:104-105) -/
noncomputable def extCentre (n : ℕ) : ℝ := (n : ℝ) / 2 - (1 - ((n % 2 : ℕ) : ℝ))

/-- `rr` with `rr[rr == 0] = nan` (registration_testing.py:103-111) -/
noncomputable def extRadius (i : Fin ny × Fin nx) : Pix :=
  open Classical in
  let rr := Real.sqrt ((((i.2 : ℕ) : ℝ) - extCentre nx) ^ 2 + (((i.1 : ℕ) : ℝ) - extCentre ny) ^ 2)
  if rr = 0 then none else some rr

/-- `rr**p` (registration_testing.py:115-116): numpy's `nan**0.` is 1 -/
noncomputable def npPow (r : Pix) (p : ℝ) : Pix :=
  open Classical in
  match r with
  | some r => some (r ^ p)
  | none => if p = 0 then some 1 else none

/-- `powermap` (registration_testing.py:115-117); `g1` and `g2` are the two arrays of draws -/
noncomputable def extPowermap (powerlaw : ℝ) (g1 g2 : Fin ny × Fin nx → ℝ) (i : Fin ny × Fin nx) : CPix :=
  let amp := npPow (extRadius i) (-powerlaw / 2)
  some ((amp.map fun a => ((g1 i * a : ℝ) : ℂ) + ((g2 i * a : ℝ) : ℂ) * I).getD 0)

/-- `make_extended(imsize, imsize2, powerlaw)` (registration_testing.py:87-121): `nx = imsize`, `ny = imsize2` (`imsize2=None` means
`ny = nx`). -/
noncomputable def makeExtended [NeZero ny] [NeZero nx] (powerlaw : ℝ) (g1 g2 : Fin ny × Fin nx → ℝ) : Fin ny × Fin nx → Pix :=
  Np.abs (Np.fftshift2 (Np.ifftn (extPowermap powerlaw g1 g2)))

/-! ### `edge_weight`, `make_offset_extended` -/

/-- `edge_weight(imsize, smoothsize, power)` (registration_testing.py:133-136).  `smooth` never returns (C57), so the power is never
taken. -/
noncomputable def edgeWeight (hasScipy : Bool) (imsize : ℕ) (smoothsize : KWidth) (_power : ℝ) : Py NArr2 :=
  smooth hasScipy ⟨imsize, imsize, fun _ _ => some 1⟩ smoothsize .gaussian none true .max 6 (.fn NArr.sum)

/-- `make_offset_extended(img, xsh, ysh, noise, mode, noise_taper)` (registration_testing.py:123-131) for a 2-D image; `randn` is the array of
draws.  `mode` is not used by the code. -/
noncomputable def makeOffsetExtended [NeZero ny] [NeZero nx] (hasFftw hasScipy : Bool) (randn : Fin ny × Fin nx → ℝ)
    (img : Fin ny × Fin nx → Pix) (xsh ysh noise : ℝ) (noiseTaper : Bool) : Py (Fin ny × Fin nx → Pix) := do
  if noiseTaper then
    let _w ← edgeWeight hasScipy ny (.int 5) 2
  return fun p => (lsqShift hasFftw img (-xsh) (-ysh) p).map fun v => v + randn p * noise

/-! ### repeated fits -/

/-- the loop `for ii in progress(range(n))` (registration_testing.py:267, 284, 412, 449): `progress` is a `ProgressBar`, or, when the package
`progressbar` is missing, `def progress(x): yield x` (registration_testing.py:246-252), which yields the whole range once -/
def progressLoop (hasProgressbar : Bool) (n : ℕ) : List (Option ℕ) :=
  if hasProgressbar then (List.range n).map some else [none]

/-- `do_n_extended_fits(nfits, xsh, ysh, imsize, powerlaw, noise, unsharp_mask, zeropad, shift_func, doplot, noise_taper)`
(registration_testing.py:239-290).  `shiftFunc` is `shift_func` with its keyword arguments, `draws k` the noise of the k-th turn of the
loop; `gaussfit` and `maxoff` are not used by the code.  With zero padding the slices are floats: TypeError
(registration_testing.py:262).  `doplot` uses `offim` before it is assigned: UnboundLocalError (registration_testing.py:278; `pylab` is
assumed to be installed). -/
noncomputable def doNExtendedFits [NeZero nx] {β : Type} (hasFftw hasScipy hasProgressbar : Bool)
    (g1 g2 : Fin nx × Fin nx → ℝ) (draws : ℕ → Fin nx × Fin nx → ℝ) (nfits : ℕ) (xsh ysh powerlaw noise : ℝ) (unsharpMask : Bool)
    (zeropad : ℤ) (shiftFunc : (Fin nx × Fin nx → Pix) → (Fin nx × Fin nx → Pix) → Py β) (doplot noiseTaper : Bool) : Py (List β) := do
  let image := makeExtended powerlaw g1 g2
  if 0 < zeropad then .error .typeError
  if unsharpMask then
    (progressLoop hasProgressbar nfits).zipIdx.mapM fun t => do
      let _sm ← smooth hasScipy ⟨nx, nx, fun a b => image (Fin.ofNat nx a, Fin.ofNat nx b)⟩ (.int 5) .gaussian none true .max 6 (.fn NArr.sum)
      let offim ← makeOffsetExtended hasFftw hasScipy (draws t.2) image xsh ysh noise noiseTaper
      shiftFunc image offim
  else
    if doplot then .error .unboundLocalError
    (progressLoop hasProgressbar nfits).zipIdx.mapM fun t => do
      let offim ← makeOffsetExtended hasFftw hasScipy (draws t.2) image xsh ysh noise noiseTaper
      shiftFunc image offim

/-- `register_noise_test(im1, im2, ntests, noise, register_method)` (registration_testing.py:418-458); `noise` is the noise level,
`draws k` the draws of the k-th turn, `registerMethod` is `register_method` with its keyword arguments. -/
noncomputable def registerNoiseTest {β : Type} (hasProgressbar : Bool) (draws : ℕ → Fin ny × Fin nx → ℝ)
    (im1 im2 : Fin ny × Fin nx → Pix) (ntests : ℕ) (noise : ℝ)
    (registerMethod : (Fin ny × Fin nx → Pix) → (Fin ny × Fin nx → Pix) → Py β) : Py (List β) :=
  (progressLoop hasProgressbar ntests).zipIdx.mapM fun t =>
    registerMethod im1 fun p => (im2 p).map fun v => v + draws t.2 p * noise

/-- `register_accuracy_test(im1, im2, usf_range=[a, a+n])` (registration_testing.py:403-416).  `register_images` returns x first; the
code calls the two numbers `dy,dx` and stores `[dx,dy]`.  Without `progressbar` the upsampling factor is a `range` object, which
`dftregistration` compares with 2 (register_images.py:232): TypeError. -/
noncomputable def registerAccuracyTest [NeZero ny] [NeZero nx] (cfg : FFTConfig) (hasProgressbar : Bool) (im1 im2 : Fin ny × Fin nx → Pix)
    (a n : ℕ) : Py (List (ℝ × ℝ)) :=
  (progressLoop hasProgressbar n).mapM fun t =>
    match t with
    | none => .error .typeError
    | some k => do
      let out ← registerImages cfg im1 im2 (a + k) false false true none
      match out with
      | [.num dy, .num dx] => return (dx, dy)
      | _ => .error .valueError

/-- `fit_extended_shifts(xsh, ysh, imsize, noise_taper, nsigma, noise)` (registration_testing.py:141-149): `g1`, `g2` and `randn` are the draws;
`st` is scipy's statistics (as for `chi2_shift`); the result of `chi2_shift` (offsets and errors) and `nsigma`. -/
noncomputable def fitExtendedShifts [NeZero nx] (cfg : FFTConfig) (st : Stats) (hasScipy : Bool) (g1 g2 randn : Fin nx × Fin nx → ℝ)
    (xsh ysh : ℝ) (noiseTaper : Bool) (nsigma noise : ℝ) : Py (ℝ × ℝ × ℝ × ℝ × ℝ) := do
  let image := makeExtended 2 g1 g2
  let offsetImage ← makeOffsetExtended cfg.hasFftw hasScipy randn image xsh ysh noise noiseTaper
  if noiseTaper then
    let _w ← edgeWeight hasScipy nx (.int 5) 2
  let out ← chi2Shift cfg st image offsetImage (.scalar noise) .auto false 2 false true false 512 1.1 false
  match out with
  | [.num xoff, .num yoff, .num exoff, .num eyoff] => return (xoff, yoff, exoff, eyoff, nsigma)
  | _ => .error .valueError

/-- `do_n_fits(nfits, xsh, ysh, imsize, shift_func=…, **kwargs)` (registration_testing.py:187-210): `shiftFunc` is `shift_func` with its keyword
arguments; `imsize` is not negative. -/
noncomputable def doNFits {β : Type} (imsize : ℕ) (draws : ℕ → Fin imsize × Fin imsize → ℝ) (nfits : ℕ) (xsh ysh width amp noiseamp : ℝ)
    (xcen ycen : Centre) (shiftFunc : (Fin imsize × Fin imsize → Pix) → (Fin imsize × Fin imsize → Pix) → Py β) : Py (List β) :=
  (List.range nfits).mapM fun k => do
    let (image, newImage, _) ← makeOffsetImages imsize (draws k) xsh ysh width amp noiseamp xcen ycen
    shiftFunc image newImage

/-- `do_n_fits_register(nfits, xsh, ysh, imsize, usfac, **kwargs)` (registration_testing.py:212-237): rows `[xoff, yoff, chi2]` with
`chi2 = ((im1-reg)**2).sum() / im1.size`. -/
noncomputable def doNFitsRegister [NeZero nx] (cfg : FFTConfig) (draws : ℕ → Fin nx × Fin nx → ℝ) (nfits : ℕ)
    (xsh ysh : ℝ) (usfac : ℕ) (width amp noiseamp : ℝ) (xcen ycen : Centre) : Py (List (ℝ × ℝ × Pix)) :=
  (List.range nfits).mapM fun k => do
    let (im1, im2, _) ← makeOffsetImages nx (draws k) xsh ysh width amp noiseamp xcen ycen
    let out ← registerImages cfg im1 im2 usfac true false true none
    match out with
    | [.num xoff, .num yoff, .image reg] =>
      return (xoff, yoff, (sumPix fun p => Option.map₂ (fun a b : ℝ => (a - b) ^ 2) (im1 p) (reg p)).map fun v => v / ((nx * nx : ℕ) : ℝ))
    | _ => .error .valueError

end ImgReg
