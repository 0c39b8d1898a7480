import Verif.Model.Heap
import Verif.Model.IterZoom
import Mathlib.Data.Int.ModEq

/-!
# Model of the package on integer images

An array of a numpy integer dtype (a camera frame, an integer FITS image) keeps that dtype through `np.nan_to_num`, `**2`, binary `-` and `np.abs`:
the results of these are reduced to the range of the dtype (numpy wraps silently).  True division, `-` with a float mean, the FFTs and everything
computed from them are floating point, i.e. exact reals here.  The places of the package in which integer arithmetic is left are

* `im1**2` and `im2**2` in `chi2n_map` when `zeromean=False` (chi2_shifts.py:497, 504, 507),
* `image - minmax(image)` and `np.abs` before the first zoom of `iterative_zoom` (iterative_zoom.py:53, 65; 161, 173).

An integer error image is not modelled (`err**2` wraps too): the error is `None`, a number or a floating point image.  `bool` and object arrays are not
integer images.
-/

open Finset

namespace ImgReg

/-- A numpy integer dtype: `uint8` is `⟨8, false⟩`, `int16` is `⟨16, true⟩`. -/
structure IntType where
  bits : ℕ
  signed : Bool

/-- Reduction of an integer to the range of the dtype (numpy 1.20 integer arithmetic: two's complement for signed types, modulo `2^bits` for
unsigned types).  Used for chi2_shifts.py:497, 504, 507 and iterative_zoom.py:53, 65. -/
def IntType.wrap (t : IntType) (z : ℤ) : ℤ :=
  if t.signed then Int.bmod z (2 ^ t.bits) else z % 2 ^ t.bits

/-- an integer image as an image of numbers (`astype(float)`, which every float operation of the package does implicitly; chi2_shifts.py:478-482) -/
def intPix {ι : Type} (im : ι → ℤ) : ι → Pix := fun i => some ((im i : ℤ) : ℝ)

/-- `chi2n_map(im1, im2, err, boundary, …)` after the shape check, on images of the integer dtypes `t1` and `t2` (chi2_shifts.py:477-515).  With
`zeromean` the images become floats at line 478.  Otherwise `nan_to_num` and the masking keep the dtype and `im1**2`, `im2**2` are computed in it. -/
noncomputable def chi2nMapIntBody {ny nx : ℕ} (cfg : FFTConfig) (boundary : CorrBoundary) (t1 t2 : IntType)
    (im1 im2 : Fin ny × Fin nx → ℤ) (err : ErrArg ny nx) (zeromean reduced allowHuge : Bool) : Py (Chi2Map ny nx) :=
  if zeromean then chi2nMapBodyB cfg boundary (intPix im1) (intPix im2) err true reduced allowHuge
  else do
    let (im1, im2, errv, term3) ← (match err with
      | .image er => do
        let er := finiteVals (Np.nanToNum er)
        let im2 := fun i => open Classical in if er i = 0 then 0 else im2 i
        let im1 := fun i => open Classical in if er i = 0 then 0 else im1 i
        let er := fun i => open Classical in if er i = 0 then 1 else er i
        let t ← correlate2dB cfg boundary allowHuge (intPix fun i => t1.wrap (im1 i ^ 2)) (realArr fun i => 1 / er i ^ 2)
        pure (im1, im2, er, Term3.image (finiteVals t))
      | .scalar s => pure (im1, im2, fun _ => s, Term3.scalar (∑ i, ((t1.wrap (im1 i ^ 2) : ℤ) : ℝ) / s ^ 2))
      | .none => pure (im1, im2, fun _ => 1, Term3.scalar (∑ i, ((t1.wrap (im1 i ^ 2) : ℤ) : ℝ) / 1 ^ 2)) :
        Py ((Fin ny × Fin nx → ℤ) × (Fin ny × Fin nx → ℤ) × (Fin ny × Fin nx → ℝ) × Term3 ny nx))
    let term1 := ∑ i, ((t2.wrap (im2 i ^ 2) : ℤ) : ℝ) / errv i ^ 2
    let corr ← correlate2dB cfg boundary allowHuge (intPix im1) (realArr fun i => ((im2 i : ℤ) : ℝ) / errv i ^ 2)
    let term2 := fun i => -2 * finiteVals corr i
    let chi2 := fun i => term1 + term2 i + term3.at i
    let chi2 := if reduced then fun i => chi2 i / ((ny : ℝ) * nx - 2) else chi2
    return ⟨chi2, term1, term2, term3⟩

/-- `chi2n_map(im1, im2, err, boundary, …)` on integer images (chi2_shifts.py:434-520). -/
noncomputable def chi2nMapInt {ny nx my mx : ℕ} (cfg : FFTConfig) (boundary : CorrBoundary) (t1 t2 : IntType)
    (im1 : Fin ny × Fin nx → ℤ) (im2 : Fin my × Fin mx → ℤ) (err : ErrArg ny nx) (zeromean returnAll reduced allowHuge : Bool) :
    Py (Chi2Ret ny nx) :=
  if h : ny = my ∧ nx = mx then do
    let m ← chi2nMapIntBody cfg boundary t1 t2 im1 (fun i => im2 (Fin.cast h.1 i.1, Fin.cast h.2 i.2)) err zeromean reduced allowHuge
    return if returnAll then .all m else .only m.chi2
  else .error .valueError

/-- `chi2_shift(im1, im2, err, upsample_factor, boundary, …)` on integer images (chi2_shifts.py:13-252). -/
noncomputable def chi2ShiftInt {ny nx my mx : ℕ} [NeZero ny] [NeZero nx] (cfg : FFTConfig) (boundary : CorrBoundary) (stats : Stats)
    (t1 t2 : IntType) (im1 : Fin ny × Fin nx → ℤ) (im2 : Fin my × Fin mx → ℤ) (err : ErrArg ny nx) (usArg : UsFactor) (zeromean : Bool)
    (nfitted : ℝ) (verbose returnError returnChi2array : Bool) (maxAutoSize : ℕ) (maxNsig : ℝ) (allowHuge : Bool) : Py (List RetVal) := do
  let ret ← chi2nMapInt cfg boundary t1 t2 im1 im2 err zeromean true false allowHuge
  match ret with
  | .only _ => .error .valueError
  | .all cm => chi2ShiftRest cfg stats cm.chi2 usArg nfitted verbose returnError returnChi2array maxAutoSize maxNsig

/-- `minmax(image)` for an integer image (iterative_zoom.py:53) -/
noncomputable def intExtreme {ny nx : ℕ} [NeZero ny] [NeZero nx] (mm : MinMax) (image : Fin ny × Fin nx → ℤ) : ℤ :=
  match mm with
  | .min => image (Np.argmin fun i => ((image i : ℤ) : ℝ))
  | .max => image (Np.argmax fun i => ((image i : ℤ) : ℝ))

/-- `np.abs(delta_image[np.abs(delta_image)>0]).min()` for `delta_image = image - minmax(image)`, all in the integer dtype
(iterative_zoom.py:53, 65); `np.abs` of the most negative value is that value again. -/
noncomputable def minDeltaInt {ny nx : ℕ} [NeZero ny] [NeZero nx] (t : IntType) (mm : MinMax) (image : Fin ny × Fin nx → ℤ) : Option ℝ :=
  let mag := fun i => t.wrap |t.wrap (image i - intExtreme mm image)|
  let sel := univ.filter fun i => mag i > 0
  if h : sel.Nonempty then some (Np.minOver sel h fun i => ((mag i : ℤ) : ℝ)) else none

/-- `iterative_zoom(image, …)` on an image of integer dtype `t` (iterative_zoom.py:5-122): the first test of the loop condition uses the integer
difference image; after the first zoom everything is floating point, as in `iterativeZoom`. -/
noncomputable def iterativeZoomInt {ny nx : ℕ} [NeZero ny] [NeZero nx] (hasFftw : Bool) (fuel : ℕ) (t : IntType)
    (image : Fin ny × Fin nx → ℤ) (mindiff : ℝ) (zoomshape : ℕ × ℕ) (zoomstep : ℝ) (mm : MinMax)
    (returnZoomed returnCenter : Bool) : Option (Py IterZoomRes) :=
  open Classical in
  let start : ZoomState := ⟨⟨ny, nx, inferInstance, inferInstance, finiteVals (intPix image),
    fun i => ((i.1 : ℕ) : ℝ), fun i => ((i.2 : ℕ) : ℝ)⟩, 1, none, (0, 0)⟩
  let zoomOn := fun (center : ℝ × ℝ) zf =>
    zoomOnPixel2 ⟨hasFftw, false, 1⟩ (toC (intPix image)) [center.1, center.2] zf (some zoomshape) true true >>= viewOf2
  let mid := (((ny : ℝ) - 1) / 2, ((nx : ℝ) - 1) / 2)
  let loop : Option (Py ZoomState) :=
    match fuel with
    | 0 => none
    | fuel + 1 =>
      match minDeltaInt t mm image with
      | none => some (.error .valueError)
      | some d =>
        if d > mindiff then
          match zoomStep zoomOn mid mm zoomstep start with
          | .error e => some (.error e)
          | .ok s' =>
            if ∀ i, s'.view.delta mm i = 0 then some (.ok s')
            else zoomLoop zoomOn mid mm zoomstep mindiff fuel s'
        else some (.ok start)
  loop.map fun r => r >>= zoomFinish (fun c => [c.1, c.2]) returnZoomed returnCenter

end ImgReg
