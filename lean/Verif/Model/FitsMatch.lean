import Verif.Model.FitsHeader
import Verif.Model.Shift
import Verif.Model.IterZoom
import Mathlib.Data.List.Sort
import Mathlib.Analysis.Real.Sqrt
import Mathlib.Algebra.BigOperators.Fin

/-!
# Model of `FITS_tools/match_images.py` and of `cross_correlation_shifts_FITS`

Not modelled, and taken as parameters: the FITS reader, `reproject.reproject_interp`, the WCS library and the
registration method.  Images are two-dimensional, nonempty, without infinities.
-/

open Finset

namespace ImgReg

/-- A two-dimensional image. -/
structure Img where
  ny : ℕ
  nx : ℕ
  [hy : NeZero ny]
  [hx : NeZero nx]
  val : Fin ny × Fin nx → Pix

attribute [instance] Img.hy Img.hx

/-! ### Statistics -/

/-- all the pixels, in C order -/
def ravel {ny nx : ℕ} (a : Fin ny × Fin nx → Pix) : List Pix :=
  (List.finRange ny).flatMap fun i => (List.finRange nx).map fun j => a (i, j)

/-- `np.nanstd(a)`: standard deviation of the values that are not NaN; NaN if there are none. -/
noncomputable def Np.nanstd (l : List Pix) : Pix :=
  let vs := l.filterMap id
  if vs = [] then none
  else
    let m := vs.sum / vs.length
    some (Real.sqrt ((vs.map fun v => (v - m) ^ 2).sum / vs.length))

/-- `a.std()`: NaN if any value is -/
noncomputable def Np.std (l : List Pix) : Pix := if none ∈ l then none else Np.nanstd l

/-- median of the values that are not NaN; NaN if there are none (`np.nanmedian`) -/
noncomputable def Np.nanmedian (l : List Pix) : Pix :=
  open Classical in
  let vs := (l.filterMap id).mergeSort (fun a b => decide (a ≤ b))
  if vs = [] then none
  else if vs.length % 2 = 1 then some (vs.getD (vs.length / 2) 0)
  else some ((vs.getD (vs.length / 2 - 1) 0 + vs.getD (vs.length / 2) 0) / 2)

/-- `astropy.stats.mad_std(a, ignore_nan=True)`: 1.4826... times the median absolute deviation (a library function,
modelled after its documentation). -/
noncomputable def madStd (l : List Pix) : Pix :=
  match Np.nanmedian l with
  | none => none
  | some m => (Np.nanmedian (l.map fun p => p.map fun v => |v - m|)).map fun d => d * 1.482602218505602

/-! ### `match_fits` -/

/-- `image * (image > thr)` for one pixel: NaN compares as False and stays NaN. -/
noncomputable def cutPix (thr : Pix) (p : Pix) : Pix :=
  open Classical in
  match p, thr with
  | none, _ => none
  | some v, some t => some (v * if v > t then 1 else 0)
  | some v, none => some (v * 0)

/-- `(corr1[OK]*corr2[OK]).sum()` with `OK` the pixels that are finite in both. -/
noncomputable def okSum {ny nx : ℕ} (a b : Fin ny × Fin nx → Pix) : ℝ :=
  ∑ i, match a i, b i with
    | some u, some v => u * v
    | _, _ => 0

/-- The sigma cut (match_images.py:73-87 and cross_correlation_shifts.py:251-262) with the given noise estimates; `0` is
a falsy `sigma_cut` (`None`, `False`, `0`). -/
noncomputable def sigmaCutImages {ny nx : ℕ} (std : List Pix → Pix) (sigmaCut : ℝ) (im1 im2 : Fin ny × Fin nx → Pix) :
    (Fin ny × Fin nx → Pix) × (Fin ny × Fin nx → Pix) :=
  open Classical in
  if sigmaCut ≠ 0 then
    let std1 := std (ravel im1)
    let std2 := std (ravel im2)
    let corr1 := fun i => cutPix (std1.map fun t => t * sigmaCut) (im1 i)
    let corr2 := fun i => cutPix (std2.map fun t => t * sigmaCut) (im2 i)
    if okSum corr1 corr2 = 0 then (im1, im2) else (corr1, corr2)
  else (im1, im2)

/-- The world outside: what the readers and the reprojection do with a file `F` (or whatever the user passes); `K` are the
extra keyword arguments. `loadData = none` is Python's None. -/
structure FitsWorld (F K : Type) where
  loadHeader : F → Py Header
  loadData : F → Py (Option Img)
  reproject : F → Header → K → Py Img
  mkWcs : Header → Py Wcs

/-- the sigma cut of two images, once their shapes are known to be the same -/
noncomputable def cutSame (std : List Pix → Pix) (sigmaCut : ℝ) (im1 im2 : Img) : Py (Img × Img) :=
  if h : im2.ny = im1.ny ∧ im2.nx = im1.nx then
    let v2 : Fin im1.ny × Fin im1.nx → Pix := fun i => im2.val (Fin.cast h.1.symm i.1, Fin.cast h.2.symm i.2)
    let r := sigmaCutImages std sigmaCut im1.val v2
    .ok (⟨im1.ny, im1.nx, r.1⟩, ⟨im1.ny, im1.nx, r.2⟩)
  else .error .valueError

/-- `match_fits(fitsfile1, fitsfile2, header, sigma_cut, use_mad_std, return_header)` (match_images.py:34-94): the images
and the header.  Any further keyword arguments are ignored by the code. `noKw` is the empty `**kwargs`. -/
noncomputable def matchFits {F K : Type} (W : FitsWorld F K) (noKw : K) (file1 file2 : F) (header : Option Header)
    (sigmaCut : ℝ) (useMadStd : Bool) : Py (Img × Img × Header) := do
  let (header, image1) ← (match header with
    | none => do
      let h ← W.loadHeader file1
      let im ← W.loadData file1
      .ok (h, im)
    | some h => do
      let im ← W.reproject file1 h noKw
      .ok (h, some im) : Py (Header × Option Img))
  let image2 ← W.reproject file2 header noKw
  match image1 with
  | none => .error .attributeError
  | some image1 =>
    let (c1, c2) ← cutSame (if useMadStd then madStd else Np.nanstd) sigmaCut image1 image2
    return (c1, c2, header)

/-! ### `register_fits` -/

/-- A returned value. -/
inductive FitsRet where
  | num (r : ℝ)
  | img (i : Img)
  | shifted (ny nx : ℕ) (a : NdOut (Fin ny × Fin nx))
  | hdr (h : Header)

/-- The keyword arguments `register_fits` passes on: those `match_fits` has a parameter for, and the others. -/
structure RegKw (K : Type) where
  header : Option Header
  useMadStd : Option Bool
  rest : K

/-- `np.array([x,y])*cdelt` unpacked in two (match_images.py:169-170): a one-axis scale is broadcast, other lengths are a
ValueError. -/
def timesScale {n : ℕ} (x y : ℝ) (cdelt : Fin n → ℝ) : Py (ℝ × ℝ) :=
  if h : n = 2 then .ok (x * cdelt ⟨0, by omega⟩, y * cdelt ⟨1, by omega⟩)
  else if h : n = 1 then .ok (x * cdelt ⟨0, by omega⟩, y * cdelt ⟨0, by omega⟩)
  else .error .valueError

/-- `cdelt` (match_images.py:165-168) -/
def Wcs.linearScale (w : Wcs) : Fin w.naxis → ℝ :=
  match w.cd with
  | some c => fun i => c i i
  | none => w.cdelt

/-- `errimage` (match_images.py:153-156) -/
def errImage {F K : Type} (W : FitsWorld F K) (projKw : RegKw K → K) (errfile : Option F) (header : Header) (kw : RegKw K) :
    Py (Option Img) :=
  match errfile with
  | none => .ok none
  | some f =>
    if kw.header.isSome then .error .typeError
    else (W.reproject f header (projKw kw)).map some

/-- `register_fits(fitsfile1, fitsfile2, errfile, return_error, register_method, return_cropped_images,
return_shifted_image, return_header, sigma_cut, **kwargs)` (match_images.py:97-190).  `method` is `register_method`, called
with the two images, `err=` and all of the `**kwargs`; it must return four values.  `project_to_header(errfile, header,
**kwargs)` is a TypeError when `header` is among the kwargs; `use_mad_std`, if given, is passed to the reprojection,
for which `projKw` stands. -/
noncomputable def registerFits {F K : Type} (W : FitsWorld F K) (hasFftw : Bool) (noKw : K) (projKw : RegKw K → K)
    (method : Img → Img → Option Img → RegKw K → Py (List ℝ)) (file1 file2 : F) (errfile : Option F)
    (returnError returnCropped returnShifted returnHeader : Bool) (sigmaCut : ℝ) (kw : RegKw K) : Py (List FitsRet) := do
  let (im1, im2, header) ← matchFits W noKw file1 file2 kw.header sigmaCut (kw.useMadStd.getD true)
  let errimage ← errImage W projKw errfile header kw
  let offs ← method im1 im2 errimage kw
  match offs with
  | [xoff, yoff, exoff, eyoff] => do
    let wcs ← W.mkWcs header
    let cdelt := wcs.linearScale
    let (xw, yw) ← timesScale xoff yoff cdelt
    let (exw, eyw) ← timesScale exoff eyoff cdelt
    let returns := [.num xoff, .num yoff, .num xw, .num yw]
    let returns := if returnError then returns ++ [.num exoff, .num eyoff, .num exw, .num eyw] else returns
    let returns := if returnCropped then returns ++ [.img im1, .img im2] else returns
    let returns := if returnShifted then
        returns ++ [.shifted im2.ny im2.nx (shift2d ⟨hasFftw, false, 1⟩ (toC im2.val) (-xoff) (-yoff) 0 false true)] else returns
    return (if returnHeader then returns ++ [.hdr header] else returns)
  | _ => .error .valueError

/-- The default `register_method`, `chi2_shift_iterzoom` (match_images.py:98), with any values of its parameters.  An error
image of another shape, and returned values that are not numbers, do not occur before the method has failed. -/
noncomputable def iterzoomMethod {K : Type} (cfg : FFTConfig) (stats : Stats) (fuel : ℕ) (zeromean : Bool)
    (zoomShape rezoomShape : ℕ × ℕ) (rezoomFactor mindiff : ℝ) : Img → Img → Option Img → RegKw K → Py (List ℝ) :=
  fun im1 im2 err _ =>
    let e : ErrArg im1.ny im1.nx := match err with
      | none => .none
      | some e => if h : e.ny = im1.ny ∧ e.nx = im1.nx
          then .image fun i => e.val (Fin.cast h.1.symm i.1, Fin.cast h.2.symm i.2) else .none
    match chi2ShiftIterzoom cfg stats fuel im1.val im2.val e zeromean true false zoomShape rezoomShape rezoomFactor mindiff with
    | some (.ok l) => .ok (l.filterMap fun r => match r with | .num x => some x | _ => none)
    | some (.error e) => .error e
    | none => .error .exception

/-- `register_method=chi2_shift` with the given values of its parameters: it has no parameters `header` and
`use_mad_std`, so these kwargs are a TypeError (chi2_shifts.py:13-16). An error image of another shape is an IndexError
(`im2[err==0]`, chi2_shifts.py:489). -/
noncomputable def chi2Method {K : Type} (cfg : FFTConfig) (stats : Stats) (us : UsFactor) (zeromean : Bool) (nfitted : ℝ)
    (verbose : Bool) (maxAutoSize : ℕ) (maxNsig : ℝ) (allowHuge : Bool) : Img → Img → Option Img → RegKw K → Py (List ℝ) :=
  fun im1 im2 err kw => do
    let _ ← (if kw.header.isSome ∨ kw.useMadStd.isSome then .error .typeError else .ok () : Py Unit)
    let e : ErrArg im1.ny im1.nx ← match err with
      | none => .ok .none
      | some e => if h : e.ny = im1.ny ∧ e.nx = im1.nx
          then .ok (.image fun i => e.val (Fin.cast h.1.symm i.1, Fin.cast h.2.symm i.2)) else .error .indexError
    let l ← chi2Shift cfg stats im1.val im2.val e us zeromean nfitted verbose true false maxAutoSize maxNsig allowHuge
    return l.filterMap fun r => match r with | .num x => some x | _ => none

/-! ### `cross_correlation_shifts_FITS` -/

/-- `np.inner(np.array([[x,0],[0,y]]), cd)[[0,1],[0,1]]` (cross_correlation_shifts.py:270-271): the last axes must have
the same length. -/
def innerDiag {n : ℕ} (x y : ℝ) (cd : Fin n → Fin n → ℝ) : Py (ℝ × ℝ) :=
  if h : n = 2 then
    let i0 : Fin n := ⟨0, by omega⟩
    let i1 : Fin n := ⟨1, by omega⟩
    .ok (x * cd i0 i0 + 0 * cd i0 i1, 0 * cd i1 i0 + y * cd i1 i1)
  else .error .valueError

/-- `cross_correlation_shifts_FITS(fitsfile1, fitsfile2, return_cropped_images, sigma_cut, verbose, register_method,
**kwargs)` (cross_correlation_shifts.py:213-279); `method` includes the `**kwargs` and must return two values. -/
noncomputable def crossCorrelationShiftsFITS {F K : Type} (W : FitsWorld F K) (noKw : K)
    (method : Img → Img → Py (List ℝ)) (file1 file2 : F) (returnCropped : Bool) (sigmaCut : ℝ) : Py (List FitsRet) := do
  let header ← W.loadHeader file1
  let image2 ← W.reproject file2 header noKw
  let image1 ← W.loadData file1
  match image1 with
  | none => .error .attributeError
  | some image1 =>
    let (c1, c2) ← cutSame Np.std sigmaCut image1 image2
    let offs ← method c1 c2
    match offs with
    | [xoff, yoff] => do
      let wcs ← W.mkWcs header
      let (xw, yw) ← (match wcs.cd with
        | some cd => innerDiag xoff yoff cd
        | none => .ok (0, 0) : Py (ℝ × ℝ))
      return (if returnCropped then [.num xoff, .num yoff, .num xw, .num yw, .img image1, .img image2]
        else [.num xoff, .num yoff, .num xw, .num yw])
    | _ => .error .valueError

end ImgReg
