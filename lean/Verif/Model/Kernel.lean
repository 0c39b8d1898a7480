import Verif.Model.Downsample
import Verif.Model.CrossCorr
import Mathlib.Analysis.SpecialFunctions.Exp
import Mathlib.Analysis.SpecialFunctions.Pow.Real
import Mathlib.Data.Fintype.Pi
import Mathlib.Data.Fintype.BigOperators
import Mathlib.Order.Interval.Finset.Nat

/-!
# Model of `image_registration/fft_tools/smooth_tools.py`

`astropy.convolution.convolve_fft` is never reached (C57), so it does not appear.
-/

open Finset

namespace ImgReg

/-- the valid index tuples of an array -/
def NArr.cells {D : ℕ} (shape : Fin D → ℕ) : Finset (Fin D → ℕ) :=
  Fintype.piFinset fun d => Finset.range (shape d)

/-- `np.sum(a)`: NaN as soon as one pixel is NaN -/
noncomputable def NArr.sum {D : ℕ} (a : NArr D) : Pix :=
  open Classical in
  if ∀ p ∈ NArr.cells a.shape, a.val p ≠ none then some (∑ p ∈ NArr.cells a.shape, (a.val p).getD 0) else none

/-- `np.max(a)` of an array with at least one pixel: NaN as soon as one pixel is NaN -/
noncomputable def NArr.max {D : ℕ} (a : NArr D) : Pix :=
  open Classical in
  if h : (NArr.cells a.shape).Nonempty ∧ ∀ p ∈ NArr.cells a.shape, a.val p ≠ none then
    some ((NArr.cells a.shape).sup' h.1 fun p => (a.val p).getD 0) else none

/-- `a / s` for a scalar `s`.  `0/0` is NaN; a nonzero number over 0 is an infinity in numpy and NaN here. -/
noncomputable def NArr.divScalar {D : ℕ} (a : NArr D) (s : Pix) : NArr D :=
  ⟨a.shape, fun p => match a.val p, s with
    | some x, some y => if y = 0 then none else some (x / y)
    | _, _ => none⟩

/-- the argument `normalize_kernel`: a function, `True`, or something that cannot be called (`False`) -/
inductive NormArg (D : ℕ) where
  | fn (f : NArr D → Pix)
  | true
  | notCallable

/-- `kernelwidth`: a Python int or a float -/
inductive KWidth where
  | int (w : ℤ)
  | float (w : ℝ)

/-- its numerical value -/
def KWidth.val : KWidth → ℝ
  | .int w => w
  | .float w => w

/-- the values of `kerneltype` the code compares with (smooth_tools.py:152-183); `other` is any other value -/
inductive KType where
  | gaussian | boxcar | tophat | brickwall | airy | trapezoid | other
  deriving DecidableEq

/-- `rr` of the gaussian kernel (smooth_tools.py:153): distance from the pixel `(x.max()+1)//2`, where
`x.max()` is `n-1` -/
noncomputable def rrGauss {D : ℕ} (shape p : Fin D → ℕ) : ℝ :=
  Real.sqrt (∑ d, ((p d : ℝ) - (((shape d - 1 + 1) / 2 : ℕ) : ℝ)) ^ 2)

/-- `rr` of the other kernels (smooth_tools.py:166, 177, 184): distance from `x.max()/2.` -/
noncomputable def rrMid {D : ℕ} (shape p : Fin D → ℕ) : ℝ :=
  Real.sqrt (∑ d, ((p d : ℝ) - ((shape d - 1 : ℕ) : ℝ) / 2) ^ 2)

/-- `np.exp(-(rr**2)/(2.*kernelwidth**2))` at one pixel (smooth_tools.py:154): for width 0 the exponent is
`-0./0.` = NaN at the centre and `-inf` elsewhere. -/
noncomputable def gaussPix (w r : ℝ) : Pix :=
  if w = 0 then (if r = 0 then none else some 0) else some (Real.exp (-(r ^ 2) / (2 * w ^ 2)))

/-- `kernel / normalize_kernel(kernel)` (smooth_tools.py:155, 164, 170) -/
noncomputable def normalizeKernel {D : ℕ} (nk : NormArg D) (k : NArr D) : Py (NArr D) :=
  match nk with
  | .fn f => .ok (k.divScalar (f k))
  | .true => .ok (k.divScalar k.sum)
  | .notCallable => .error .typeError

/-- `slice(center - (kernelwidth)//2, center + (kernelwidth+1)//2)` of an axis of `n` pixels
(smooth_tools.py:161-162), as (start, length) -/
def boxSlice (n : ℕ) (w : ℤ) : ℕ × ℕ :=
  let center : ℤ := n - (n + 1) / 2
  pySlice n (center - w / 2) (center + (w + 1) / 2)

/-- `zeros(kernelshape)` with 1.0 in the slices (smooth_tools.py:158-163) -/
noncomputable def boxKernel {D : ℕ} (shape : Fin D → ℕ) (w : ℤ) : NArr D :=
  ⟨shape, fun p => open Classical in
    if ∀ d, (boxSlice (shape d) w).1 ≤ p d ∧ p d < (boxSlice (shape d) w).1 + (boxSlice (shape d) w).2
    then some 1 else some 0⟩

/-- `zz` of the trapezoid kernel (smooth_tools.py:184-188) -/
noncomputable def trapKernel {D : ℕ} (shape : Fin D → ℕ) (h : (NArr.cells shape).Nonempty) (w slope : ℝ) :
    NArr D :=
  let rrmax := (NArr.cells shape).sup' h (rrMid shape)
  ⟨shape, fun p =>
    let zz := rrmax - rrMid shape p * slope
    let zz := if zz < 0 then 0 else zz
    some (if rrMid shape p < w then 1 else zz)⟩

/-- `make_kernel(kernelshape, kernelwidth, kerneltype, trapslope, normalize_kernel, force_odd)`
(smooth_tools.py:106-193) for at least one dimension.  `hasScipy` says whether `import scipy.special`
succeeds; `j1` is not defined in the module, so the airy branch raises NameError.  A dimension of size 0 (or,
after `force_odd`, `-1`) makes `x.max()` of an empty array (`np.zeros`) raise ValueError; only a boxcar of
size 0 without `force_odd` is returned (empty). -/
noncomputable def makeKernel {D : ℕ} (hasScipy : Bool) (kernelshape : Fin D → ℕ) (kernelwidth : KWidth)
    (kerneltype : KType) (trapslope : Option ℝ) (nk : NormArg D) (forceOdd : Bool) : Py (NArr D) :=
  let shape := if forceOdd then fun d => if kernelshape d % 2 = 0 then kernelshape d - 1 else kernelshape d
    else kernelshape
  open Classical in
  let empty : Prop := ∃ d, kernelshape d = 0
  match kerneltype with
  | .gaussian =>
    if empty then .error .valueError
    else normalizeKernel nk ⟨shape, fun p => gaussPix kernelwidth.val (rrGauss shape p)⟩
  | .boxcar =>
    if empty ∧ forceOdd = true then .error .valueError
    else match kernelwidth with
    | .int w => normalizeKernel nk (boxKernel shape w)
    | .float _ => .error .typeError
  | .tophat =>
    if empty then .error .valueError
    else normalizeKernel nk
      ⟨shape, fun p => if rrMid shape p < kernelwidth.val then some 1 else some 0⟩
  | .brickwall | .airy =>
    if hasScipy then (if empty then .error .valueError else .error .nameError) else .error .importError
  | .trapezoid =>
    if h : (NArr.cells shape).Nonempty ∧ ¬ empty then
      match trapslope with
      | none => .error .valueError
      | some slope =>
        if slope = 0 then .error .valueError
        else
          let zz := trapKernel shape h.1 kernelwidth.val slope
          .ok (zz.divScalar zz.sum)
    else .error .valueError
  | .other => .error .unboundLocalError

/-- the argument `nwidths`: the string `'max'` or a number -/
inductive NWidths where
  | max
  | num (n : ℝ)

/-- `smooth(image, ...)` (smooth_tools.py:7-103) for a 2-D image, under Python 3.  What is returned is never
computed (see C57), so the result type is a mere placeholder.  `np.indices` with the float `dimsize` raises
TypeError (smooth_tools.py:65); `kwargs.has_key` raises AttributeError (smooth_tools.py:85).  The prints are
left out, except that `kernel.max()` of an empty kernel raises ValueError. -/
noncomputable def smooth (hasScipy : Bool) (image : NArr2) (kernelwidth : KWidth) (kerneltype : KType)
    (trapslope : Option ℝ) (silent : Bool) (nwidths : NWidths) (minNwidths : ℝ) (nk : NormArg 2) :
    Py NArr2 :=
  open Classical in
  let nwidths := if kernelwidth.val * minNwidths > image.rows ∨ kernelwidth.val * minNwidths > image.cols
    then NWidths.num minNwidths else nwidths
  match nwidths with
  | .num _ => .error .typeError
  | .max => do
    let shape : Fin 2 → ℕ := ![image.rows + image.rows % 2, image.cols + image.cols % 2]
    let _kernel ← makeKernel hasScipy shape kernelwidth kerneltype trapslope nk false
    if silent = false ∧ ∃ d, shape d = 0 then .error .valueError
    else .error .attributeError

end ImgReg
