import Verif.Py
import Mathlib.Data.List.Basic
import Mathlib.Data.Fintype.Basic
import Mathlib.Data.Real.Basic

/-!
# Model of `image_registration/fft_tools/downsample.py`

Arrays are a shape and a value for every tuple of indices; the values outside of the shape are irrelevant.
-/

namespace ImgReg

/-- A 2-D array. -/
structure NArr2 where
  rows : ℕ
  cols : ℕ
  val : ℕ → ℕ → Pix

/-- An array of dimension `D`. -/
structure NArr (D : ℕ) where
  shape : Fin D → ℕ
  val : (Fin D → ℕ) → Pix

/-- `len(a[start::step])` for an axis of `n` elements, `step > 0` -/
def Np.strideLen (n start step : ℕ) : ℕ := (n - start + step - 1) / step

/-- `np.nanmean` of the values along an axis: the mean of the values that are not NaN, NaN if there are
none. -/
noncomputable def Np.nanmean (l : List Pix) : Pix :=
  let vs := l.filterMap id
  if vs = [] then none else some (vs.sum / (vs.length : ℝ))

/-- `a[:r, :c]` with `0 ≤ r`, `0 ≤ c` -/
def NArr2.crop (a : NArr2) (r c : ℕ) : NArr2 := ⟨min r a.rows, min c a.cols, a.val⟩

/-- `a[i::f, j::f]` -/
def NArr2.stride (a : NArr2) (i j f : ℕ) : NArr2 :=
  ⟨Np.strideLen a.rows i f, Np.strideLen a.cols j f, fun r c => a.val (i + r * f) (j + c * f)⟩

/-- `estimator(np.concatenate(lists of arrays), axis=0)`: ValueError for an empty list and for arrays of
different shapes; otherwise the estimator is applied to the stack of values at each pixel. -/
def NArr2.reduceStack (parts : List NArr2) (estimator : List Pix → Pix) : Py NArr2 :=
  match parts with
  | [] => .error .valueError
  | p :: ps =>
    if ∀ q ∈ ps, q.rows = p.rows ∧ q.cols = p.cols then
      .ok ⟨p.rows, p.cols, fun r c => estimator ((p :: ps).map fun q => q.val r c)⟩
    else .error .valueError

/-- `downsample(myarr, factor, estimator)` (downsample.py:11-29) for an integer `factor`.  For a negative
factor `range(factor)` is empty. -/
def downsample (myarr : NArr2) (factor : ℤ) (estimator : List Pix → Pix) : Py NArr2 :=
  if factor = 0 then .error .zeroDivisionError
  else
    let f := factor.toNat
    let ys := myarr.rows
    let xs := myarr.cols
    let crarr := myarr.crop (ys - ys % f) (xs - xs % f)
    let parts := (List.range f).flatMap fun j => (List.range f).map fun i => crarr.stride i j f
    NArr2.reduceStack parts estimator

/-- `downsample_cube(myarr, factor, ignoredim)` (downsample.py:30-42) for a 3-D array: swapping with a
nonexistent axis is numpy's AxisError (a ValueError); then the name `mean`, which is looked up before its
argument is computed, is not defined in the module. -/
def downsampleCube (_myarr : NArr 3) (factor ignoredim : ℤ) : Py (NArr 3) :=
  if ignoredim > 2 then .error .valueError
  else if factor = 0 then .error .zeroDivisionError
  else .error .nameError

/-- `downsample_1d(myarr, factor, estimator)` (downsample.py:44-61): the first statement reads the local
variable `xs` before it is assigned. -/
def downsample1d (_myarr : NArr 1) (_factor : ℤ) (_estimator : List Pix → Pix) : Py (NArr 1) :=
  .error .unboundLocalError

/-- a Python index of an axis: `-D ≤ axis < D` -/
def Np.normAxis (D : ℕ) (axis : ℤ) : Option (Fin D) :=
  if h : 0 ≤ axis ∧ axis < D then some ⟨axis.toNat, by omega⟩
  else if h : -(D : ℤ) ≤ axis ∧ axis < 0 then some ⟨(axis + D).toNat, by omega⟩
  else none

/-- `crarr[makeslice(ii)]` (downsample.py:91-96) -/
def NArr.stride {D : ℕ} (a : NArr D) (ax : Fin D) (i f : ℕ) : NArr D :=
  ⟨Function.update a.shape ax (Np.strideLen (a.shape ax) i f),
    fun idx => a.val (Function.update idx ax (i + idx ax * f))⟩

/-- as `NArr2.reduceStack` -/
def NArr.reduceStack {D : ℕ} (parts : List (NArr D)) (estimator : List Pix → Pix) : Py (NArr D) :=
  match parts with
  | [] => .error .valueError
  | p :: ps =>
    if ∀ q ∈ ps, ∀ d, q.shape d = p.shape d then
      .ok ⟨p.shape, fun idx => estimator ((p :: ps).map fun q => q.val idx)⟩
    else .error .valueError

/-- The cropped or extended array (downsample.py:78-89), for `f > 0`. -/
def cropOrExtend {D : ℕ} (myarr : NArr D) (f : ℕ) (ax : Fin D) (truncate : Bool) : NArr D :=
  let xs := myarr.shape ax
  if xs % f ≠ 0 then
    if truncate then ⟨Function.update myarr.shape ax (xs - xs % f), myarr.val⟩
    else ⟨Function.update myarr.shape ax (xs + (f - xs % f)),
      fun idx => if idx ax < xs then myarr.val idx else none⟩
  else myarr

/-- `downsample_axis(myarr, factor, axis, estimator, truncate)` (downsample.py:63-103).  For a negative
factor the list of slices is empty (or the extension has negative size): ValueError. -/
def downsampleAxis {D : ℕ} (myarr : NArr D) (factor axis : ℤ) (estimator : List Pix → Pix)
    (truncate : Bool) : Py (NArr D) :=
  match Np.normAxis D axis with
  | none => .error .indexError
  | some ax =>
    if factor = 0 then .error .zeroDivisionError
    else if factor < 0 then .error .valueError
    else
      let f := factor.toNat
      let crarr := cropOrExtend myarr f ax truncate
      NArr.reduceStack ((List.range f).map fun ii => crarr.stride ax ii f) estimator

end ImgReg
