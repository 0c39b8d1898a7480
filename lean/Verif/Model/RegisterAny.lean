import Verif.Model.Register
import Verif.Model.CrossCorr

/-!
# `image_registration/register_images.py` once more: every number `usfac`, every integer `maxoff`

`Verif/Model/Register.lean` has `usfac : ℕ` (as documented) and `maxoff ≥ 0`.  The code never checks either: `usfac` may be a float or negative,
and a negative `maxoff` is a valid slice bound.  Here `usfac : ℝ` is any Python int or float (finite), `maxoff` is `None` or any int (a float
`maxoff` is a `TypeError` of the slice and not modelled).  `DEBUG=True` is not modelled.
-/

open Complex

namespace ImgReg

/-- Is index `i` inside the Python slice `maxoff:-maxoff` of an axis of length `n` (register_images.py:153-154, 198-199)? -/
def inSlice (n : ℕ) (maxoff : ℤ) (i : ℕ) : Prop :=
  (pySlice n maxoff (-maxoff)).1 ≤ i ∧ i < (pySlice n maxoff (-maxoff)).1 + (pySlice n maxoff (-maxoff)).2

/-- `CC[maxoff:-maxoff,:] = 0; CC[:,maxoff:-maxoff] = 0` (register_images.py:153-154, 198-199), for any integer. -/
noncomputable def zeroSlice {m n : ℕ} (maxoff : Option ℤ) (cc : Fin m × Fin n → CPix) : Fin m × Fin n → CPix :=
  open Classical in
  match maxoff with
  | none => cc
  | some k => fun i => if inSlice m k i.1 ∨ inSlice n k i.2 then some 0 else cc i

/-- The `usfac == 1` branch (register_images.py:144-174), as `dftregWhole`. -/
noncomputable def dftregWholeAny {m n : ℕ} [NeZero m] [NeZero n] (cfg : FFTConfig)
    (buf1 buf2 : Fin m × Fin n → CPix) (maxoff : Option ℤ) : PeakFit :=
  let ifft2 := (getFfts cfg).2
  let cc := zeroSlice maxoff (ifft2 (Np.mul buf1 (Np.conjA buf2)))
  let loc := absArgmax cc
  ⟨wrapPeak m loc.1, wrapPeak n loc.2, (cc loc).getD 0⟩

/-- The peak on the grid of half pixels (register_images.py:182-228), as `dftregHalf`. -/
noncomputable def dftregHalfAny {m n : ℕ} [NeZero m] [NeZero n] (cfg : FFTConfig)
    (buf1 buf2 : Fin m × Fin n → CPix) (maxoff : Option ℤ) : PeakFit :=
  let ifft2 := (getFfts cfg).2
  let cc := zeroSlice maxoff (ifft2 (Np.ifftshift2 (ccLarge buf1 buf2)))
  let loc := absArgmax cc
  ⟨(wrapPeak (2 * m) loc.1 : ℝ) / 2, (wrapPeak (2 * n) loc.2 : ℝ) / 2, (cc loc).getD 0⟩

/-- The `usfac > 2` refinement (register_images.py:232-281) around `(row2, col2)`, as `dftregRefine`; the sizes handed to `dftups` are the floats
`ceil(usfac*1.5)`, of which `np.arange` makes as many points. -/
noncomputable def dftregRefineAny {m n : ℕ} [NeZero m] [NeZero n]
    (buf1 buf2 : Fin m × Fin n → CPix) (usfac : ℝ) (row2 col2 : ℝ) : Py PeakFit := do
  let rowShift0 : ℝ := (pyRound (row2 * usfac) : ℝ) / usfac
  let colShift0 : ℝ := (pyRound (col2 * usfac) : ℝ) / usfac
  let size : ℕ := ⌈usfac * (3 / 2)⌉₊
  let dftshift : ℝ := ((size / 2 : ℕ) : ℝ)
  let roff := dftshift - rowShift0 * usfac
  let coff := dftshift - colShift0 * usfac
  let ups ← dftups (Np.mul buf2 (Np.conjA buf1)) (some size) (some size) usfac roff coff
  if h : ups.rows ≠ 0 ∧ ups.cols ≠ 0 then
    have : NeZero ups.rows := ⟨h.1⟩
    have : NeZero ups.cols := ⟨h.2⟩
    let cc := fun i => (Np.conjA ups.arr i).map fun z => z / ((m : ℂ) * n * (usfac : ℂ) ^ 2)
    let loc := absArgmax cc
    return ⟨rowShift0 + (((loc.1 : ℕ) : ℝ) - dftshift) / usfac,
      colShift0 + (((loc.2 : ℕ) : ℝ) - dftshift) / usfac, (cc loc).getD 0⟩
  else .error .valueError

/-- The shift and `CCmax` of `dftregistration` (register_images.py:132-305), for every number `usfac`. -/
noncomputable def dftregFitAny {m n : ℕ} [NeZero m] [NeZero n] (cfg : FFTConfig)
    (buf1 buf2 : Fin m × Fin n → CPix) (usfac : ℝ) (maxoff : Option ℤ) : Py PeakFit :=
  open Classical in
  if usfac = 0 then .error .valueError
  else if usfac = 1 then .ok (dftregWholeAny cfg buf1 buf2 maxoff)
  else do
    let half := dftregHalfAny cfg buf1 buf2 maxoff
    let fit ← if 2 < usfac then dftregRefineAny buf1 buf2 usfac half.row half.col else .ok half
    return ⟨if m = 1 then 0 else fit.row, if n = 1 then 0 else fit.col, fit.ccmax⟩

/-- `dftregistration` (register_images.py:78-325) for every number `usfac`: for a negative one neither branch of register_images.py:313-322
assigns `Greg`, and `output.append(Greg)` is an `UnboundLocalError`. -/
noncomputable def dftregistrationAny {m n : ℕ} [NeZero m] [NeZero n] (cfg : FFTConfig)
    (buf1 buf2 : Fin m × Fin n → CPix) (usfac : ℝ) (returnRegistered returnError : Bool)
    (maxoff : Option ℤ) : Py (List (DftVal m n)) :=
  open Classical in do
  let fit ← dftregFitAny cfg buf1 buf2 usfac maxoff
  let output : List (DftVal m n) := [.num fit.row, .num fit.col]
  let output := if returnError then output ++ [.num (1 / usfac), .num (1 / usfac)] else output
  if returnRegistered then
    if 0 < usfac then return output ++ [.spectrum (dftregGreg buf2 fit)]
    else .error .unboundLocalError
  else return output

/-- `register_images(im1, im2, usfac, return_registered, return_error, zeromean, maxoff=maxoff)` (register_images.py:9-75) for every number
`usfac` and every integer `maxoff`. -/
noncomputable def registerImagesAny {ny nx my mx : ℕ} [NeZero ny] [NeZero nx] (cfg : FFTConfig)
    (im1 : Fin ny × Fin nx → Pix) (im2 : Fin my × Fin mx → Pix) (usfac : ℝ)
    (returnRegistered returnError zeromean : Bool) (maxoff : Option ℤ) :
    Py (List (RegVal ny nx)) :=
  if h : ny = my ∧ nx = mx then do
    let im2 := fun i : Fin ny × Fin nx => im2 (Fin.cast h.1 i.1, Fin.cast h.2 i.2)
    let (fft2, ifft2) := getFfts cfg
    let im1fft := fft2 (regPrep zeromean im1)
    let im2fft := fft2 (regPrep zeromean im2)
    let output ← dftregistrationAny ⟨cfg.hasFftw, false, 1⟩ im1fft im2fft usfac returnRegistered returnError
      maxoff
    match output with
    | .num r :: .num c :: rest =>
      return [.num (-c), .num (-r)] ++ rest.map fun
        | .num v => .num v
        | .spectrum g => .image (Np.abs (Np.ifftshift2 (ifft2 g)))
    | _ => .error .indexError
  else .error .valueError

end ImgReg
