import Verif.Model.Chi2
import Verif.Model.Upsample

/-!
# Model of `image_registration/register_images.py`

`DEBUG=True` (plots and prints through `pylab`) is not modelled.  `usfac` is a non-negative Python int
and `maxoff` is `None` or a non-negative int.
-/

open Complex

namespace ImgReg

/-- Python's `round(x)` for a float: to the nearest integer, ties to the even one
(register_images.py:237-238). -/
noncomputable def pyRound (x : ℝ) : ℤ :=
  open Classical in
  if x - ⌊x⌋ < 1 / 2 then ⌊x⌋
  else if 1 / 2 < x - ⌊x⌋ then ⌊x⌋ + 1
  else if Even ⌊x⌋ then ⌊x⌋ else ⌊x⌋ + 1

/-- Is index `i` inside the slice `maxoff:-maxoff` of an axis of length `n`
(register_images.py:153-154, 198-199)?  For `maxoff = 0` the slice is `0:0`, which is empty. -/
def inMiddle (n maxoff i : ℕ) : Prop := maxoff ≠ 0 ∧ maxoff ≤ i ∧ i + maxoff < n

/-- `CC[maxoff:-maxoff,:] = 0; CC[:,maxoff:-maxoff] = 0` (register_images.py:153-154, 198-199). -/
noncomputable def zeroMiddle {m n : ℕ} (maxoff : Option ℕ) (cc : Fin m × Fin n → CPix) :
    Fin m × Fin n → CPix :=
  open Classical in
  match maxoff with
  | none => cc
  | some k => fun i => if inMiddle m k i.1 ∨ inMiddle n k i.2 then some 0 else cc i

/-- `np.unravel_index(abs(CC).argmax(), CC.shape)` (register_images.py:148, 155, 193, 200, 266); no NaN
can be left in `CC`. -/
noncomputable def absArgmax {m n : ℕ} [NeZero m] [NeZero n] (cc : Fin m × Fin n → CPix) :
    Fin m × Fin n := Np.argmax (finiteVals (Np.abs cc))

/-- `row_shift = rloc - m if rloc > fix(m/2) else rloc` (register_images.py:162-172, 218-226);
`fix(m/2)` and `trunc(m/2)` of a non-negative int are `m // 2`. -/
def wrapPeak (m : ℕ) (rloc : ℕ) : ℤ := if m / 2 < rloc then (rloc : ℤ) - m else rloc

/-- `CClarge` (register_images.py:182-187): the zero-centred cross spectrum embedded in a twice as
large array; the row slice is `m - m//2 : m + (m-1)//2 + 1`, of length `m`. -/
noncomputable def ccLarge {m n : ℕ} [NeZero m] [NeZero n] (buf1 buf2 : Fin m × Fin n → CPix) :
    Fin (2 * m) × Fin (2 * n) → CPix := fun i =>
  if h : (m - m / 2 ≤ i.1 ∧ (i.1 : ℕ) < m + (m - 1) / 2 + 1) ∧
      (n - n / 2 ≤ i.2 ∧ (i.2 : ℕ) < n + (n - 1) / 2 + 1) then
    Np.mul (Np.fftshift2 buf1) (Np.conjA (Np.fftshift2 buf2))
      (⟨i.1 - (m - m / 2), by
          have := Nat.pos_of_ne_zero (NeZero.ne m); omega⟩,
       ⟨i.2 - (n - n / 2), by
          have := Nat.pos_of_ne_zero (NeZero.ne n); omega⟩)
  else some 0

instance neZeroTwoMul (n : ℕ) [NeZero n] : NeZero (2 * n) := ⟨by have := NeZero.ne n; omega⟩

/-- What the branches of `dftregistration` compute: `row_shift`, `col_shift` and `CCmax` (whose
phase is `diffphase`). -/
structure PeakFit where
  row : ℝ
  col : ℝ
  ccmax : ℂ

/-- The `usfac == 1` branch (register_images.py:144-174); `error` is never returned and its divisions
only emit numpy warnings. -/
noncomputable def dftregWhole {m n : ℕ} [NeZero m] [NeZero n] (cfg : FFTConfig)
    (buf1 buf2 : Fin m × Fin n → CPix) (maxoff : Option ℕ) : PeakFit :=
  let ifft2 := (getFfts cfg).2
  let cc := zeroMiddle maxoff (ifft2 (Np.mul buf1 (Np.conjA buf2)))
  let loc := absArgmax cc
  ⟨wrapPeak m loc.1, wrapPeak n loc.2, (cc loc).getD 0⟩

/-- The first part of the `usfac ≥ 2` branch (register_images.py:182-228): the peak on the grid of
half pixels.  The two numbers are `row_shift2`, `col_shift2`. -/
noncomputable def dftregHalf {m n : ℕ} [NeZero m] [NeZero n] (cfg : FFTConfig)
    (buf1 buf2 : Fin m × Fin n → CPix) (maxoff : Option ℕ) : PeakFit :=
  let ifft2 := (getFfts cfg).2
  let cc := zeroMiddle maxoff (ifft2 (Np.ifftshift2 (ccLarge buf1 buf2)))
  let loc := absArgmax cc
  ⟨(wrapPeak (2 * m) loc.1 : ℝ) / 2, (wrapPeak (2 * n) loc.2 : ℝ) / 2, (cc loc).getD 0⟩

/-- The `usfac > 2` refinement (register_images.py:232-281) around `(row2, col2)`; after
register_images.py:218 `md2 = m` and `nd2 = n`. -/
noncomputable def dftregRefine {m n : ℕ} [NeZero m] [NeZero n]
    (buf1 buf2 : Fin m × Fin n → CPix) (usfac : ℕ) (row2 col2 : ℝ) : Py PeakFit := do
  let rowShift0 : ℝ := (pyRound (row2 * usfac) : ℝ) / usfac
  let colShift0 : ℝ := (pyRound (col2 * usfac) : ℝ) / usfac
  let size : ℕ := ⌈(usfac : ℝ) * (3 / 2)⌉₊
  let dftshift : ℝ := ((size / 2 : ℕ) : ℝ)
  let roff := dftshift - rowShift0 * usfac
  let coff := dftshift - colShift0 * usfac
  let ups ← dftups (Np.mul buf2 (Np.conjA buf1)) (some size) (some size) usfac roff coff
  if h : ups.rows ≠ 0 ∧ ups.cols ≠ 0 then
    have : NeZero ups.rows := ⟨h.1⟩
    have : NeZero ups.cols := ⟨h.2⟩
    let cc := fun i => (Np.conjA ups.arr i).map fun z => z / ((m : ℂ) * n * (usfac : ℂ) ^ 2)
    let loc := absArgmax cc
    return ⟨rowShift0 + (((loc.1 : ℕ) : ℝ) - dftshift) / usfac,
      colShift0 + (((loc.2 : ℕ) : ℝ) - dftshift) / usfac, (cc loc).getD 0⟩
  else .error .valueError

/-- The shift and `CCmax` of `dftregistration` (register_images.py:132-305), for every `usfac`. -/
noncomputable def dftregFit {m n : ℕ} [NeZero m] [NeZero n] (cfg : FFTConfig)
    (buf1 buf2 : Fin m × Fin n → CPix) (usfac : ℕ) (maxoff : Option ℕ) : Py PeakFit :=
  if usfac = 0 then .error .valueError
  else if usfac = 1 then .ok (dftregWhole cfg buf1 buf2 maxoff)
  else do
    let half := dftregHalf cfg buf1 buf2 maxoff
    let fit ← if 2 < usfac then dftregRefine buf1 buf2 usfac half.row half.col else .ok half
    return ⟨if m = 1 then 0 else fit.row, if n = 1 then 0 else fit.col, fit.ccmax⟩

/-- `Greg` (register_images.py:314-319): the registered spectrum. `Nr` is `ifftshift` of
`linspace(-(nr//2), ceil(nr/2)-1, nr)`. -/
noncomputable def dftregGreg {m n : ℕ} [NeZero m] [NeZero n] (buf2 : Fin m × Fin n → CPix)
    (fit : PeakFit) : Fin m × Fin n → CPix :=
  let nr := fun k : Fin m =>
    Np.linspace (-((m / 2 : ℕ) : ℝ)) ((((m + 1) / 2 : ℕ) : ℝ) - 1) m (Np.ifftshiftIdx k)
  let nc := fun k : Fin n =>
    Np.linspace (-((n / 2 : ℕ) : ℝ)) ((((n + 1) / 2 : ℕ) : ℝ) - 1) n (Np.ifftshiftIdx k)
  let greg := Np.mul buf2 fun k => some (Complex.exp (I * 2 * Real.pi
    * ((-fit.row * nr k.1 / (m : ℝ) - fit.col * nc k.2 / (n : ℝ) : ℝ) : ℂ)))
  Np.mul greg fun _ => some (Complex.exp (I * (Complex.arg fit.ccmax : ℂ)))

/-- One entry of the list `register_images` returns. -/
inductive RegVal (ny nx : ℕ) where
  | num (r : ℝ)
  | image (a : Fin ny × Fin nx → Pix)

/-- The image preparation of `register_images` (register_images.py:49-58): optional mean subtraction,
then NaN pixels set to 0 in a copy. -/
noncomputable def regPrep {ny nx : ℕ} (zeromean : Bool) (im : Fin ny × Fin nx → Pix) :
    Fin ny × Fin nx → CPix :=
  toC (Np.nanToNum (if zeromean then subPix im (nanMean im) else im))

/-- One entry of the list `dftregistration` returns. -/
inductive DftVal (ny nx : ℕ) where
  | num (r : ℝ)
  | spectrum (a : Fin ny × Fin nx → CPix)

/-- `dftregistration(buf1ft, buf2ft, usfac, return_registered, return_error, maxoff=maxoff)`
(register_images.py:78-325): the shifts (register_images.py:132-305), the error entries
(register_images.py:307-309) and `Greg` (register_images.py:311-323). -/
noncomputable def dftregistration {m n : ℕ} [NeZero m] [NeZero n] (cfg : FFTConfig)
    (buf1 buf2 : Fin m × Fin n → CPix) (usfac : ℕ) (returnRegistered returnError : Bool)
    (maxoff : Option ℕ) : Py (List (DftVal m n)) := do
  let fit ← dftregFit cfg buf1 buf2 usfac maxoff
  let output : List (DftVal m n) := [.num fit.row, .num fit.col]
  let output := if returnError then output ++ [.num (1 / usfac), .num (1 / usfac)] else output
  let output := if returnRegistered then output ++ [.spectrum (dftregGreg buf2 fit)] else output
  return output

/-- The body of `register_images` after the shape check (register_images.py:49-75).  `dftregistration`
always returns at least the two shifts, so the last case is unreachable; a spectrum is only returned
with `return_registered`, as the last entry. -/
noncomputable def registerBody {ny nx : ℕ} [NeZero ny] [NeZero nx] (cfg : FFTConfig)
    (im1 im2 : Fin ny × Fin nx → Pix) (usfac : ℕ) (returnRegistered returnError zeromean : Bool)
    (maxoff : Option ℕ) : Py (List (RegVal ny nx)) := do
  let (fft2, ifft2) := getFfts cfg
  let im1fft := fft2 (regPrep zeromean im1)
  let im2fft := fft2 (regPrep zeromean im2)
  let output ← dftregistration ⟨cfg.hasFftw, false, 1⟩ im1fft im2fft usfac returnRegistered returnError
    maxoff
  match output with
  | .num r :: .num c :: rest =>
    return [.num (-c), .num (-r)] ++ rest.map fun
      | .num v => .num v
      | .spectrum g => .image (Np.abs (Np.ifftshift2 (ifft2 g)))
  | _ => .error .indexError

/-- `register_images(im1, im2, usfac, return_registered, return_error, zeromean, maxoff=maxoff)`
(register_images.py:9-75). -/
noncomputable def registerImages {ny nx my mx : ℕ} [NeZero ny] [NeZero nx] (cfg : FFTConfig)
    (im1 : Fin ny × Fin nx → Pix) (im2 : Fin my × Fin mx → Pix) (usfac : ℕ)
    (returnRegistered returnError zeromean : Bool) (maxoff : Option ℕ) :
    Py (List (RegVal ny nx)) :=
  if h : ny = my ∧ nx = mx then
    registerBody cfg im1 (fun i => im2 (Fin.cast h.1 i.1, Fin.cast h.2 i.2)) usfac returnRegistered
      returnError zeromean maxoff
  else .error .valueError

end ImgReg
