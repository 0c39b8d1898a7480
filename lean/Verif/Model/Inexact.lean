import Verif.Model.Register

/-!
# `register_images` in inexact arithmetic

The other models compute with exact real and complex numbers.  Here the image preparation and the peak search of
`image_registration/register_images.py` are written down once more, with every numerical operation on pixel and spectrum values
replaced by a parameter: nothing is assumed about these operations in this file, so floating-point arithmetic (without
overflow) and any FFT implementation are instances.  The bookkeeping with peak positions (integers and a division by
`usfac`, register_images.py:162-172, 209-238, 269-281) stays exact.
-/

open Complex
open scoped ComplexConjugate

namespace ImgReg

/-- The operations on pixel and spectrum values that `register_images` uses: `fftn`, `ifftn` (fast_ffts.py:13-97), `dftups`
(upsample.py:47-114, square output), the products of spectra and quotients by real numbers (register_images.py:146, 187, 245, 253),
`abs` (register_images.py:148, 193, 266), `im - mean` and `im[im==im].mean()` (register_images.py:50-51).  Complex
conjugation and array rearrangements are exact in floating point. -/
structure Arith where
  fft : ∀ {m n : ℕ} [NeZero m] [NeZero n], (Fin m × Fin n → ℂ) → Fin m × Fin n → ℂ
  ifft : ∀ {m n : ℕ} [NeZero m] [NeZero n], (Fin m × Fin n → ℂ) → Fin m × Fin n → ℂ
  dftups : ∀ {m n : ℕ} [NeZero m] [NeZero n], (Fin m × Fin n → ℂ) → (s : ℕ) → (usfac roff coff : ℝ) → Fin s × Fin s → ℂ
  mul : ℂ → ℂ → ℂ
  div : ℂ → ℝ → ℂ
  abs : ℂ → ℝ
  sub : ℝ → ℝ → ℝ
  mean : ∀ {m n : ℕ}, (Fin m × Fin n → Pix) → ℝ

/-- The image preparation (register_images.py:49-58); `mean` is only used when there is a pixel that is not NaN. -/
noncomputable def prepA (A : Arith) {m n : ℕ} (zeromean : Bool) (im : Fin m × Fin n → Pix) : Fin m × Fin n → ℝ := fun i =>
  match im i with
  | none => 0
  | some v => if zeromean then A.sub v (A.mean im) else v

/-- `CC[maxoff:-maxoff,:] = 0; CC[:,maxoff:-maxoff] = 0` (register_images.py:153-154, 198-199), for an array without NaN -/
noncomputable def zeroMiddleA {m n : ℕ} (maxoff : Option ℕ) (cc : Fin m × Fin n → ℂ) : Fin m × Fin n → ℂ :=
  open Classical in
  match maxoff with
  | none => cc
  | some k => fun i => if inMiddle m k i.1 ∨ inMiddle n k i.2 then 0 else cc i

/-- The `usfac == 1` branch (register_images.py:144-174): row and column shift. -/
noncomputable def wholeA (A : Arith) {m n : ℕ} [NeZero m] [NeZero n] (buf1 buf2 : Fin m × Fin n → ℂ) (maxoff : Option ℕ) : ℝ × ℝ :=
  let cc := zeroMiddleA maxoff (A.ifft fun k => A.mul (buf1 k) (conj (buf2 k)))
  let loc := Np.argmax fun i => A.abs (cc i)
  (wrapPeak m loc.1, wrapPeak n loc.2)

/-- `CClarge` (register_images.py:182-187) -/
noncomputable def ccLargeA (A : Arith) {m n : ℕ} [NeZero m] [NeZero n] (buf1 buf2 : Fin m × Fin n → ℂ) :
    Fin (2 * m) × Fin (2 * n) → ℂ := fun i =>
  if h : (m - m / 2 ≤ i.1 ∧ (i.1 : ℕ) < m + (m - 1) / 2 + 1) ∧
      (n - n / 2 ≤ i.2 ∧ (i.2 : ℕ) < n + (n - 1) / 2 + 1) then
    let k : Fin m × Fin n := (⟨i.1 - (m - m / 2), by have := Nat.pos_of_ne_zero (NeZero.ne m); omega⟩,
      ⟨i.2 - (n - n / 2), by have := Nat.pos_of_ne_zero (NeZero.ne n); omega⟩)
    A.mul (Np.fftshift2 buf1 k) (conj (Np.fftshift2 buf2 k))
  else 0

/-- The half-pixel search of the `usfac ≥ 2` branch (register_images.py:182-228): `row_shift2`, `col_shift2`. -/
noncomputable def halfA (A : Arith) {m n : ℕ} [NeZero m] [NeZero n] (buf1 buf2 : Fin m × Fin n → ℂ) (maxoff : Option ℕ) : ℝ × ℝ :=
  let cc := zeroMiddleA maxoff (A.ifft (Np.ifftshift2 (ccLargeA A buf1 buf2)))
  let loc := Np.argmax fun i => A.abs (cc i)
  ((wrapPeak (2 * m) loc.1 : ℝ) / 2, (wrapPeak (2 * n) loc.2 : ℝ) / 2)

/-- The `usfac > 2` refinement (register_images.py:232-281) around `(row2, col2)`; the `ValueError` of `argmax` on an empty array cannot
happen for `usfac > 2`. -/
noncomputable def refineA (A : Arith) {m n : ℕ} [NeZero m] [NeZero n] (buf1 buf2 : Fin m × Fin n → ℂ) (usfac : ℕ)
    (row2 col2 : ℝ) : Py (ℝ × ℝ) :=
  let rowShift0 : ℝ := (pyRound (row2 * usfac) : ℝ) / usfac
  let colShift0 : ℝ := (pyRound (col2 * usfac) : ℝ) / usfac
  let size : ℕ := ⌈(usfac : ℝ) * (3 / 2)⌉₊
  let dftshift : ℝ := ((size / 2 : ℕ) : ℝ)
  let ups := A.dftups (fun k => A.mul (buf2 k) (conj (buf1 k))) size usfac (dftshift - rowShift0 * usfac) (dftshift - colShift0 * usfac)
  let cc := fun i => A.div (conj (ups i)) ((m : ℝ) * n * (usfac : ℝ) ^ 2)
  if h : size ≠ 0 then
    have : NeZero size := ⟨h⟩
    let loc := Np.argmax fun i => A.abs (cc i)
    .ok (rowShift0 + (((loc.1 : ℕ) : ℝ) - dftshift) / usfac, colShift0 + (((loc.2 : ℕ) : ℝ) - dftshift) / usfac)
  else .error .valueError

/-- The shifts of `dftregistration` (register_images.py:132-305). -/
noncomputable def dftregA (A : Arith) {m n : ℕ} [NeZero m] [NeZero n] (buf1 buf2 : Fin m × Fin n → ℂ) (usfac : ℕ)
    (maxoff : Option ℕ) : Py (ℝ × ℝ) :=
  if usfac = 0 then .error .valueError
  else if usfac = 1 then .ok (wholeA A buf1 buf2 maxoff)
  else do
    let half := halfA A buf1 buf2 maxoff
    let fit ← if 2 < usfac then refineA A buf1 buf2 usfac half.1 half.2 else .ok half
    return (if m = 1 then 0 else fit.1, if n = 1 then 0 else fit.2)

/-- `register_images(im1, im2, usfac, zeromean=zeromean, maxoff=maxoff)` (register_images.py:9-75) for images of the same shape:
`[dx, dy]`. -/
noncomputable def registerA (A : Arith) {m n : ℕ} [NeZero m] [NeZero n] (im1 im2 : Fin m × Fin n → Pix) (usfac : ℕ)
    (zeromean : Bool) (maxoff : Option ℕ) : Py (List (RegVal m n)) := do
  let fft1 := A.fft fun p => (prepA A zeromean im1 p : ℂ)
  let fft2 := A.fft fun p => (prepA A zeromean im2 p : ℂ)
  let out ← dftregA A fft1 fft2 usfac maxoff
  return [.num (-out.2), .num (-out.1)]

end ImgReg
