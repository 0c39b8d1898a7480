import Verif.Model.Inexact
import Verif.Model.Chi2

/-!
# `correlate2d` and `chi2n_map` in inexact arithmetic

`image_registration/chi2_shifts.py:434-520` and `image_registration/fft_tools/correlate2d.py` once more (`boundary='wrap'`, images of the same
shape, `reduced=False`), with every numerical operation replaced by a parameter.  `np.nan_to_num`, masking, flipping, `ifftshift` and the
product with -2 are exact in floating point.  The size check of astropy's `convolve_fft` is left out (`allow_huge=True`).
-/

open Complex

namespace ImgReg

/-- The operations of `Arith` (transforms, complex product, mean and its subtraction) and real products, sums and quotients
(chi2_shifts.py:493-511), `.sum()` (chi2_shifts.py:500, 503).  `kernelScale` is the number astropy's `convolve_fft` divides the kernel by and
multiplies the result with again (external code: the sum of the kernel, or 1 when that is near 0). -/
structure Chi2Arith extends Arith where
  mulR : ℝ → ℝ → ℝ
  addR : ℝ → ℝ → ℝ
  divR : ℝ → ℝ → ℝ
  sum : ∀ {m n : ℕ}, (Fin m × Fin n → ℝ) → ℝ
  kernelScale : ∀ {m n : ℕ}, (Fin m × Fin n → ℝ) → ℝ

section
variable {ny nx : ℕ} [NeZero ny] [NeZero nx]

/-- `correlate2d(im1, im2)` (correlate2d.py:40-45) for images of the same shape without NaN: `convolve_fft` with the flipped second image as
the kernel (external code, cf. `convolveFftN`). -/
noncomputable def corrA (A : Chi2Arith) (im1 im2 : Fin ny × Fin nx → ℝ) : Fin ny × Fin nx → ℝ :=
  let kernel := Np.flip2 im2
  let scale := A.kernelScale kernel
  let arrayfft := A.fft fun p => (im1 p : ℂ)
  let kernfft := A.fft (Np.ifftshift2 fun p => ((A.divR (kernel p) scale : ℝ) : ℂ))
  let result := A.ifft fun k => A.mul (arrayfft k) (kernfft k)
  fun i => A.mulR (result i).re scale

/-- `err` with NaN and 0 replaced by 1 (chi2_shifts.py:484-490, 498-499) -/
noncomputable def errValsA (err : ErrArg ny nx) : Fin ny × Fin nx → ℝ :=
  match err with
  | .none => fun _ => 1
  | .scalar s => fun _ => s
  | .image e => fun i => if (e i).getD 0 = 0 then 1 else (e i).getD 0

/-- `im[err==0] = 0` (chi2_shifts.py:488-489) -/
noncomputable def maskA (err : ErrArg ny nx) (im : Fin ny × Fin nx → ℝ) : Fin ny × Fin nx → ℝ :=
  match err with
  | .image e => fun i => if (e i).getD 0 = 0 then 0 else im i
  | _ => im

/-- The map `chi2` of `chi2n_map(im1, im2, err, zeromean=zeromean)` (chi2_shifts.py:477-507). -/
noncomputable def chi2MapA (A : Chi2Arith) (im1 im2 : Fin ny × Fin nx → Pix) (err : ErrArg ny nx) (zeromean : Bool) :
    Fin ny × Fin nx → ℝ :=
  let im1 := maskA err (prepA A.toArith zeromean im1)
  let im2 := maskA err (prepA A.toArith zeromean im2)
  let er := errValsA err
  let term3 : Fin ny × Fin nx → ℝ := match err with
    | .image _ => corrA A (fun p => A.mulR (im1 p) (im1 p)) (fun p => A.divR 1 (A.mulR (er p) (er p)))
    | _ => fun _ => A.sum fun p => A.divR (A.mulR (im1 p) (im1 p)) (A.mulR (er p) (er p))
  let term1 := A.sum fun p => A.divR (A.mulR (im2 p) (im2 p)) (A.mulR (er p) (er p))
  let term2 := fun i => -2 * corrA A im1 (fun p => A.divR (im2 p) (A.mulR (er p) (er p))) i
  fun i => A.addR (A.addR term1 (term2 i)) (term3 i)

end

end ImgReg
