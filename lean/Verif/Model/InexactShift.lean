import Verif.Model.Shift

/-!
# `shift2d` and `shiftnd` in inexact arithmetic

`image_registration/fft_tools/shift.py` once more, with every numerical operation replaced by a parameter: nothing is assumed about
these operations in this file, so floating-point arithmetic (without overflow) and any FFT implementation are instances.
-/

open Complex

namespace ImgReg

/-- The operations `shift2d` and `shiftnd` use: `fftn`, `ifftn` (fast_ffts.py:13-97), `np.fft.fftfreq` (shift.py:40-41, 101), real products and
sums (shift.py:40-42, 45, 100-109), the constant `2*np.pi` and `np.exp(-1j*x)` (shift.py:44, 109), complex products (shift.py:46, 111) and
`np.abs` (shift.py:52, 116).  `np.nan_to_num` and `np.real` are exact. -/
structure ShiftArith where
  fft : ∀ {ι : Type} [AddCommGroup ι] [Fintype ι] [DecidableEq ι] [FFTIndex ι], (ι → ℂ) → ι → ℂ
  ifft : ∀ {ι : Type} [AddCommGroup ι] [Fintype ι] [DecidableEq ι] [FFTIndex ι], (ι → ℂ) → ι → ℂ
  freq : (n : ℕ) → Fin n → ℝ
  mulR : ℝ → ℝ → ℝ
  addR : ℝ → ℝ → ℝ
  twoPi : ℝ
  expNegI : ℝ → ℂ
  mul : ℂ → ℂ → ℂ
  abs : ℂ → ℝ

section
variable {ι : Type} [AddCommGroup ι] [Fintype ι] [DecidableEq ι] [FFTIndex ι]

/-- `kernel = np.exp(-1j*2*np.pi*freq_grid-1j*phase)` (shift.py:44, 109); multiplying by `-1j` is exact -/
noncomputable def shiftKernelA (A : ShiftArith) (freqGrid : ι → ℝ) (phase : ℝ) : ι → ℂ := fun i =>
  A.expNegI (A.addR (A.mulR A.twoPi (freqGrid i)) phase)

/-- `ifftn( fftn(data) * kernel )` (shift.py:46, 111) -/
noncomputable def shiftFilterA (A : ShiftArith) (data kernel : ι → ℂ) : ι → ℂ := A.ifft fun k => A.mul (A.fft data k) (kernel k)

omit [AddCommGroup ι] [Fintype ι] [DecidableEq ι] [FFTIndex ι] in
/-- the return statements (shift.py:49-54, 113-118) -/
noncomputable def shiftReturnA (A : ShiftArith) (returnAbs returnReal : Bool) (result : ι → ℂ) : NdOut ι :=
  if returnReal then .real fun i => some (result i).re
  else if returnAbs then .real fun i => some (A.abs (result i))
  else .cplx fun i => some (result i)

end

/-- `shift2d` (shift.py:11-54) -/
noncomputable def shift2dA {ny nx : ℕ} [NeZero ny] [NeZero nx] (A : ShiftArith) (data : Fin ny × Fin nx → CPix)
    (deltax deltay phase : ℝ) (returnAbs returnReal : Bool) : NdOut (Fin ny × Fin nx) :=
  let data := fun i => (data i).getD 0
  let freqGrid := fun i : Fin ny × Fin nx => A.addR (A.mulR deltax (A.freq nx i.2)) (A.mulR deltay (A.freq ny i.1))
  shiftReturnA A returnAbs returnReal (shiftFilterA A data (shiftKernelA A freqGrid phase))

/-- `shiftnd` (shift.py:56-118); `sum` adds from the left, starting with 0 -/
noncomputable def shiftndA {D : ℕ} {s : Fin D → ℕ} [∀ d, NeZero (s d)] (A : ShiftArith) (data : (∀ d, Fin (s d)) → CPix)
    (offset : List ℝ) (phase : ℝ) (returnAbs returnReal : Bool) : NdOut (∀ d, Fin (s d)) :=
  let data := fun i => (data i).getD 0
  let freqGrid := fun i : (∀ d, Fin (s d)) =>
    (List.zipWith (fun off d => A.mulR off (A.freq (s d) (i d))) offset (List.finRange D)).foldl A.addR 0
  shiftReturnA A returnAbs returnReal (shiftFilterA A data (shiftKernelA A freqGrid phase))

end ImgReg
