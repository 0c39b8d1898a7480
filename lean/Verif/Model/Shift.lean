import Verif.Model.FastFFTs

/-!
# Model of `image_registration/fft_tools/shift.py`
-/

open Complex

namespace ImgReg

/-- The tail shared by `shift2d` (shift.py:49-54) and `shiftnd` (shift.py:113-118):
`return_real` is tested first, then `return_abs`. -/
noncomputable def shiftReturn {ι : Type} (returnAbs returnReal : Bool) (result : ι → CPix) :
    NdOut ι :=
  if returnReal then .real (Np.real result)
  else if returnAbs then .real (Np.abs result)
  else .cplx result

/-- `shift2d(data, deltax, deltay, phase, nthreads, use_numpy_fft, return_abs, return_real)`
(shift.py:11-54).  Index `(iy, ix)`; both axes nonempty. -/
noncomputable def shift2d {ny nx : ℕ} [NeZero ny] [NeZero nx] (cfg : FFTConfig)
    (data : Fin ny × Fin nx → CPix) (deltax deltay phase : ℝ) (returnAbs returnReal : Bool) :
    NdOut (Fin ny × Fin nx) :=
  open Classical in
  let fftn := (getFfts cfg).1
  let ifftn := (getFfts cfg).2
  let data := if Np.anyNaN data then Np.nanToNum data else data
  let xfreq := fun ix : Fin nx => deltax * Np.fftfreq nx ix
  let yfreq := fun iy : Fin ny => deltay * Np.fftfreq ny iy
  let freqGrid := fun i : Fin ny × Fin nx => xfreq i.2 + yfreq i.1
  let kernel : Fin ny × Fin nx → CPix :=
    fun i => some (Complex.exp (-I * 2 * Real.pi * (freqGrid i : ℂ) - I * (phase : ℂ)))
  let result := ifftn (Np.mul (fftn data) kernel)
  shiftReturn returnAbs returnReal result

/-- `shiftnd(data, offset, phase, nthreads, use_numpy_fft, return_abs, return_real)`
(shift.py:56-118) for an array of any dimension `D` and shape `s` (all axes nonempty).
`zip(offset, data.shape)` stops at the shorter of the two (shift.py:100-107). -/
noncomputable def shiftnd {D : ℕ} {s : Fin D → ℕ} [∀ d, NeZero (s d)] (cfg : FFTConfig)
    (data : (∀ d, Fin (s d)) → CPix) (offset : List ℝ) (phase : ℝ) (returnAbs returnReal : Bool) :
    NdOut (∀ d, Fin (s d)) :=
  open Classical in
  let fftn := (getFfts cfg).1
  let ifftn := (getFfts cfg).2
  let data := if Np.anyNaN data then Np.nanToNum data else data
  let freqGrid := fun i : (∀ d, Fin (s d)) =>
    (List.zipWith (fun off d => off * Np.fftfreq (s d) (i d)) offset (List.finRange D)).sum
  let kernel : (∀ d, Fin (s d)) → CPix :=
    fun i => some (Complex.exp (-I * 2 * Real.pi * (freqGrid i : ℂ) - I * (phase : ℂ)))
  let result := ifftn (Np.mul (fftn data) kernel)
  shiftReturn returnAbs returnReal result

end ImgReg
