import Verif.Model.FastFFTs
import Verif.NumpyArr

/-!
# Model of `image_registration/fft_tools/scale.py`
-/

open Complex

namespace ImgReg

/-- A 1-D coordinate vector of any length. -/
abbrev Vec := Σ m : ℕ, (Fin m → ℝ)

/-- `fourier_interp1d(data, out_x, data_x, nthreads, use_numpy_fft, return_real)`
(scale.py:4-65) for 1-D nonempty `data`.  `out_x` and `data_x` have any number of dimensions, which
the function checks (scale.py:44, 48); `np.interp` is only meaningful for increasing `data_x`. -/
noncomputable def fourierInterp1d {n : ℕ} [NeZero n] (cfg : FFTConfig) (data : Fin n → CPix)
    (outX : Arr) (dataX : Option Arr) (returnReal : Bool) : Py Out1 :=
  let ifftn := (getFfts cfg).2
  let freq := fun k : Fin n => Np.fftfreq n k
  if outX.ndim ≠ 1 then .error .valueError
  else
    let finish : (Fin (outX.dim 0) → ℝ) → Py Out1 := fun outinds =>
      let kern : Fin n × Fin (outX.dim 0) → CPix :=
        fun i => some (Complex.exp ((-I * 2 * Real.pi) * (freq i.1 : ℂ) * (outinds i.2 : ℂ)))
      let result := Np.dotV (ifftn data) kern
      if returnReal then .ok ⟨outX.dim 0, .real (Np.real result)⟩
      else .ok ⟨outX.dim 0, .cplx result⟩
    match dataX with
    | some dx =>
      if dx.shape ≠ [n] then .error .valueError
      else finish fun i =>
        Np.interp (outX.val [i]) (fun j : Fin n => dx.val [j]) (fun j : Fin n => ((j : ℕ) : ℝ))
    | none => finish fun i => outX.val [i]

/-- The `outinds` argument of the 2-D functions: an array (it has an `ndim` attribute) or a
list/tuple of 1-D coordinate vectors.  Sequences of higher-dimensional arrays are not modelled. -/
inductive OutInds where
  | nd (a : Arr)
  | seq (xs : List Vec)

/-- The argument checks of scale.py:86-89 and 138-141 for 2-D `data`:
`hasattr(outinds,'ndim') and outinds.ndim not in (3, 2)`, `len(outinds) != 2`. -/
def checkOutInds : OutInds → Py Unit
  | .nd a =>
    if a.ndim ≠ 3 ∧ a.ndim ≠ 2 then .error .valueError
    else if a.dim 0 ≠ 2 then .error .valueError
    else .ok ()
  | .seq xs => if xs.length ≠ 2 then .error .valueError else .ok ()

/-- The coordinate vector of axis 0: `outinds[0,:,0]` of an index cube, else `outinds[0]`
(scale.py:94-98; scale.py:157-163 with `dim = 0`).  Indexing an empty axis is an IndexError. -/
def coordY : OutInds → Py Vec
  | .nd a =>
    if a.ndim = 3 then
      if a.dim 2 = 0 then .error .indexError else .ok ⟨a.dim 1, fun i => a.val [0, i, 0]⟩
    else .ok ⟨a.dim 1, fun i => a.val [0, i]⟩
  | .seq xs => match xs[0]? with
    | some v => .ok v
    | none => .error .indexError

/-- The coordinate vector of axis 1: `outinds[1,0,:]` of an index cube, else `outinds[1]`
(scale.py:102-106; scale.py:157-163 with `dim = 1`). -/
def coordX : OutInds → Py Vec
  | .nd a =>
    if a.ndim = 3 then
      if a.dim 1 = 0 then .error .indexError else .ok ⟨a.dim 2, fun i => a.val [1, 0, i]⟩
    else .ok ⟨a.dim 1, fun i => a.val [1, i]⟩
  | .seq xs => match xs[1]? with
    | some v => .ok v
    | none => .error .indexError

/-- `fourier_interp2d(data, outinds, nthreads, use_numpy_fft, return_real)` (scale.py:67-114). -/
noncomputable def fourierInterp2d {ny nx : ℕ} [NeZero ny] [NeZero nx] (cfg : FFTConfig)
    (data : Fin ny × Fin nx → CPix) (outinds : OutInds) (returnReal : Bool) : Py Out2 := do
  let ifftn := (getFfts cfg).2
  checkOutInds outinds
  let imfft := ifftn data
  let vy ← coordY outinds
  let kerny : Fin vy.1 × Fin ny → CPix :=
    fun i => some (Complex.exp ((-I * 2 * Real.pi) * ((Np.fftfreq ny i.2 * vy.2 i.1 : ℝ) : ℂ)))
  let vx ← coordX outinds
  let kernx : Fin nx × Fin vx.1 → CPix :=
    fun i => some (Complex.exp ((-I * 2 * Real.pi) * ((Np.fftfreq nx i.1 * vx.2 i.2 : ℝ) : ℂ)))
  let result := Np.dot (Np.dot kerny imfft) kernx
  if returnReal then return ⟨vy.1, vx.1, .real (Np.real result)⟩
  else return ⟨vy.1, vx.1, .cplx result⟩

/-- `fourier_interpnd(data, outinds, …)` (scale.py:118-176), for the 2-D data its docstring
restricts it to; the loop over the two axes is unrolled.  Axis 0: `kern` has shape
`(ny, m)` and `result = dot(result.T, kern).T`; axis 1: `kern` has shape `(l, nx)` and
`result = dot(result, kern.T)` (scale.py:153-171).  Indexing with a list of slices is accepted by
the numpy versions the repository targets (< 1.23). -/
noncomputable def fourierInterpnd2 {ny nx : ℕ} [NeZero ny] [NeZero nx] (cfg : FFTConfig)
    (data : Fin ny × Fin nx → CPix) (outinds : OutInds) (returnReal : Bool) : Py Out2 := do
  let ifftn := (getFfts cfg).2
  checkOutInds outinds
  let imfft := ifftn data
  let vy ← coordY outinds
  let kern0 : Fin ny × Fin vy.1 → CPix :=
    fun i => some (Complex.exp ((-I * 2 * Real.pi) * ((Np.fftfreq ny i.1 * vy.2 i.2 : ℝ) : ℂ)))
  let result0 := Np.swap (Np.dot (Np.swap imfft) kern0)
  let vx ← coordX outinds
  let kern1 : Fin vx.1 × Fin nx → CPix :=
    fun i => some (Complex.exp ((-I * 2 * Real.pi) * ((Np.fftfreq nx i.2 * vx.2 i.1 : ℝ) : ℂ)))
  let result1 := Np.dot result0 (Np.swap kern1)
  if returnReal then return ⟨vy.1, vx.1, .real (Np.real result1)⟩
  else return ⟨vy.1, vx.1, .cplx result1⟩

end ImgReg
