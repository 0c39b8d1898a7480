import Verif.Numpy

/-!
# Model of `image_registration/fft_tools/fast_ffts.py`
-/

namespace ImgReg

variable {ι : Type} [AddCommGroup ι] [Fintype ι] [DecidableEq ι] [FFTIndex ι]

/-- Everything that selects an FFT backend: whether `import fftw3` succeeded
(fast_ffts.py:4-26) and the `use_numpy_fft` / `nthreads` arguments every public function forwards
(fast_ffts.py:35). -/
structure FFTConfig where
  hasFftw : Bool
  useNumpyFft : Bool
  nthreads : ℕ

/-- `fftwn` (fast_ffts.py:8-14): copy to complex, forward plan, execute.
The number of threads does not enter the modelled result. -/
noncomputable def fftwn (_nthreads : ℕ) (x : ι → CPix) : ι → CPix := Np.fftwForward x

/-- `ifftwn` (fast_ffts.py:16-22): backward plan, then division by `np.size(array)`. -/
noncomputable def ifftwn (_nthreads : ℕ) (x : ι → CPix) : ι → CPix :=
  fun i => (Np.fftwBackward x i).map fun z => z / (Fintype.card ι : ℂ)

/-- `get_ffts` (fast_ffts.py:35-53). -/
noncomputable def getFfts (cfg : FFTConfig) :
    ((ι → CPix) → ι → CPix) × ((ι → CPix) → ι → CPix) :=
  if cfg.hasFftw && !cfg.useNumpyFft then
    (fftwn cfg.nthreads, ifftwn cfg.nthreads)
  else if cfg.useNumpyFft then
    (Np.fftn, Np.ifftn)
  else
    (Np.fftn, Np.ifftn)

end ImgReg
