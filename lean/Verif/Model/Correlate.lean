import Verif.Model.FastFFTs

/-!
# Model of `image_registration/fft_tools/correlate2d.py`
-/

open Complex

namespace ImgReg

/-- The `boundary` argument of `correlate2d` (correlate2d.py:9), passed on to
`astropy.convolution.convolve_fft`: `'wrap'`, or `'fill'`.  With `'fill'` astropy pads both arrays to a
shape that depends on its version (the sum of the shapes, or the next power of two), here a function of
the shapes of array and kernel. -/
inductive CorrBoundary where
  | wrap
  | fill (pad : ℕ × ℕ → ℕ × ℕ → ℕ × ℕ)

/-- The padded shape (`newshape` in `convolve_fft`, cf. convolve_nd.py:236-253): with `'wrap'` the larger
size along each axis. -/
def CorrBoundary.newShape : CorrBoundary → ℕ × ℕ → ℕ × ℕ → ℕ × ℕ
  | .wrap, s, t => (max s.1 t.1, max s.2 t.2)
  | .fill pad, s, t => pad s t

/-- Start of the slice a length-`n` axis occupies in a padded axis of length `N`
(`center - n//2` with `center = N - (N+1)//2`, cf. convolve_nd.py:260-265). -/
def sliceStart (N n : ℕ) : ℕ := (N - (N + 1) / 2) - n / 2

/-- `big = np.zeros(newshape); big[slices] = a` of `convolve_fft` (cf. convolve_nd.py:267-270), the slices
being `center - n//2 : center + (n+1)//2` along each axis. When the shapes agree astropy skips the copy,
which is the same. -/
noncomputable def place2 {ny nx : ℕ} (Ny Nx : ℕ) (a : Fin ny × Fin nx → ℂ) : Fin Ny × Fin Nx → ℂ :=
  fun P => if h : (sliceStart Ny ny ≤ (P.1 : ℕ) ∧ (P.1 : ℕ) < (Ny - (Ny + 1) / 2) + (ny + 1) / 2) ∧
      (sliceStart Nx nx ≤ (P.2 : ℕ) ∧ (P.2 : ℕ) < (Nx - (Nx + 1) / 2) + (nx + 1) / 2) then
    a (⟨(P.1 : ℕ) - sliceStart Ny ny, by unfold sliceStart at *; omega⟩,
       ⟨(P.2 : ℕ) - sliceStart Nx nx, by unfold sliceStart at *; omega⟩)
  else 0

/-- The body of `astropy.convolution.convolve_fft` once the padded shape `(Ny, Nx)` is chosen
(cf. convolve_nd.py:255-330).  External code, modelled after its documentation and after its ancestor in
this repository: NaNs are filled with 0, both arrays are centred in zero arrays of the padded shape, the
kernel is `ifftshift`ed, and the part of the real inverse transform the array occupied is returned.
astropy divides the kernel by its sum and multiplies the result back, which is the identity in exact
arithmetic and is omitted. Without `allow_huge` a padded array of more than 1 GB of complex128 is refused.
A padded shape smaller than the arrays raises when the slices are assigned (this does not happen with
astropy's rules). -/
noncomputable def convolveFftN {ny nx my mx : ℕ} (cfg : FFTConfig) (Ny Nx : ℕ)
    (allowHuge : Bool) (array : Fin ny × Fin nx → Pix) (kernel : Fin my × Fin mx → Pix) :
    Py (Fin ny × Fin nx → Pix) :=
  if !allowHuge && decide (10 ^ 9 < 16 * (Ny * Nx)) then .error .valueError
  else if h : ((ny ≤ Ny ∧ nx ≤ Nx) ∧ my ≤ Ny ∧ mx ≤ Nx) ∧ Ny ≠ 0 ∧ Nx ≠ 0 then
    have : NeZero Ny := ⟨h.2.1⟩
    have : NeZero Nx := ⟨h.2.2⟩
    let fftn := (getFfts (ι := Fin Ny × Fin Nx) cfg).1
    let ifftn := (getFfts (ι := Fin Ny × Fin Nx) cfg).2
    let bigarray := place2 Ny Nx (fun i => (((array i).getD 0 : ℝ) : ℂ))
    let bigkernel := place2 Ny Nx (fun i => (((kernel i).getD 0 : ℝ) : ℂ))
    let arrayfft := fftn (cArr bigarray)
    let kernfft := fftn (cArr (Np.ifftshift2 bigkernel))
    let rifft := Np.real (ifftn (Np.mul arrayfft kernfft))
    .ok fun i => rifft
      (⟨sliceStart Ny ny + (i.1 : ℕ), by unfold sliceStart; omega⟩,
       ⟨sliceStart Nx nx + (i.2 : ℕ), by unfold sliceStart; omega⟩)
  else .error .valueError

/-- `astropy.convolution.convolve_fft(array, kernel, boundary, nan_treatment='fill',
normalize_kernel=False, fftn, ifftn, allow_huge)`, as called in correlate2d.py:43-45 (external code, see
`convolveFftN`). -/
noncomputable def convolveFft {ny nx my mx : ℕ} (cfg : FFTConfig) (boundary : CorrBoundary)
    (allowHuge : Bool) (array : Fin ny × Fin nx → Pix) (kernel : Fin my × Fin mx → Pix) :
    Py (Fin ny × Fin nx → Pix) :=
  convolveFftN cfg (boundary.newShape (ny, nx) (my, mx)).1 (boundary.newShape (ny, nx) (my, mx)).2
    allowHuge array kernel

/-- `correlate2d(im1, im2, boundary, nthreads, use_numpy_fft, allow_huge)` (correlate2d.py:9-45) for two
real images. `np.conjugate(im1)` is `im1`. -/
noncomputable def correlate2dB {ny nx my mx : ℕ} (cfg : FFTConfig) (boundary : CorrBoundary)
    (allowHuge : Bool) (im1 : Fin ny × Fin nx → Pix) (im2 : Fin my × Fin mx → Pix) :
    Py (Fin ny × Fin nx → Pix) :=
  convolveFft cfg boundary allowHuge im1 (Np.flip2 im2)

/-- `correlate2d(im1, im2, nthreads, use_numpy_fft, allow_huge)`, i.e. with the default
`boundary='wrap'` (correlate2d.py:9), for two real images of the same shape. -/
noncomputable def correlate2d {ny nx : ℕ} (cfg : FFTConfig)
    (allowHuge : Bool) (im1 im2 : Fin ny × Fin nx → Pix) : Py (Fin ny × Fin nx → Pix) :=
  correlate2dB cfg .wrap allowHuge im1 im2

end ImgReg
