import Verif.Model.InexactChi2
import Verif.Model.InexactShift
import Verif.Model.Zoom

/-!
# `fourier_interp1d`, `fourier_interp2d`, `zoom1d`, `zoom_on_pixel` and `chi2_shift` in inexact arithmetic

`image_registration/fft_tools/scale.py`, `image_registration/fft_tools/zoom.py` and `image_registration/chi2_shifts.py:13-252` once more
(`boundary='wrap'`, images of the same shape), with every numerical operation replaced by a parameter.  Negation, products with
`-1j`, halving, and sums of small half-integers (pixel numbers and centres, chi2_shifts.py:157-162, zoom.py:159-170) are exact in floating point.
-/

open Complex Finset

namespace ImgReg

/-- The operations of `ShiftArith` (transforms, `np.fft.fftfreq`, real products and sums, `2*np.pi`, `np.exp`), real quotients
(zoom.py:43, 94-95, chi2_shifts.py:200), `np.dot` (scale.py:60, 110) and `np.linspace` (zoom.py:43, 94-96). -/
structure ZoomArith extends ShiftArith where
  divR : ℝ → ℝ → ℝ
  dot : ∀ {m k n : ℕ}, (Fin m × Fin k → ℂ) → (Fin k × Fin n → ℂ) → Fin m × Fin n → ℂ
  linspace : ℝ → ℝ → (n : ℕ) → Fin n → ℝ

/-- `fourier_interp1d(data, out_x, return_real=False)` (scale.py:40-65) without `data_x`; the product of a vector with a matrix is that of a
matrix with one row. -/
noncomputable def interp1A (Z : ZoomArith) {n m : ℕ} [NeZero n] (data : Fin n → ℂ) (out : Fin m → ℝ) : Fin m → ℂ :=
  let kern : Fin n × Fin m → ℂ := fun i => Z.expNegI (Z.mulR (Z.mulR Z.twoPi (Z.freq n i.1)) (out i.2))
  let imfft := Z.ifft data
  fun i => Z.dot (fun k : Fin 1 × Fin n => imfft k.2) kern ((0 : Fin 1), i)

/-- `fourier_interp2d(data, (out_y, out_x), return_real=False)` (scale.py:91-114) -/
noncomputable def interp2A (Z : ZoomArith) {ny nx my mx : ℕ} [NeZero ny] [NeZero nx] (data : Fin ny × Fin nx → ℂ) (outY : Fin my → ℝ)
    (outX : Fin mx → ℝ) : Fin my × Fin mx → ℂ :=
  let kerny : Fin my × Fin ny → ℂ := fun i => Z.expNegI (Z.mulR Z.twoPi (Z.mulR (Z.freq ny i.2) (outY i.1)))
  let kernx : Fin nx × Fin mx → ℂ := fun i => Z.expNegI (Z.mulR Z.twoPi (Z.mulR (Z.freq nx i.1) (outX i.2)))
  Z.dot (Z.dot kerny (Z.ifft data)) kernx

/-- `np.linspace(target - (outsize-1.)/usfac/2., target + (outsize-1.)/usfac/2., outsize)` (zoom.py:43, 94-96) -/
noncomputable def zoomAxisA (Z : ZoomArith) (target usfac : ℝ) (outsize : ℕ) : Fin outsize → ℝ :=
  let half := Z.divR ((outsize : ℝ) - 1) usfac / 2
  Z.linspace (Z.addR target (-half)) (Z.addR target half) outsize

/-- `zoom1d` (zoom.py:35-51): coordinates and complex values; `middle` is `(n-1.)/2. + offset`. -/
noncomputable def zoom1A (Z : ZoomArith) {n : ℕ} [NeZero n] (inp : Fin n → ℂ) (usfac : ℝ) (outsize : ℕ) (offset : ℝ) :
    (Fin outsize → ℝ) × (Fin outsize → ℂ) :=
  let out := zoomAxisA Z (Z.addR (((n : ℝ) - 1) / 2) offset) usfac outsize
  (out, interp1A Z inp out)

/-- `zoom_on_pixel` (zoom.py:84-119) for 2-D input: the two coordinate axes and the complex values -/
noncomputable def zoom2A (Z : ZoomArith) {ny nx : ℕ} [NeZero ny] [NeZero nx] (inp : Fin ny × Fin nx → ℂ) (ty tx usfac : ℝ) (s1 s2 : ℕ) :
    (Fin s1 → ℝ) × (Fin s2 → ℝ) × (Fin s1 × Fin s2 → ℂ) :=
  let outY := zoomAxisA Z ty usfac s1
  let outX := zoomAxisA Z tx usfac s2
  (outY, outX, interp2A Z inp outY outX)

/-- The choice of `(upsample_factor, s1, s2)` (chi2_shifts.py:185-215).  For a given factor only the comparison `s1/upsample_factor <= 1` is
computed, which is exact in floating point (division is correctly rounded); `max_auto_size/2.` is exact. -/
noncomputable def chooseUpsampleA (A : Chi2Arith) (Z : ZoomArith) {ny nx : ℕ} [NeZero ny] [NeZero nx] (chi2 : Fin ny × Fin nx → ℝ)
    (us : UsFactor) (mAuto : ℝ) (maxAutoSize : ℕ) : Py (ℝ × ℕ × ℕ) :=
  open Classical in
  match us with
  | .auto =>
    let delta := fun i => A.sub (chi2 i) (chi2 (Np.argmin chi2))
    let area := univ.filter fun i => delta i < mAuto
    let size : ℝ :=
      if h : 1 < area.card then
        have hne : area.Nonempty := card_pos.1 (by omega)
        let xv := fun i : Fin ny × Fin nx => ((i.2 : ℕ) : ℝ)
        let yv := fun i : Fin ny × Fin nx => ((i.1 : ℕ) : ℝ)
        max (Np.maxOver area hne xv - Np.minOver area hne xv)
          (Np.maxOver area hne yv - Np.minOver area hne yv)
      else 1
    let u : ℝ := Z.divR ((maxAutoSize : ℝ) / 2) size
    .ok (if u < 1 then 1 else u, maxAutoSize, maxAutoSize)
  | .int u => chooseUpsample chi2 (.int u) mAuto maxAutoSize false
  | .float u => chooseUpsample chi2 (.float u) mAuto maxAutoSize false

/-- `chi2map_to_errors(chi2map, zoomfactor)` (chi2_shifts.py:292-307), `zoomfactor ≠ 0`; `thr` is the number `sigma_to_chi2(nsigma)` as computed.
Pixel numbers minus half a shape are exact. -/
noncomputable def chi2mapToErrorsA (A : Chi2Arith) (Z : ZoomArith) {m n : ℕ} [NeZero m] [NeZero n] (thr : ℝ) (chi2map : Fin m × Fin n → ℝ)
    (zoomfactor : ℝ) : Py Errors :=
  open Classical in
  let yy := fun i : Fin m × Fin n => Z.divR (((i.1 : ℕ) : ℝ) - (m : ℝ) / 2) zoomfactor
  let xx := fun i : Fin m × Fin n => Z.divR (((i.2 : ℕ) : ℝ) - (n : ℝ) / 2) zoomfactor
  let xcen := xx (Np.argmin chi2map)
  let ycen := yy (Np.argmin chi2map)
  let deltachi2 := fun i => A.sub (chi2map i) (chi2map (Np.argmin chi2map))
  let area := univ.filter fun i => deltachi2 i < thr
  if h : area.Nonempty then
    .ok ⟨Z.addR xcen (-Np.minOver area h xx), Z.addR (Np.maxOver area h xx) (-xcen),
      Z.addR ycen (-Np.minOver area h yy), Z.addR (Np.maxOver area h yy) (-ycen)⟩
  else .error .valueError

/-- `chi2_shift(im1, im2, err, upsample_factor, zeromean, nfitted, return_error, return_chi2array, max_auto_size, max_nsig)`
(chi2_shifts.py:13-252), `verbose=False`.  The threshold of the error bars, `sigma_to_chi2(1)`, is a number of scipy or the literal 1.59358435
(times `1**1.80468278`), not a computed one. -/
noncomputable def chi2ShiftA (A : Chi2Arith) (Z : ZoomArith) {ny nx : ℕ} [NeZero ny] [NeZero nx] (stats : Stats)
    (im1 im2 : Fin ny × Fin nx → Pix) (err : ErrArg ny nx) (usArg : UsFactor) (zeromean : Bool) (nfitted : ℝ)
    (returnError returnChi2array : Bool) (maxAutoSize : ℕ) (maxNsig : ℝ) : Py (List RetVal) := do
  let chi2 := chi2MapA A im1 im2 err zeromean
  let peak := Np.argmin chi2
  let xcen := chi2Centre nx
  let ycen := chi2Centre ny
  let yshift := ((peak.1 : ℕ) : ℝ) - ycen
  let xshift := ((peak.2 : ℕ) : ℝ) - xcen
  let (us, s1, s2) ← chooseUpsampleA A Z chi2 usArg (mAuto stats maxNsig nfitted) maxAutoSize
  let z := zoom2A Z (fun i => (chi2 i : ℂ)) (((ny : ℝ) - 1) / 2 + yshift) (((nx : ℝ) - 1) / 2 + xshift) us s1 s2
  if h : s1 ≠ 0 ∧ s2 ≠ 0 then
    have : NeZero s1 := ⟨h.1⟩
    have : NeZero s2 := ⟨h.2⟩
    let ups : Fin s1 × Fin s2 → ℝ := fun i => (z.2.2 i).re
    let er ← chi2mapToErrorsA A Z (sigmaToChi2 stats 2 1) ups us
    let best := Np.argmin ups
    let returns := [RetVal.num (-(Z.addR (z.2.1 best.2) (-xcen))), .num (-(Z.addR (z.1 best.1) (-ycen)))]
    let returns := if returnError then
      returns ++ [.num (Z.addR er.xLow er.xHigh / 2)] ++ [.num (Z.addR er.yLow er.yHigh / 2)] else returns
    let returns := if returnChi2array then
      returns ++ [.arrays s1 s2 (fun i => Z.addR (z.2.1 i.2) (-xcen)) (fun i => Z.addR (z.1 i.1) (-ycen)) ups] else returns
    return returns
  else .error .valueError

end ImgReg
