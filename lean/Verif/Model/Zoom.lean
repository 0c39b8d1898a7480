import Verif.Model.Scale

/-!
# Model of `image_registration/fft_tools/zoom.py`
-/

open Complex

namespace ImgReg

/-- What the zoom functions return: the array, or `(coordinates, array)` with `return_xouts`. -/
inductive ZoomRes (α : Type) where
  | plain (a : α)
  | withX (xouts : Arr) (a : α)

/-- `if return_xouts: return outarr, result else: return result`
(zoom.py:48-51 and 116-119). -/
def zoomReturn {α : Type} (returnXouts : Bool) (xouts : Arr) (a : α) : ZoomRes α :=
  if returnXouts then .withX xouts a else .plain a

/-- `zoom1d(inp, usfac, outsize, offset, nthreads, use_numpy_fft, return_xouts, return_real)`
(zoom.py:5-51) for a nonempty 1-D array.  `usfac = 0` divides by zero (zoom.py:43). -/
noncomputable def zoom1d {n : ℕ} [NeZero n] (cfg : FFTConfig) (inp : Fin n → CPix) (usfac : ℝ)
    (outsize : Option ℕ) (offset : ℝ) (returnXouts returnReal : Bool) : Py (ZoomRes Out1) :=
  open Classical in
  let outsize := outsize.getD n
  let middle : ℝ := ((n : ℝ) - 1) / 2 + offset
  if usfac = 0 then .error .zeroDivisionError
  else
    let outarr : Arr := Arr.ofVec (Np.linspace (middle - ((outsize : ℝ) - 1) / usfac / 2)
      (middle + ((outsize : ℝ) - 1) / usfac / 2) outsize)
    do
      let result ← fourierInterp1d cfg inp outarr none returnReal
      return zoomReturn returnXouts outarr result

/-- One axis of the coordinate grid of `zoom_on_pixel` (zoom.py:89-101): a linspace about the target
coordinate; an axis without a target (`zip` ended early) keeps the zeros of `np.zeros`. -/
noncomputable def zoomAxis (target : Option ℝ) (usfac : ℝ) (outsize : ℕ) : Fin outsize → ℝ :=
  match target with
  | some t => Np.linspace (t - ((outsize : ℝ) - 1) / usfac / 2)
      (t + ((outsize : ℝ) - 1) / usfac / 2) outsize
  | none => fun _ => 0

/-- `zoom_on_pixel` (zoom.py:53-119) for 1-D input.  `outarr` has shape `(1, outsize)`;
`outarr.squeeze()` (zoom.py:105) has shape `(outsize,)`, or `()` when `outsize` is 1. -/
noncomputable def zoomOnPixel1 {n : ℕ} [NeZero n] (cfg : FFTConfig) (inp : Fin n → CPix)
    (coordinates : List ℝ) (usfac : ℝ) (outshape : Option ℕ) (returnReal returnXouts : Bool) :
    Py (ZoomRes Out1) :=
  open Classical in
  let outsize := outshape.getD n
  if usfac = 0 ∧ coordinates ≠ [] then .error .zeroDivisionError
  else
    let ax := zoomAxis coordinates[0]? usfac outsize
    let outarr : Arr := ⟨[1, outsize], fun l =>
      if h : l.getD 1 0 < outsize then ax ⟨l.getD 1 0, h⟩ else 0⟩
    let squeezed : Arr := if outsize = 1 then ⟨[], fun _ => outarr.val [0, 0]⟩ else Arr.ofVec ax
    do
      let result ← fourierInterp1d cfg inp squeezed none returnReal
      return zoomReturn returnXouts outarr result

/-- `zoom_on_pixel` (zoom.py:53-119) for 2-D input: `outarr` is the index cube of shape
`(2, outshape[0], outshape[1])`. -/
noncomputable def zoomOnPixel2 {ny nx : ℕ} [NeZero ny] [NeZero nx] (cfg : FFTConfig)
    (inp : Fin ny × Fin nx → CPix) (coordinates : List ℝ) (usfac : ℝ) (outshape : Option (ℕ × ℕ))
    (returnReal returnXouts : Bool) : Py (ZoomRes Out2) :=
  open Classical in
  let outshape := outshape.getD (ny, nx)
  if usfac = 0 ∧ coordinates ≠ [] then .error .zeroDivisionError
  else
    let ay := zoomAxis coordinates[0]? usfac outshape.1
    let ax := zoomAxis coordinates[1]? usfac outshape.2
    let outarr : Arr := ⟨[2, outshape.1, outshape.2], fun l =>
      if l.getD 0 0 = 0 then (if h : l.getD 1 0 < outshape.1 then ay ⟨l.getD 1 0, h⟩ else 0)
      else (if h : l.getD 2 0 < outshape.2 then ax ⟨l.getD 2 0, h⟩ else 0)⟩
    do
      let result ← fourierInterp2d cfg inp (.nd outarr) returnReal
      return zoomReturn returnXouts outarr result

/-- `zoom_on_pixel` for input of 3 or more dimensions (zoom.py:113-114). -/
noncomputable def zoomOnPixelN {D : ℕ} {s : Fin D → ℕ} (_inp : (∀ d, Fin (s d)) → CPix)
    (coordinates : List ℝ) (usfac : ℝ) : Py (ZoomRes Out2) :=
  open Classical in
  if usfac = 0 ∧ coordinates ≠ [] then .error .zeroDivisionError
  else .error .notImplementedError

/-- The offset handling of `zoomnd` (zoom.py:159-170): `ValueError` for a nonempty tuple of the
wrong length, zeros for an empty one, then `middle_convention((insize-1)/2.) + off` per axis. -/
noncomputable def zoomMiddle (shape : List ℕ) (offsets : List ℝ) (middleConvention : ℝ → ℝ) :
    Py (List ℝ) :=
  if offsets.length > 0 ∧ offsets.length ≠ shape.length then .error .valueError
  else
    let offsets := if offsets.length = 0 then List.replicate shape.length 0 else offsets
    .ok (List.zipWith (fun (insize : ℕ) off => middleConvention (((insize : ℝ) - 1) / 2) + off)
      shape offsets)

/-- `zoomnd(inp, offsets, middle_convention, **kwargs)` (zoom.py:121-172) for 1-D input. -/
noncomputable def zoomnd1 {n : ℕ} [NeZero n] (cfg : FFTConfig) (inp : Fin n → CPix)
    (offsets : List ℝ) (middleConvention : ℝ → ℝ) (usfac : ℝ) (outshape : Option ℕ)
    (returnReal returnXouts : Bool) : Py (ZoomRes Out1) := do
  let middlepix ← zoomMiddle [n] offsets middleConvention
  zoomOnPixel1 cfg inp middlepix usfac outshape returnReal returnXouts

/-- `zoomnd(inp, offsets, middle_convention, **kwargs)` (zoom.py:121-172) for 2-D input. -/
noncomputable def zoomnd2 {ny nx : ℕ} [NeZero ny] [NeZero nx] (cfg : FFTConfig)
    (inp : Fin ny × Fin nx → CPix) (offsets : List ℝ) (middleConvention : ℝ → ℝ) (usfac : ℝ)
    (outshape : Option (ℕ × ℕ)) (returnReal returnXouts : Bool) : Py (ZoomRes Out2) := do
  let middlepix ← zoomMiddle [ny, nx] offsets middleConvention
  zoomOnPixel2 cfg inp middlepix usfac outshape returnReal returnXouts

/-- `zoomnd` for input of 3 or more dimensions. -/
noncomputable def zoomndN {D : ℕ} {s : Fin D → ℕ} (inp : (∀ d, Fin (s d)) → CPix)
    (offsets : List ℝ) (middleConvention : ℝ → ℝ) (usfac : ℝ) : Py (ZoomRes Out2) := do
  let middlepix ← zoomMiddle (List.ofFn s) offsets middleConvention
  zoomOnPixelN inp middlepix usfac

end ImgReg
