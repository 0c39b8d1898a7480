import Verif.Model.Zoom
import Verif.Model.Chi2

/-!
# Model of `image_registration/iterative_zoom.py` and of `chi2_shift_iterzoom`

`verbose` only prints and `ploteach` only draws; neither is modelled.  The `while` loop is modelled by
`zoomLoop fuel`, which gives `none` when the loop has not finished after `fuel` evaluations of the loop
condition: the Python function returns `r` exactly when `zoomLoop fuel = some r` for some `fuel`.
The 1-D version of the function has the same text with 1-D arrays; a 1-D array is modelled as an image of
one row (its row coordinate is constantly 0 and is dropped from the results).
-/

open Finset

namespace ImgReg

/-- `image_zoom` together with its coordinates `xaxzoom` (iterative_zoom.py:47-54, 72-73). -/
structure ZoomView where
  m : ℕ
  n : ℕ
  hm : NeZero m
  hn : NeZero n
  data : Fin m × Fin n → ℝ
  yax : Fin m × Fin n → ℝ
  xax : Fin m × Fin n → ℝ

/-- `np.min` or `np.max` (iterative_zoom.py:49): which extremum is searched for. -/
inductive MinMax where
  | min
  | max

/-- `np.unravel_index(argminmax(image_zoom), image_zoom.shape)` (iterative_zoom.py:66). -/
noncomputable def ZoomView.pos (v : ZoomView) (mm : MinMax) : Fin v.m × Fin v.n :=
  have := v.hm
  have := v.hn
  match mm with
  | .min => Np.argmin v.data
  | .max => Np.argmax v.data

/-- `image_zoom - minmax(image_zoom)` (iterative_zoom.py:53, 74). -/
noncomputable def ZoomView.delta (v : ZoomView) (mm : MinMax) (i : Fin v.m × Fin v.n) : ℝ :=
  v.data i - v.data (v.pos mm)

/-- `np.abs(delta_image[np.abs(delta_image)>0]).min()` (iterative_zoom.py:65): `none` when no pixel is
selected, which numpy reports as ValueError. -/
noncomputable def ZoomView.minDelta (v : ZoomView) (mm : MinMax) : Option ℝ :=
  open Classical in
  let sel := univ.filter fun i => |v.delta mm i| > 0
  if h : sel.Nonempty then some (Np.minOver sel h fun i => |v.delta mm i|) else none

/-- The local variables at the head of the loop (iterative_zoom.py:47-54); `center` is unbound (`none`)
until the loop body has run. -/
structure ZoomState where
  view : ZoomView
  zf : ℝ
  center : Option (ℝ × ℝ)
  offset : ℝ × ℝ

/-- The loop body up to the test at line 78 (iterative_zoom.py:66-74); `zoomOn center zf` is the call of
`zoom_on_pixel`, `mid` is `((shape[0]-1)/2, (shape[1]-1)/2)`. -/
noncomputable def zoomStep (zoomOn : ℝ × ℝ → ℝ → Py ZoomView) (mid : ℝ × ℝ) (mm : MinMax) (zoomstep : ℝ)
    (s : ZoomState) : Py ZoomState := do
  let minpos := s.view.pos mm
  let center := (s.view.yax minpos, s.view.xax minpos)
  let offset := (s.view.yax minpos - mid.1, s.view.xax minpos - mid.2)
  let zf := s.zf * zoomstep
  let view ← zoomOn center zf
  return ⟨view, zf, some center, offset⟩

/-- The `while` loop (iterative_zoom.py:65-81; iterative_zoom.py:173-193): the condition raises ValueError
when there is no nonzero difference, the body breaks when all differences are 0. -/
noncomputable def zoomLoop (zoomOn : ℝ × ℝ → ℝ → Py ZoomView) (mid : ℝ × ℝ) (mm : MinMax)
    (zoomstep mindiff : ℝ) : ℕ → ZoomState → Option (Py ZoomState)
  | 0, _ => none
  | fuel + 1, s =>
    open Classical in
    match s.view.minDelta mm with
    | none => some (.error .valueError)
    | some d =>
      if d > mindiff then
        match zoomStep zoomOn mid mm zoomstep s with
        | .error e => some (.error e)
        | .ok s' =>
          if ∀ i, s'.view.delta mm i = 0 then some (.ok s')
          else zoomLoop zoomOn mid mm zoomstep mindiff fuel s'
      else some (.ok s)

/-- What the function returns: the coordinates, with the zoomed image and the zoom factor before them if
`return_zoomed`. -/
inductive IterZoomRes where
  | plain (r : List ℝ)
  | zoomed (view : ZoomView) (zf : ℝ) (r : List ℝ)

/-- The end of the function (iterative_zoom.py:114-122; iterative_zoom.py:204-212); `coords` turns the pair
of coordinates into the returned tuple. -/
noncomputable def zoomFinish (coords : ℝ × ℝ → List ℝ) (returnZoomed returnCenter : Bool) (s : ZoomState) :
    Py IterZoomRes := do
  let result ←
    if returnCenter then
      match s.center with
      | some c => pure c
      | none => .error .unboundLocalError
    else pure s.offset
  return if returnZoomed then .zoomed s.view s.zf (coords result) else .plain (coords result)

/-- the view of a 2-D zoom: the array and the index cube returned by `zoom_on_pixel(…, return_xouts=True)`.
The other cases do not occur; taking the minimum of an empty array is a ValueError. -/
noncomputable def viewOf2 : ZoomRes Out2 → Py ZoomView
  | .withX cube ⟨m, l, .real a⟩ =>
    if h : m ≠ 0 ∧ l ≠ 0 then
      .ok ⟨m, l, ⟨h.1⟩, ⟨h.2⟩, finiteVals a, fun i => cube.val [0, i.1, i.2], fun i => cube.val [1, i.1, i.2]⟩
    else .error .valueError
  | _ => .error .typeError

/-- the one-row view of a 1-D zoom; `xaxzoom.squeeze()` is row 0 of the `(1, outsize)` array
(iterative_zoom.py:175). -/
noncomputable def viewOf1 : ZoomRes Out1 → Py ZoomView
  | .withX cube ⟨l, .real a⟩ =>
    if h : l ≠ 0 then
      .ok ⟨1, l, ⟨one_ne_zero⟩, ⟨h⟩, fun i => finiteVals a i.2, fun _ => 0, fun i => cube.val [0, i.2]⟩
    else .error .valueError
  | _ => .error .typeError

/-- `iterative_zoom(image, mindiff, zoomshape, return_zoomed, zoomstep, minmax=…, return_center)`
(iterative_zoom.py:5-122), for a nonempty image; the result after at most `fuel` tests of the loop condition.
If a pixel is NaN, so is `minmax(image)` and every difference: nothing is selected at line 65 and `.min()`
raises ValueError. -/
noncomputable def iterativeZoom {ny nx : ℕ} [NeZero ny] [NeZero nx] (hasFftw : Bool) (fuel : ℕ)
    (image : Fin ny × Fin nx → Pix) (mindiff : ℝ) (zoomshape : ℕ × ℕ) (zoomstep : ℝ) (mm : MinMax)
    (returnZoomed returnCenter : Bool) : Option (Py IterZoomRes) :=
  open Classical in
  if ∃ i, image i = none then some (.error .valueError)
  else
    let start : ZoomState := ⟨⟨ny, nx, inferInstance, inferInstance, finiteVals image,
      fun i => ((i.1 : ℕ) : ℝ), fun i => ((i.2 : ℕ) : ℝ)⟩, 1, none, (0, 0)⟩
    let zoomOn := fun (center : ℝ × ℝ) zf =>
      zoomOnPixel2 ⟨hasFftw, false, 1⟩ (toC image) [center.1, center.2] zf (some zoomshape) true true >>= viewOf2
    let mid := (((ny : ℝ) - 1) / 2, ((nx : ℝ) - 1) / 2)
    (zoomLoop zoomOn mid mm zoomstep mindiff fuel start).map fun r =>
      r >>= zoomFinish (fun c => [c.1, c.2]) returnZoomed returnCenter

/-- `iterative_zoom_1d(data, mindiff, zoomshape, return_zoomed, zoomstep, minmax=…, return_center)`
(iterative_zoom.py:130-212).  When the loop body never runs `offset` is the number 0 instead of a
1-tuple; both are the list `[x]` here. -/
noncomputable def iterativeZoom1d {n : ℕ} [NeZero n] (hasFftw : Bool) (fuel : ℕ)
    (data : Fin n → Pix) (mindiff : ℝ) (zoomshape : ℕ) (zoomstep : ℝ) (mm : MinMax)
    (returnZoomed returnCenter : Bool) : Option (Py IterZoomRes) :=
  open Classical in
  if ∃ i, data i = none then some (.error .valueError)
  else
    let start : ZoomState := ⟨⟨1, n, ⟨one_ne_zero⟩, inferInstance, fun i => finiteVals data i.2,
      fun _ => 0, fun i => ((i.2 : ℕ) : ℝ)⟩, 1, none, (0, 0)⟩
    let zoomOn := fun (center : ℝ × ℝ) zf =>
      zoomOnPixel1 ⟨hasFftw, false, 1⟩ (toC data) [center.2] zf (some zoomshape) true true >>= viewOf1
    let mid := (0, ((n : ℝ) - 1) / 2)
    (zoomLoop zoomOn mid mm zoomstep mindiff fuel start).map fun r =>
      r >>= zoomFinish (fun c => [c.2]) returnZoomed returnCenter

/-- `centers_to_edges(arr)` (iterative_zoom.py:124-127, repeated at 214-217); IndexError for fewer than two
elements. -/
noncomputable def centersToEdges {n : ℕ} (arr : Fin n → ℝ) : Py (Fin (n + 1) → ℝ) :=
  if h : 1 < n then
    have : (univ : Finset (Fin n)).Nonempty := ⟨⟨0, by omega⟩, mem_univ _⟩
    let dx := arr ⟨1, h⟩ - arr ⟨0, by omega⟩
    .ok (Np.linspace (Np.minOver univ this arr - dx / 2) (Np.maxOver univ this arr + dx / 2) (n + 1))
  else .error .indexError

/-! ### `chi2_shift_iterzoom` -/

/-- The end of `chi2_shift_iterzoom` (chi2_shifts.py:417-432): `offsets` is the pair `(y, x)`, `rezoom` the
rezoomed map with its coordinates. -/
noncomputable def iterzoomFinish (stats : Stats) (ny nx : ℕ) (offsets : List ℝ) (rezoom : ZoomView) (zf : ℝ)
    (returnError returnChi2array : Bool) : Py (List RetVal) := do
  have := rezoom.hm
  have := rezoom.hn
  let returns := offsets.reverse.map fun off => RetVal.num (-off)
  let returns ← if returnError then do
      let er ← chi2mapToErrors stats rezoom.data zf 1 2
      pure (returns ++ [.num ((er.xLow + er.xHigh) / 2)] ++ [.num ((er.yLow + er.yHigh) / 2)])
    else pure returns
  let returns := if returnChi2array then
      returns ++ [.arrays rezoom.m rezoom.n (fun i => ((nx : ℝ) - 1) / 2 - rezoom.xax i)
        (fun i => ((ny : ℝ) - 1) / 2 - rezoom.yax i) rezoom.data]
    else returns
  return returns

/-- `chi2_shift_iterzoom(im1, im2, err, …)` (chi2_shifts.py:309-432).  The name `allow_huge` used at line 399
is neither a parameter nor a global of the module: `allowHuge` is the value the name would have, `none`
meaning that it is unbound, as it is in the repository (`chi2ShiftIterzoom` below).  `**kwargs` is empty;
`zoom_shape` and `rezoom_shape` are pairs. `upsample_factor` is not used by the code. -/
noncomputable def chi2ShiftIterzoomBody {ny nx my mx : ℕ} [NeZero ny] [NeZero nx] (allowHuge : Option Bool)
    (cfg : FFTConfig) (stats : Stats) (fuel : ℕ) (im1 : Fin ny × Fin nx → Pix) (im2 : Fin my × Fin mx → Pix)
    (err : ErrArg ny nx) (zeromean returnError returnChi2array : Bool) (zoomShape rezoomShape : ℕ × ℕ)
    (rezoomFactor mindiff : ℝ) : Option (Py (List RetVal)) :=
  open Classical in
  match allowHuge with
  | none => some (.error .nameError)
  | some ah =>
    match chi2nMap cfg im1 im2 err zeromean true false ah with
    | .error e => some (.error e)
    | .ok (.only _) => some (.error .valueError)
    | .ok (.all cm) =>
      (iterativeZoom cfg.hasFftw fuel (realArr cm.chi2) mindiff zoomShape 2 .min true false).map fun r => do
        let r ← r
        match r with
        | .plain _ => .error .valueError
        | .zoomed chi2zoom zf offsets =>
          let us := if ∀ i, chi2zoom.data i = 0 then zf else zf * rezoomFactor
          let rezoom ← zoomnd2 ⟨cfg.hasFftw, false, 1⟩ (rArr cm.chi2) offsets (fun t => (⌊t⌋ : ℤ)) us
            (some rezoomShape) true true >>= viewOf2
          iterzoomFinish stats ny nx offsets rezoom (zf * rezoomFactor) returnError returnChi2array

/-- `chi2_shift_iterzoom` as it is at this commit: `allow_huge` is unbound. -/
noncomputable def chi2ShiftIterzoom {ny nx my mx : ℕ} [NeZero ny] [NeZero nx]
    (cfg : FFTConfig) (stats : Stats) (fuel : ℕ) (im1 : Fin ny × Fin nx → Pix) (im2 : Fin my × Fin mx → Pix)
    (err : ErrArg ny nx) (zeromean returnError returnChi2array : Bool) (zoomShape rezoomShape : ℕ × ℕ)
    (rezoomFactor mindiff : ℝ) : Option (Py (List RetVal)) :=
  chi2ShiftIterzoomBody none cfg stats fuel im1 im2 err zeromean returnError returnChi2array zoomShape
    rezoomShape rezoomFactor mindiff

end ImgReg
