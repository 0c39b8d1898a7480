import Verif.Model.InexactZoom
import Verif.Model.IterZoom

/-!
# `iterative_zoom` in inexact arithmetic

`image_registration/iterative_zoom.py:5-122` once more, with every numerical operation replaced by one of `ZoomArith`
(`Model/InexactZoom.lean`).  Comparisons, `np.abs`, `argmin`/`argmax`, `minmax` and the choice of elements are exact in floating point,
and so is `(shape-1)/2`.  The image is finite (a NaN raises ValueError at the first test, see `iterativeZoom`) and the zoom shape nonempty.
-/

open Finset

namespace ImgReg

/-- `image_zoom - minmax(image_zoom)` (iterative_zoom.py:53, 74) -/
noncomputable def ZoomView.deltaA (Z : ZoomArith) (v : ZoomView) (mm : MinMax) (i : Fin v.m × Fin v.n) : ℝ :=
  Z.addR (v.data i) (-v.data (v.pos mm))

/-- `np.abs(delta_image[np.abs(delta_image)>0]).min()` (iterative_zoom.py:65): `none` when no pixel is selected (ValueError) -/
noncomputable def ZoomView.minDeltaA (Z : ZoomArith) (v : ZoomView) (mm : MinMax) : Option ℝ :=
  open Classical in
  let sel := univ.filter fun i => |v.deltaA Z mm i| > 0
  if h : sel.Nonempty then some (Np.minOver sel h fun i => |v.deltaA Z mm i|) else none

/-- `xaxzoom, image_zoom = zoom.zoom_on_pixel(image, center, usfac=zf, outshape=zoomshape, return_xouts=True)`
(iterative_zoom.py:72-73); dividing by a zoom factor 0 raises ZeroDivisionError -/
noncomputable def zoomOnA (Z : ZoomArith) {ny nx : ℕ} [NeZero ny] [NeZero nx] (x : Fin ny × Fin nx → ℝ) (m l : ℕ) [hm : NeZero m]
    [hl : NeZero l] (c : ℝ × ℝ) (zf : ℝ) : Py ZoomView :=
  open Classical in
  if zf = 0 then .error .zeroDivisionError
  else
    let z := zoom2A Z (fun i => (x i : ℂ)) c.1 c.2 zf m l
    .ok ⟨m, l, hm, hl, fun i => (z.2.2 i).re, fun i => z.1 i.1, fun i => z.2.1 i.2⟩

/-- The loop body up to the test at line 78 (iterative_zoom.py:66-74) -/
noncomputable def zoomStepA (Z : ZoomArith) (zoomOn : ℝ × ℝ → ℝ → Py ZoomView) (mid : ℝ × ℝ) (mm : MinMax) (zoomstep : ℝ)
    (s : ZoomState) : Py ZoomState := do
  let minpos := s.view.pos mm
  let center := (s.view.yax minpos, s.view.xax minpos)
  let offset := (Z.addR (s.view.yax minpos) (-mid.1), Z.addR (s.view.xax minpos) (-mid.2))
  let zf := Z.mulR s.zf zoomstep
  let view ← zoomOn center zf
  return ⟨view, zf, some center, offset⟩

/-- The `while` loop (iterative_zoom.py:65-81), as `zoomLoop` -/
noncomputable def zoomLoopA (Z : ZoomArith) (zoomOn : ℝ × ℝ → ℝ → Py ZoomView) (mid : ℝ × ℝ) (mm : MinMax)
    (zoomstep mindiff : ℝ) : ℕ → ZoomState → Option (Py ZoomState)
  | 0, _ => none
  | fuel + 1, s =>
    open Classical in
    match s.view.minDeltaA Z mm with
    | none => some (.error .valueError)
    | some d =>
      if d > mindiff then
        match zoomStepA Z zoomOn mid mm zoomstep s with
        | .error e => some (.error e)
        | .ok s' =>
          if ∀ i, s'.view.deltaA Z mm i = 0 then some (.ok s')
          else zoomLoopA Z zoomOn mid mm zoomstep mindiff fuel s'
      else some (.ok s)

/-- `iterative_zoom(image, mindiff, zoomshape, return_zoomed, zoomstep, minmax=…, return_center)` (iterative_zoom.py:5-122);
the result after at most `fuel` tests of the loop condition -/
noncomputable def iterativeZoomA (Z : ZoomArith) {ny nx : ℕ} [NeZero ny] [NeZero nx] (fuel : ℕ)
    (image : Fin ny × Fin nx → ℝ) (mindiff : ℝ) (m l : ℕ) [NeZero m] [NeZero l] (zoomstep : ℝ) (mm : MinMax)
    (returnZoomed returnCenter : Bool) : Option (Py IterZoomRes) :=
  let start : ZoomState := ⟨⟨ny, nx, inferInstance, inferInstance, image,
    fun i => ((i.1 : ℕ) : ℝ), fun i => ((i.2 : ℕ) : ℝ)⟩, 1, none, (0, 0)⟩
  let mid := (((ny : ℝ) - 1) / 2, ((nx : ℝ) - 1) / 2)
  (zoomLoopA Z (zoomOnA Z image m l) mid mm zoomstep mindiff fuel start).map fun r =>
    r >>= zoomFinish (fun c => [c.1, c.2]) returnZoomed returnCenter

end ImgReg
