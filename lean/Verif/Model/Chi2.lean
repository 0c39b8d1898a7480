import Verif.Model.Correlate
import Verif.Model.Zoom
import Verif.NumpyArg
import Mathlib.Analysis.SpecialFunctions.Pow.Real

/-!
# Model of `image_registration/chi2_shifts.py`
-/

open Complex Finset

namespace ImgReg

/-- The `err` argument of `chi2n_map`: `None`, a number, or an image of the same shape as `im2`. -/
inductive ErrArg (ny nx : ℕ) where
  | none
  | scalar (s : ℝ)
  | image (e : Fin ny × Fin nx → Pix)

/-- `term3` of `chi2n_map` is an array for an error image and a scalar otherwise. -/
inductive Term3 (ny nx : ℕ) where
  | scalar (t : ℝ)
  | image (t : Fin ny × Fin nx → ℝ)

/-- value of term 3 at a pixel of the map (numpy broadcasting of a scalar) -/
def Term3.at {ny nx : ℕ} : Term3 ny nx → Fin ny × Fin nx → ℝ
  | .scalar t, _ => t
  | .image t, i => t i

/-- What `chi2n_map` computes. -/
structure Chi2Map (ny nx : ℕ) where
  chi2 : Fin ny × Fin nx → ℝ
  term1 : ℝ
  term2 : Fin ny × Fin nx → ℝ
  term3 : Term3 ny nx

/-- What `chi2n_map` returns (chi2_shifts.py:517-520). -/
inductive Chi2Ret (ny nx : ℕ) where
  | only (chi2 : Fin ny × Fin nx → ℝ)
  | all (m : Chi2Map ny nx)

/-- `im[im==im].mean()` (chi2_shifts.py:478-479); the mean of no pixel is NaN. -/
noncomputable def nanMean {ny nx : ℕ} (im : Fin ny × Fin nx → Pix) : Pix :=
  if (univ.filter fun i => (im i).isSome).card = 0 then none
  else some ((∑ i ∈ univ.filter fun i => (im i).isSome, (im i).getD 0)
    / ((univ.filter fun i => (im i).isSome).card : ℝ))

/-- `im - mean` with NaN propagating (chi2_shifts.py:478-479). -/
noncomputable def subPix {ny nx : ℕ} (im : Fin ny × Fin nx → Pix) (c : Pix) :
    Fin ny × Fin nx → Pix := fun i => Option.map₂ (· - ·) (im i) c

/-- The values of a real array in which no NaN can be left. -/
noncomputable def finiteVals {ι : Type} (a : ι → Pix) : ι → ℝ := fun i => (a i).getD 0

/-- The body of `chi2n_map` (chi2_shifts.py:477-515) after the shape check.
Division by a zero scalar error, and by zero degrees of freedom with `reduced`, produce infinities in
numpy and are not modelled. `nan_to_num` copies, so the caller's arrays are never written to. -/
noncomputable def chi2nMapBodyB {ny nx : ℕ} (cfg : FFTConfig) (boundary : CorrBoundary)
    (im1 im2 : Fin ny × Fin nx → Pix) (err : ErrArg ny nx) (zeromean reduced allowHuge : Bool) :
    Py (Chi2Map ny nx) := do
  let im1 := if zeromean then subPix im1 (nanMean im1) else im1
  let im2 := if zeromean then subPix im2 (nanMean im2) else im2
  let im1 := finiteVals (Np.nanToNum im1)
  let im2 := finiteVals (Np.nanToNum im2)
  let (im1, im2, errv, term3) ← (match err with
    | .image er => do
      let er := finiteVals (Np.nanToNum er)
      let im2 := fun i => if er i = 0 then 0 else im2 i
      let im1 := fun i => if er i = 0 then 0 else im1 i
      let er := fun i => if er i = 0 then 1 else er i
      let t ← correlate2dB cfg boundary allowHuge (realArr fun i => im1 i ^ 2)
        (realArr fun i => 1 / er i ^ 2)
      pure (im1, im2, er, Term3.image (finiteVals t))
    | .scalar s => pure (im1, im2, fun _ => s, Term3.scalar (∑ i, im1 i ^ 2 / s ^ 2))
    | .none => pure (im1, im2, fun _ => 1, Term3.scalar (∑ i, im1 i ^ 2 / 1 ^ 2)) :
      Py ((Fin ny × Fin nx → ℝ) × (Fin ny × Fin nx → ℝ) × (Fin ny × Fin nx → ℝ) × Term3 ny nx))
  let term1 := ∑ i, im2 i ^ 2 / errv i ^ 2
  let corr ← correlate2dB cfg boundary allowHuge (realArr im1) (realArr fun i => im2 i / errv i ^ 2)
  let term2 := fun i => -2 * finiteVals corr i
  let chi2 := fun i => term1 + term2 i + term3.at i
  let chi2 := if reduced then fun i => chi2 i / ((ny : ℝ) * nx - 2) else chi2
  return ⟨chi2, term1, term2, term3⟩

/-- The body of `chi2n_map` with the default `boundary='wrap'` (chi2_shifts.py:434). -/
noncomputable def chi2nMapBody {ny nx : ℕ} (cfg : FFTConfig)
    (im1 im2 : Fin ny × Fin nx → Pix) (err : ErrArg ny nx) (zeromean reduced allowHuge : Bool) :
    Py (Chi2Map ny nx) := chi2nMapBodyB cfg .wrap im1 im2 err zeromean reduced allowHuge

/-- `chi2n_map(im1, im2, err, boundary, …)` (chi2_shifts.py:434-520). -/
noncomputable def chi2nMapB {ny nx my mx : ℕ} (cfg : FFTConfig) (boundary : CorrBoundary)
    (im1 : Fin ny × Fin nx → Pix) (im2 : Fin my × Fin mx → Pix) (err : ErrArg ny nx)
    (zeromean returnAll reduced allowHuge : Bool) : Py (Chi2Ret ny nx) :=
  if h : ny = my ∧ nx = mx then do
    let m ← chi2nMapBodyB cfg boundary im1 (fun i => im2 (Fin.cast h.1 i.1, Fin.cast h.2 i.2)) err
      zeromean reduced allowHuge
    return if returnAll then .all m else .only m.chi2
  else .error .valueError

/-- `chi2n_map(im1, im2, err, …)` with the default `boundary='wrap'` (chi2_shifts.py:434). -/
noncomputable def chi2nMap {ny nx my mx : ℕ} (cfg : FFTConfig)
    (im1 : Fin ny × Fin nx → Pix) (im2 : Fin my × Fin mx → Pix) (err : ErrArg ny nx)
    (zeromean returnAll reduced allowHuge : Bool) : Py (Chi2Ret ny nx) :=
  chi2nMapB cfg .wrap im1 im2 err zeromean returnAll reduced allowHuge

/-- The `err` argument as the caller passes it: an error image may have any (2-D) shape. -/
inductive ErrInput where
  | none
  | scalar (s : ℝ)
  | image (ey ex : ℕ) (e : Fin ey × Fin ex → Pix)

/-- `chi2n_map` with an error argument of any shape (chi2_shifts.py:434-520): after the check of the image shapes,
`im2[err==0] = 0` (chi2_shifts.py:488) raises IndexError when the boolean mask has another shape than `im2`. -/
noncomputable def chi2nMapErr {ny nx my mx : ℕ} (cfg : FFTConfig) (boundary : CorrBoundary)
    (im1 : Fin ny × Fin nx → Pix) (im2 : Fin my × Fin mx → Pix) (err : ErrInput)
    (zeromean returnAll reduced allowHuge : Bool) : Py (Chi2Ret ny nx) :=
  if ny = my ∧ nx = mx then
    match err with
    | .none => chi2nMapB cfg boundary im1 im2 .none zeromean returnAll reduced allowHuge
    | .scalar s => chi2nMapB cfg boundary im1 im2 (.scalar s) zeromean returnAll reduced allowHuge
    | .image ey ex e =>
      if h : ny = ey ∧ nx = ex then
        chi2nMapB cfg boundary im1 im2 (.image fun i => e (Fin.cast h.1 i.1, Fin.cast h.2 i.2)) zeromean returnAll reduced
          allowHuge
      else .error .indexError
  else .error .valueError

/-! ### `chi2map_to_errors` and `chi2_shift` -/

/-- `scipy.stats`: `none` when it cannot be imported, otherwise the function
`(nsigma, nfitted) ↦ chi2.ppf(1 - norm.sf(nsigma)*2, nfitted)`, left abstract. -/
abbrev Stats := Option (ℝ → ℝ → ℝ)

/-- `sigma_to_chi2` inside `chi2map_to_errors` (chi2_shifts.py:281-290). -/
noncomputable def sigmaToChi2 (stats : Stats) (nfitted x : ℝ) : ℝ :=
  match stats with
  | some ppf => if x < 8 then ppf x nfitted else 1.59358435 * x ^ (1.80468278 : ℝ)
  | none => 1.59358435 * x ^ (1.80468278 : ℝ)

/-- The four numbers `(errx_low, errx_high, erry_low, erry_high)`. -/
structure Errors where
  xLow : ℝ
  xHigh : ℝ
  yLow : ℝ
  yHigh : ℝ

/-- `chi2map_to_errors(chi2map, zoomfactor, nsigma, nfitted)` (chi2_shifts.py:254-307) for a
nonempty map and `zoomfactor ≠ 0`; `.min()` of an empty selection raises ValueError. -/
noncomputable def chi2mapToErrors {m n : ℕ} [NeZero m] [NeZero n] (stats : Stats)
    (chi2map : Fin m × Fin n → ℝ) (zoomfactor nsigma nfitted : ℝ) : Py Errors :=
  open Classical in
  let yy := fun i : Fin m × Fin n => (((i.1 : ℕ) : ℝ) - (m : ℝ) / 2) / zoomfactor
  let xx := fun i : Fin m × Fin n => (((i.2 : ℕ) : ℝ) - (n : ℝ) / 2) / zoomfactor
  let xcen := xx (Np.argmin chi2map)
  let ycen := yy (Np.argmin chi2map)
  let deltachi2 := fun i => chi2map i - chi2map (Np.argmin chi2map)
  let area := univ.filter fun i => deltachi2 i < sigmaToChi2 stats nfitted nsigma
  if h : area.Nonempty then
    .ok ⟨xcen - Np.minOver area h xx, Np.maxOver area h xx - xcen,
      ycen - Np.minOver area h yy, Np.maxOver area h yy - ycen⟩
  else .error .valueError

/-- The `upsample_factor` argument (chi2_shifts.py:13, 85): `'auto'`, a Python int, or a Python float.  A negative int is left out: it makes a
negative shape, which `np.zeros` (zoom.py:87) refuses with ValueError. -/
inductive UsFactor where
  | auto
  | int (u : ℕ)
  | float (u : ℝ)

/-- One entry of the list `chi2_shift` returns. -/
inductive RetVal where
  | num (r : ℝ)
  | arrays (rows cols : ℕ) (xvals yvals chi2 : Fin rows × Fin cols → ℝ)

/-- The centre pixel `xlen/2 - (1 if xlen % 2 == 0 else 0.5)` (chi2_shifts.py:157-158). -/
noncomputable def chi2Centre (n : ℕ) : ℝ := (n : ℝ) / 2 - (if n % 2 = 0 then 1 else 0.5)

/-- `m_auto` (chi2_shifts.py:170-182). -/
noncomputable def mAuto (stats : Stats) (maxNsig nfitted : ℝ) : ℝ :=
  match stats with
  | some ppf => ppf maxNsig nfitted
  | none => 2.6088233328527037

/-- The automatic choice of the upsampling factor (chi2_shifts.py:186-207): returns
`upsample_factor`; the `verbose` print evaluates `deltachi2[deltachi2>0].min()`, which raises
ValueError when the map is constant.  `size` is never 0 (`regionSize_pos`), so the division by zero is
unreachable. -/
noncomputable def autoUpsample {ny nx : ℕ} [NeZero ny] [NeZero nx] (chi2 : Fin ny × Fin nx → ℝ)
    (mAuto : ℝ) (maxAutoSize : ℕ) (verbose : Bool) : Py ℝ :=
  open Classical in
  let delta := fun i => chi2 i - chi2 (Np.argmin chi2)
  if verbose && decide (¬ ∃ i, 0 < delta i) then .error .valueError
  else
    let area := univ.filter fun i => delta i < mAuto
    let size : ℝ :=
      if h : 1 < area.card then
        have hne : area.Nonempty := card_pos.1 (by omega)
        let xv := fun i : Fin ny × Fin nx => ((i.2 : ℕ) : ℝ)
        let yv := fun i : Fin ny × Fin nx => ((i.1 : ℕ) : ℝ)
        max (Np.maxOver area hne xv - Np.minOver area hne xv)
          (Np.maxOver area hne yv - Np.minOver area hne yv)
      else 1
    if size = 0 then .error .zeroDivisionError
    else
      let us : ℝ := (maxAutoSize : ℝ) / 2 / size
      .ok (if us < 1 then 1 else us)

/-- The choice of `(upsample_factor, s1, s2)` (chi2_shifts.py:185-215).  With a float factor the
shape `2*upsample_factor` is a float, which `np.zeros` (zoom.py:87) refuses with TypeError. -/
noncomputable def chooseUpsample {ny nx : ℕ} [NeZero ny] [NeZero nx] (chi2 : Fin ny × Fin nx → ℝ)
    (us : UsFactor) (mAuto : ℝ) (maxAutoSize : ℕ) (verbose : Bool) : Py (ℝ × ℕ × ℕ) :=
  open Classical in
  match us with
  | .auto => do
    let u ← autoUpsample chi2 mAuto maxAutoSize verbose
    return (u, maxAutoSize, maxAutoSize)
  | .int u =>
    if u = 0 then .error .zeroDivisionError
    else if (ny : ℝ) / (u : ℝ) ≤ 1 then .ok ((u : ℝ), 2 * u, 2 * u)
    else .ok ((u : ℝ), ny, nx)
  | .float u =>
    if u = 0 then .error .zeroDivisionError
    else if (ny : ℝ) / u ≤ 1 then .error .typeError
    else .ok (u, ny, nx)

/-- The part of `chi2_shift` after the zoom (chi2_shifts.py:223-252), for the zoomed map `chi2ups`
with coordinate arrays `ycor`, `xcor`. -/
noncomputable def chi2ShiftFinish {m l : ℕ} [NeZero m] [NeZero l] (stats : Stats)
    (chi2ups ycor xcor : Fin m × Fin l → ℝ) (us ycen xcen : ℝ)
    (verbose returnError returnChi2array : Bool) : Py (List RetVal) :=
  open Classical in do
  let delta := fun i => chi2ups i - chi2ups (Np.argmin chi2ups)
  if verbose && decide (¬ ∃ i, 0 < delta i) then .error .valueError
  let er ← chi2mapToErrors stats chi2ups us 1 2
  let yshiftCorr := ycor (Np.argmin chi2ups) - ycen
  let xshiftCorr := xcor (Np.argmin chi2ups) - xcen
  let returns := [RetVal.num (-xshiftCorr), .num (-yshiftCorr)]
  let returns := if returnError then
    returns ++ [.num ((er.xLow + er.xHigh) / 2)] ++ [.num ((er.yLow + er.yHigh) / 2)] else returns
  let returns := if returnChi2array then
    returns ++ [.arrays m l (fun i => xcor i - xcen) (fun i => ycor i - ycen) chi2ups] else returns
  return returns

/-- `chi2_shift(im1, im2, err, upsample_factor, boundary, …)` (chi2_shifts.py:13-252).
`zoom.zoomnd` is called with its default FFT arguments (chi2_shifts.py:217-221); its result is real
and free of NaN, so the two last match arms cannot be reached. -/
noncomputable def chi2ShiftB {ny nx my mx : ℕ} [NeZero ny] [NeZero nx] (cfg : FFTConfig)
    (boundary : CorrBoundary) (stats : Stats) (im1 : Fin ny × Fin nx → Pix) (im2 : Fin my × Fin mx → Pix)
    (err : ErrArg ny nx) (usArg : UsFactor) (zeromean : Bool) (nfitted : ℝ) (verbose : Bool)
    (returnError returnChi2array : Bool) (maxAutoSize : ℕ) (maxNsig : ℝ) (allowHuge : Bool) :
    Py (List RetVal) := do
  let ret ← chi2nMapB cfg boundary im1 im2 err zeromean true false allowHuge
  match ret with
  | .only _ => .error .valueError
  | .all cm =>
    let chi2 := cm.chi2
    let peak := Np.argmin chi2
    let xcen := chi2Centre nx
    let ycen := chi2Centre ny
    let yshift := ((peak.1 : ℕ) : ℝ) - ycen
    let xshift := ((peak.2 : ℕ) : ℝ) - xcen
    let (us, s1, s2) ← chooseUpsample chi2 usArg (mAuto stats maxNsig nfitted) maxAutoSize verbose
    let z ← zoomnd2 ⟨cfg.hasFftw, false, 1⟩ (rArr chi2) [yshift, xshift] id us (some (s1, s2))
      true true
    match z with
    | .withX cube ⟨m, l, .real a⟩ =>
      if h : m ≠ 0 ∧ l ≠ 0 then
        have : NeZero m := ⟨h.1⟩
        have : NeZero l := ⟨h.2⟩
        chi2ShiftFinish stats (finiteVals a) (fun i => cube.val [0, i.1, i.2])
          (fun i => cube.val [1, i.1, i.2]) us ycen xcen verbose returnError returnChi2array
      else .error .valueError
    | .withX _ ⟨_, _, .cplx _⟩ => .error .typeError
    | .plain _ => .error .typeError

/-- `chi2_shift(im1, im2, err, upsample_factor, …)` with the default `boundary='wrap'`
(chi2_shifts.py:13). -/
noncomputable def chi2Shift {ny nx my mx : ℕ} [NeZero ny] [NeZero nx] (cfg : FFTConfig)
    (stats : Stats) (im1 : Fin ny × Fin nx → Pix) (im2 : Fin my × Fin mx → Pix)
    (err : ErrArg ny nx) (usArg : UsFactor) (zeromean : Bool) (nfitted : ℝ) (verbose : Bool)
    (returnError returnChi2array : Bool) (maxAutoSize : ℕ) (maxNsig : ℝ) (allowHuge : Bool) :
    Py (List RetVal) :=
  chi2ShiftB cfg .wrap stats im1 im2 err usArg zeromean nfitted verbose returnError returnChi2array
    maxAutoSize maxNsig allowHuge

end ImgReg
