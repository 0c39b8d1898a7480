import Verif.Model.CrossCorr
import Verif.Props.Shift

/-!
# Model of `chi2_shift_leastsq` and `per_iteration` (`image_registration/chi2_shifts.py:523-651`)

`lmfit.minimize` and `scipy.ndimage.map_coordinates` are external: parameters.  `verbose` only adds prints.
-/

open Finset

namespace ImgReg

variable {ny nx : ℕ} [NeZero ny] [NeZero nx]

/-- the argument `err` of `chi2_shift_leastsq`: `None`, a number, or an array (a float array, which may get infinities) -/
inductive LsqErr (ny nx : ℕ) where
  | none
  | scalar (e : ℝ)
  | image (e : Fin ny × Fin nx → Fl)

/-- the parameters handed to lmfit (chi2_shifts.py:617-622): start values and the bound `±maxoff` of both, if any -/
structure LsqParams where
  guessx : ℝ
  guessy : ℝ
  bound : Option ℝ

/-- what is read from the result of lmfit (chi2_shifts.py:628-630); a standard error may be `None` -/
structure LsqFit where
  xsh : ℝ
  ysh : ℝ
  ex : Option ℝ
  ey : Option ℝ

/-- `lmfit.minimize(residuals, params, …)`: given the residuals at any `(xsh, ysh)`; it may raise. -/
abbrev Minimizer (ny nx : ℕ) := (ℝ → ℝ → Py (Fin ny × Fin nx → Pix)) → LsqParams → Py LsqFit

/-- a returned value: a number or None -/
abbrev LsqRet := List (Option ℝ)

/-- the pixels set to infinity in the caller's error array (chi2_shifts.py:564-567): `err[im2!=im2] = np.inf`, in place -/
def lsqErrAfter (im2 : Fin ny × Fin nx → Pix) : LsqErr ny nx → LsqErr ny nx
  | .image e => .image fun i => if (im2 i).isNone then .inf else e i
  | err => err

/-- NaN to 0, then minus the mean of all pixels (chi2_shifts.py:561-571) -/
noncomputable def lsqPrep (im : Fin ny × Fin nx → Pix) : Fin ny × Fin nx → ℝ :=
  let im0 := fun i => (im i).getD 0
  fun i => im0 i - (∑ j, im0 j) / ((ny * nx : ℕ) : ℝ)

/-- `r / e` for an error that may be infinite; `none` for a result that is not finite -/
noncomputable def divErr (r : Pix) (e : Fl) : Pix :=
  open Classical in
  match r, e with
  | some r, .fin e => if e = 0 then Option.none else some (r / e)
  | some _, .inf => some 0
  | _, _ => Option.none

/-- `shift.shiftnd(im, (-ysh, -xsh))` of a 2-D array (chi2_shifts.py:584, 608); the FFT settings are the defaults of
`shiftnd`. -/
noncomputable def lsqShift (hasFftw : Bool) (im : Fin ny × Fin nx → Pix) (xsh ysh : ℝ) : Fin ny × Fin nx → Pix :=
  match shiftnd (s := ![ny, nx]) ⟨hasFftw, false, 1⟩ (fun i => toC im (pairIdx i)) [-ysh, -xsh] 0 false true with
  | .real a => fun p => a (pairIdx.symm p)
  | .cplx _ => fun _ => Option.none

/-- `shift.shiftnd(err, (-ysh, -xsh))` (chi2_shifts.py:608); NaNs are replaced by 0 by `shiftnd`.  What floating-point
FFTs make of an error array with infinities is not modelled: `fftInf` (a parameter) says. -/
noncomputable def lsqShiftErr (hasFftw : Bool) (fftInf : (Fin ny × Fin nx → Fl) → ℝ → ℝ → Fin ny × Fin nx → Fl) (e : Fin ny × Fin nx → Fl) (xsh ysh : ℝ) : Fin ny × Fin nx → Fl :=
  open Classical in
  if ∃ i, e i = .inf then fftInf e xsh ysh
  else fun p => match lsqShift hasFftw (fun i => match e i with | .fin r => some r | _ => Option.none) xsh ysh p with
    | some r => .fin r
    | Option.none => .nan

/-- the nested function `residuals` (chi2_shifts.py:580-613); `mapImg` and `mapErr` are `map_coordinates(·,
[yy+ysh, xx+xsh], mode=mode)`.  `xcen` and `ycen` are floats (`xlen/2` is a true division), so that with `maxoff`, and
with `ignore_outside`, the bounds of the slices are floats, which numpy refuses with TypeError. -/
noncomputable def lsqResiduals (hasFftw useFft : Bool) (mapImg : (Fin ny × Fin nx → ℝ) → ℝ → ℝ → Fin ny × Fin nx → Pix)
    (mapErr fftInf : (Fin ny × Fin nx → Fl) → ℝ → ℝ → Fin ny × Fin nx → Fl) (maxoff : Option ℝ) (ignoreOutside : Bool)
    (err : LsqErr ny nx) (im1 im2 : Fin ny × Fin nx → ℝ) (xsh ysh : ℝ) : Py (Fin ny × Fin nx → Pix) :=
  let shifted := if useFft then lsqShift hasFftw (realArr im2) xsh ysh else mapImg im2 xsh ysh
  if maxoff.isSome then .error .typeError
  else if ignoreOutside then .error .typeError
  else
    let r := fun p => (shifted p).map fun s => |im1 p - s| / Real.sqrt ((ny * nx : ℕ) : ℝ)
    match err with
    | .none => .ok r
    | .image e =>
      let e' := if useFft then lsqShiftErr hasFftw fftInf e xsh ysh else mapErr e xsh ysh
      .ok fun p => divErr (r p) (e' p)
    | .scalar e => .ok fun p => divErr (r p) (.fin e)

/-- `chi2_shift_leastsq(im1, im2, err, mode, maxoff, return_error, guessx, guessy, use_fft, ignore_outside)`
(chi2_shifts.py:523-634); `minimize` is `none` when lmfit cannot be imported and `hasNdimage` says whether
`scipy.ndimage` can.  The code after line 634 is unreachable. -/
noncomputable def chi2ShiftLeastsq {my mx : ℕ} (hasFftw hasNdimage : Bool)
    (mapImg : (Fin ny × Fin nx → ℝ) → ℝ → ℝ → Fin ny × Fin nx → Pix)
    (mapErr fftInf : (Fin ny × Fin nx → Fl) → ℝ → ℝ → Fin ny × Fin nx → Fl) (minimize : Option (Minimizer ny nx))
    (im1 : Fin ny × Fin nx → Pix) (im2 : Fin my × Fin mx → Pix) (err : LsqErr ny nx) (maxoff : Option ℝ)
    (returnError : Bool) (guessx guessy : ℝ) (useFft ignoreOutside : Bool) : Py LsqRet :=
  if h : ny = my ∧ nx = mx then
    let im2 : Fin ny × Fin nx → Pix := fun i => im2 (Fin.cast h.1 i.1, Fin.cast h.2 i.2)
    match minimize with
    | none => .error .importError
    | some minimize =>
      if useFft = false ∧ hasNdimage = false then .error .importError
      else do
        let fit ← minimize (lsqResiduals hasFftw useFft mapImg mapErr fftInf maxoff ignoreOutside (lsqErrAfter im2 err)
          (lsqPrep im1) (lsqPrep im2)) ⟨guessx, guessy, maxoff⟩
        return [some fit.xsh, some fit.ysh] ++ if returnError then [fit.ex, fit.ey] else []
  else .error .valueError

/-- the caller's error array after the call; it is modified as soon as the shapes are right, whatever happens next
(chi2_shifts.py:558-568) -/
def chi2ShiftLeastsqErrAfter {my mx : ℕ} (im2 : Fin my × Fin mx → Pix) (err : LsqErr ny nx) : LsqErr ny nx :=
  if h : ny = my ∧ nx = mx then lsqErrAfter (fun i => im2 (Fin.cast h.1 i.1, Fin.cast h.2 i.2)) err else err

end ImgReg
