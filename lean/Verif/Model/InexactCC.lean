import Verif.Model.InexactChi2
import Verif.Model.CrossCorr

/-!
# `cross_correlation_shifts` in inexact arithmetic

`image_registration/cross_correlation_shifts.py:75-172` once more (images of the same shape, `maxoff=None`, `gaussfit=False`,
`return_error=False`, `allow_huge=True`), with every operation on pixel values replaced by a parameter.  `np.nan_to_num`, array
rearrangements, the products with 2 and 0.25, the division by 2 in `np.gradient`, changes of sign and the arithmetic of the peak position
relative to the reference pixel (halves of integers) are exact in floating point.
-/

namespace ImgReg

/-- numpy `x / y`: an inexact quotient, infinite or NaN when the divisor is 0 (cf. `Fl.div`) -/
noncomputable def divFlA (A : Chi2Arith) (x y : ℝ) : Fl :=
  open Classical in if y = 0 then (if x = 0 then .nan else .inf) else .fin (A.divR x y)

/-- `-(k + s)` (cross_correlation_shifts.py:150-151, cf. `Fl.negAdd`) -/
noncomputable def negAddA (A : Chi2Arith) (k : ℝ) : Fl → Fl
  | .fin s => .fin (-A.addR k s)
  | .inf => .inf
  | .nan => .nan

/-- `second_derivative(image)` (cross_correlation_shifts.py:174-211) -/
noncomputable def secondDerivativeA (A : Chi2Arith) {m n : ℕ} (image : Fin m × Fin n → ℝ) : SecondDeriv m n :=
  let shift_right := shiftRight image
  let shift_left := shiftLeft image
  let shift_down := shiftDown image
  let shift_up := shiftUp image
  let shift_up_right := shiftRight shift_up
  let shift_down_left := shiftLeft shift_down
  let shift_down_right := shiftDown shift_right
  let shift_up_left := shiftUp shift_left
  { dxx := fun i => A.sub (A.addR (shift_right i) (shift_left i)) (2 * image i)
    dyy := fun i => A.sub (A.addR (shift_up i) (shift_down i)) (2 * image i)
    dxy := fun i => 0.25 * A.sub (A.sub (A.addR (shift_up_right i) (shift_down_left i)) (shift_up_left i)) (shift_down_right i) }

/-- one axis of `np.gradient` (cf. `gradient1`) -/
noncomputable def gradient1A (A : Chi2Arith) {m : ℕ} (f : Fin m → ℝ) (h : 2 ≤ m) : Fin m → ℝ := fun i =>
  if (i : ℕ) = 0 then A.sub (f ⟨1, by omega⟩) (f ⟨0, by omega⟩)
  else if h2 : (i : ℕ) + 1 < m then A.sub (f ⟨i + 1, h2⟩) (f ⟨i - 1, by omega⟩) / 2
  else A.sub (f i) (f ⟨i - 1, by omega⟩)

/-- `np.gradient(a)` (cf. `npGradient`) -/
noncomputable def npGradientA (A : Chi2Arith) {m n : ℕ} (a : Fin m × Fin n → ℝ) :
    Py ((Fin m × Fin n → ℝ) × (Fin m × Fin n → ℝ)) :=
  if h : 2 ≤ m ∧ 2 ≤ n then
    .ok (fun i => gradient1A A (fun r => a (r, i.2)) h.1 i.1, fun i => gradient1A A (fun c => a (i.1, c)) h.2 i.2)
  else .error .valueError

section
variable {ny nx : ℕ} [NeZero ny] [NeZero nx]

/-- The map `ccorr` (cross_correlation_shifts.py:75-84) -/
noncomputable def ccMapA (A : Chi2Arith) (im1 im2 : Fin ny × Fin nx → Pix) (zeromean : Bool) : Fin ny × Fin nx → ℝ := fun i =>
  A.divR (corrA A (prepA A.toArith zeromean im1) (prepA A.toArith zeromean im2) i) ((ny * nx : ℕ) : ℝ)

/-- The peak and its correction (cross_correlation_shifts.py:88-151, 169-172) -/
noncomputable def ccFitA (A : Chi2Arith) (ccorr : Fin ny × Fin nx → ℝ) : Py (List Fl) :=
  open Classical in
  let loc := Np.argmax ccorr
  if ccorr loc = 0 then .ok [.fin 0, .fin 0]
  else do
    let xshift_int := ((loc.2 : ℕ) : ℝ) - ccCentre nx
    let yshift_int := ((loc.1 : ℕ) : ℝ) - ccCentre ny
    let lv := localValues ccorr loc.1 loc.2
    let (d1y, d1x) ← npGradientA A lv
    let sd := secondDerivativeA A lv
    let (d2y, d2x, dxy) := (sd.dxx, sd.dyy, sd.dxy)
    let fx ← at11 d1x
    let fy ← at11 d1y
    let fxx ← at11 d2x
    let fyy ← at11 d2y
    let fxy ← at11 dxy
    let den := A.sub (A.mulR fxy fxy) (A.mulR fxx fyy)
    let shiftsubx := divFlA A (A.sub (A.mulR fyy fx) (A.mulR fy fxy)) den
    let shiftsuby := divFlA A (A.sub (A.mulR fxx fy) (A.mulR fx fxy)) den
    .ok [negAddA A xshift_int shiftsubx, negAddA A yshift_int shiftsuby]

/-- `cross_correlation_shifts(im1, im2, zeromean=zeromean)` (cross_correlation_shifts.py:9-172) -/
noncomputable def ccShiftsA (A : Chi2Arith) (im1 im2 : Fin ny × Fin nx → Pix) (zeromean : Bool) : Py (List Fl) :=
  ccFitA A (ccMapA A im1 im2 zeromean)

end

end ImgReg
