import Verif.Model.Chi2

/-!
# Model of `image_registration/cross_correlation_shifts.py` (the array part, lines 1-211)

`verbose` only prints and is not modelled.
-/

open Finset

namespace ImgReg

/-- A numpy float that may be the result of a division by zero (`inf` stands for either sign). -/
inductive Fl where
  | fin (r : ℝ)
  | inf
  | nan

/-- numpy `x / y` of finite floats: `0/0` is NaN, `x/0` is infinite, with a RuntimeWarning only. -/
noncomputable def Fl.div (x y : ℝ) : Fl :=
  open Classical in if y = 0 then (if x = 0 then .nan else .inf) else .fin (x / y)

/-- `-(k + s)` for a finite `k` (cross_correlation_shifts.py:150-151). -/
noncomputable def Fl.negAdd (k : ℝ) : Fl → Fl
  | .fin s => .fin (-(k + s))
  | .inf => .inf
  | .nan => .nan

/-! ### `second_derivative` -/

/-- `np.roll(image, 1, 1)` then `[:,0] = 0` (cross_correlation_shifts.py:189-190); applied again at
lines 198-199. -/
noncomputable def shiftRight {m n : ℕ} (f : Fin m × Fin n → ℝ) : Fin m × Fin n → ℝ := fun i =>
  if (i.2 : ℕ) = 0 then 0 else f (i.1, ⟨((i.2 : ℕ) + n - 1) % n, Nat.mod_lt _ (by have := i.2.isLt; omega)⟩)

/-- `np.roll(image, -1, 1)` then `[:,-1] = 0` (cross_correlation_shifts.py:191-192, 200-201). -/
noncomputable def shiftLeft {m n : ℕ} (f : Fin m × Fin n → ℝ) : Fin m × Fin n → ℝ := fun i =>
  if (i.2 : ℕ) = n - 1 then 0 else f (i.1, ⟨((i.2 : ℕ) + 1) % n, Nat.mod_lt _ (by have := i.2.isLt; omega)⟩)

/-- `np.roll(image, 1, 0)` then `[0,:] = 0` (cross_correlation_shifts.py:193-194, 202-203). -/
noncomputable def shiftDown {m n : ℕ} (f : Fin m × Fin n → ℝ) : Fin m × Fin n → ℝ := fun i =>
  if (i.1 : ℕ) = 0 then 0 else f (⟨((i.1 : ℕ) + m - 1) % m, Nat.mod_lt _ (by have := i.1.isLt; omega)⟩, i.2)

/-- `np.roll(image, -1, 0)` then `[-1,:] = 0` (cross_correlation_shifts.py:195-196, 204-205). -/
noncomputable def shiftUp {m n : ℕ} (f : Fin m × Fin n → ℝ) : Fin m × Fin n → ℝ := fun i =>
  if (i.1 : ℕ) = m - 1 then 0 else f (⟨((i.1 : ℕ) + 1) % m, Nat.mod_lt _ (by have := i.1.isLt; omega)⟩, i.2)

/-- The three arrays returned by `second_derivative`, in order. -/
structure SecondDeriv (m n : ℕ) where
  dxx : Fin m × Fin n → ℝ
  dyy : Fin m × Fin n → ℝ
  dxy : Fin m × Fin n → ℝ

/-- `second_derivative(image)` (cross_correlation_shifts.py:174-211). -/
noncomputable def secondDerivative {m n : ℕ} (image : Fin m × Fin n → ℝ) : SecondDeriv m n :=
  let shift_right := shiftRight image
  let shift_left := shiftLeft image
  let shift_down := shiftDown image
  let shift_up := shiftUp image
  let shift_up_right := shiftRight shift_up
  let shift_down_left := shiftLeft shift_down
  let shift_down_right := shiftDown shift_right
  let shift_up_left := shiftUp shift_left
  { dxx := fun i => shift_right i + shift_left i - 2 * image i
    dyy := fun i => shift_up i + shift_down i - 2 * image i
    dxy := fun i => 0.25 * (shift_up_right i + shift_down_left i - shift_up_left i - shift_down_right i) }

/-! ### `cross_correlation_shifts` -/

/-- The start and the number of elements of the Python slice `a[start:stop]` of an axis of length `n`. -/
def pySlice (n : ℕ) (start stop : ℤ) : ℕ × ℕ :=
  let clip := fun z : ℤ => (if z < 0 then (z + n).toNat else min z.toNat n)
  (clip start, clip stop - clip start)

theorem pySlice_lt {n : ℕ} {a b : ℤ} (i : Fin (pySlice n a b).2) : (pySlice n a b).1 + i < n + 0 ∨ b < 0 := by
  by_cases hb : b < 0
  · exact Or.inr hb
  · left
    have := i.isLt
    simp only [pySlice, hb, if_false] at this ⊢
    omega

/-- `ccorr[ymax-1:ymax+2, xmax-1:xmax+2]` (cross_correlation_shifts.py:140). -/
noncomputable def localValues {m n : ℕ} (c : Fin m × Fin n → ℝ) (ymax : Fin m) (xmax : Fin n) :
    Fin (pySlice m (((ymax : ℕ) : ℤ) - 1) (((ymax : ℕ) : ℤ) + 2)).2
      × Fin (pySlice n (((xmax : ℕ) : ℤ) - 1) (((xmax : ℕ) : ℤ) + 2)).2 → ℝ := fun i =>
  c (⟨(pySlice m (((ymax : ℕ) : ℤ) - 1) (((ymax : ℕ) : ℤ) + 2)).1 + i.1, by
        have := pySlice_lt i.1; omega⟩,
     ⟨(pySlice n (((xmax : ℕ) : ℤ) - 1) (((xmax : ℕ) : ℤ) + 2)).1 + i.2, by
        have := pySlice_lt i.2; omega⟩)

/-- One axis of `np.gradient`: one-sided differences at the two ends, central ones inside. -/
noncomputable def gradient1 {m : ℕ} (f : Fin m → ℝ) (h : 2 ≤ m) : Fin m → ℝ := fun i =>
  if (i : ℕ) = 0 then f ⟨1, by omega⟩ - f ⟨0, by omega⟩
  else if h2 : (i : ℕ) + 1 < m then (f ⟨i + 1, h2⟩ - f ⟨i - 1, by omega⟩) / 2
  else f i - f ⟨i - 1, by omega⟩

/-- `np.gradient(a)`: the derivatives along axis 0 and axis 1; ValueError when an axis has fewer than
two elements. -/
noncomputable def npGradient {m n : ℕ} (a : Fin m × Fin n → ℝ) :
    Py ((Fin m × Fin n → ℝ) × (Fin m × Fin n → ℝ)) :=
  if h : 2 ≤ m ∧ 2 ≤ n then
    .ok (fun i => gradient1 (fun r => a (r, i.2)) h.1 i.1, fun i => gradient1 (fun c => a (i.1, c)) h.2 i.2)
  else .error .valueError

/-- `a[1,1]`, IndexError when there is no such element. -/
noncomputable def at11 {m n : ℕ} (a : Fin m × Fin n → ℝ) : Py ℝ :=
  if h : 1 < m ∧ 1 < n then .ok (a (⟨1, h.1⟩, ⟨1, h.2⟩)) else .error .indexError

/-- `xlen/2 - (1 - xlen%2)` with Python 3 true division (cross_correlation_shifts.py:89-90). -/
noncomputable def ccCentre (n : ℕ) : ℝ := (n : ℝ) / 2 - (1 - ((n % 2 : ℕ) : ℝ))

/-- The error estimate (cross_correlation_shifts.py:162-165)
`abs(-1*size*curv*normalization/c * (c**2/(1-c**2)))**-0.5` with numpy's infinities; `c` is not 0. -/
noncomputable def zuckerError (size curv norm c : ℝ) : Fl :=
  open Classical in
  let lead := -1 * size * curv * norm / c
  if 1 - c ^ 2 = 0 then (if lead = 0 then .nan else .fin 0)
  else if lead * (c ^ 2 / (1 - c ^ 2)) = 0 then .inf
  else .fin (|lead * (c ^ 2 / (1 - c ^ 2))| ^ (-(1 / 2) : ℝ))

/-- `agpy.gaussfitter.gaussfit(map, err=…, return_all=True)`: `none` when agpy cannot be imported,
otherwise a function giving `(pars, epars)` of the fit to a map with an optional error map; external. -/
abbrev Agpy (ny nx : ℕ) :=
  Option ((Fin ny × Fin nx → ℝ) → Option (Fin ny × Fin nx → ℝ) → (ℕ → ℝ) × (ℕ → ℝ))

/-- `np.ones(shape) * image[image==image].std()` unless an error image is given
(cross_correlation_shifts.py:107-110); the image has no NaN left here. -/
noncomputable def defaultErr {ny nx : ℕ} (errim : Option (Fin ny × Fin nx → Pix)) (im : Fin ny × Fin nx → ℝ) :
    Fin ny × Fin nx → Pix :=
  match errim with
  | some e => e
  | none =>
    let size : ℝ := (ny * nx : ℕ)
    fun _ => some (Real.sqrt ((∑ i, (im i - (∑ j, im j) / size) ^ 2) / size))

/-- `a**2` of an array that may contain NaN. -/
noncomputable def sqPix {ι : Type} (a : ι → Pix) : ι → Pix := fun i => (a i).map (· ^ 2)

/-- `eccorr` (cross_correlation_shifts.py:106-117), computed when `return_error` is set; used by the
Gaussian fit only. -/
noncomputable def errCorr {ny nx : ℕ} [NeZero ny] [NeZero nx] (cfg : FFTConfig) (allowHuge : Bool)
    (im1 im2 : Fin ny × Fin nx → ℝ) (errim1 errim2 : Option (Fin ny × Fin nx → Pix)) :
    Py (Fin ny × Fin nx → ℝ) := do
  let c1 ← correlate2d cfg allowHuge (sqPix (defaultErr errim1 im1)) (sqPix (realArr im2))
  let c2 ← correlate2d cfg allowHuge (sqPix (defaultErr errim2 im2)) (sqPix (realArr im1))
  pure fun i => Real.sqrt (finiteVals c1 i + finiteVals c2 i) / ((ny * nx : ℕ) : ℝ)

/-- The part of `cross_correlation_shifts` after the correlation (cross_correlation_shifts.py:88-172);
`ccorr` is the map, `im1`, `im2` the prepared images.  With `maxoff` the slice bounds are floats, which
numpy rejects with TypeError (cross_correlation_shifts.py:98). -/
noncomputable def ccFromMap {ny nx : ℕ} [NeZero ny] [NeZero nx] (cfg : FFTConfig) (allowHuge : Bool)
    (agpy : Agpy ny nx) (im1 im2 ccorr : Fin ny × Fin nx → ℝ)
    (errim1 errim2 : Option (Fin ny × Fin nx → Pix)) (maxoff : Option ℕ) (gaussfit returnError : Bool) :
    Py (List Fl) :=
  open Classical in
  let xcen := ccCentre nx
  let ycen := ccCentre ny
  let loc := Np.argmax ccorr
  if ccorr loc = 0 then .ok [.fin 0, .fin 0]
  else if maxoff.isSome then .error .typeError
  else do
    let eccorr ← if returnError then (errCorr cfg allowHuge im1 im2 errim1 errim2).map some else pure none
    if gaussfit then
      match agpy with
      | none => .error .importError
      | some fit =>
        let (pars, epars) := fit ccorr eccorr
        .ok ([.fin (xcen - pars 2), .fin (ycen - pars 3)]
          ++ if returnError then [.fin (epars 2), .fin (epars 3)] else [])
    else
      let xshift_int := ((loc.2 : ℕ) : ℝ) - xcen
      let yshift_int := ((loc.1 : ℕ) : ℝ) - ycen
      let lv := localValues ccorr loc.1 loc.2
      let (d1y, d1x) ← npGradient lv
      let sd := secondDerivative lv
      let (d2y, d2x, dxy) := (sd.dxx, sd.dyy, sd.dxy)
      let fx ← at11 d1x
      let fy ← at11 d1y
      let fxx ← at11 d2x
      let fyy ← at11 d2y
      let fxy ← at11 dxy
      let shiftsubx := Fl.div (fyy * fx - fy * fxy) (fxy ^ 2 - fxx * fyy)
      let shiftsuby := Fl.div (fxx * fy - fx * fxy) (fxy ^ 2 - fxx * fyy)
      let shifts := [shiftsubx.negAdd xshift_int, shiftsuby.negAdd yshift_int]
      if returnError then
        let size : ℝ := (ny * nx : ℕ)
        let normalization := 1 / ((∑ i, im1 i ^ 2) / size) / ((∑ i, im2 i ^ 2) / size)
        let c := ccorr loc * normalization
        let ex := zuckerError size fxx normalization c
        let ey := zuckerError size fyy normalization c
        match ex with
        | .nan => .error .valueError
        | _ => .ok (shifts ++ [ex, ey])
      else .ok shifts

/-- The body of `cross_correlation_shifts` after the shape check (cross_correlation_shifts.py:75-172).
No NaN can be left in `ccorr`, whose shape is that of the images. -/
noncomputable def ccShiftsBody {ny nx : ℕ} [NeZero ny] [NeZero nx] (cfg : FFTConfig) (agpy : Agpy ny nx)
    (image1 image2 : Fin ny × Fin nx → Pix) (errim1 errim2 : Option (Fin ny × Fin nx → Pix))
    (maxoff : Option ℕ) (gaussfit returnError zeromean allowHuge : Bool) : Py (List Fl) := do
  let image1 := if zeromean then subPix image1 (nanMean image1) else image1
  let image2 := if zeromean then subPix image2 (nanMean image2) else image2
  let image1 := Np.nanToNum image1
  let image2 := Np.nanToNum image2
  let corr ← correlate2d cfg allowHuge image1 image2
  let ccorr := fun i => finiteVals corr i / ((ny * nx : ℕ) : ℝ)
  ccFromMap cfg allowHuge agpy (finiteVals image1) (finiteVals image2) ccorr errim1 errim2 maxoff gaussfit
    returnError

/-- `cross_correlation_shifts(image1, image2, errim1=…, errim2=…, maxoff=…, gaussfit=…, return_error=…,
zeromean=…)` (cross_correlation_shifts.py:9-172); the error images have the shape of the images. -/
noncomputable def crossCorrelationShifts {ny nx my mx : ℕ} [NeZero ny] [NeZero nx] (cfg : FFTConfig)
    (agpy : Agpy ny nx) (image1 : Fin ny × Fin nx → Pix) (image2 : Fin my × Fin mx → Pix)
    (errim1 errim2 : Option (Fin ny × Fin nx → Pix)) (maxoff : Option ℕ)
    (gaussfit returnError zeromean allowHuge : Bool) : Py (List Fl) :=
  if h : ny = my ∧ nx = mx then
    ccShiftsBody cfg agpy image1 (fun i => image2 (Fin.cast h.1 i.1, Fin.cast h.2 i.2)) errim1 errim2 maxoff
      gaussfit returnError zeromean allowHuge
  else .error .valueError

end ImgReg
