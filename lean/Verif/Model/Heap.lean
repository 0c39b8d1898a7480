import Verif.Model.Chi2
import Verif.Model.Register
import Verif.Model.CrossCorr

/-!
# Model of the array objects in `chi2n_map`, `chi2_shift`, `register_images` and `cross_correlation_shifts`

The other models take and return values.  Here arrays are objects in a heap that are named by references, so that the assignments
`a[mask] = v` and `a /= v` of the code change the object for everyone who holds a reference, and two arguments may be the same object.
All arrays have the shape `(ny, nx)`: calls with other shapes raise ValueError before anything is allocated or written
(chi2_shifts.py:474, register_images.py:46, cross_correlation_shifts.py:72).
-/

namespace ImgReg

variable {ny nx : ℕ}

/-- The arrays that exist: number `0, …, size-1`. -/
structure ArrHeap (ny nx : ℕ) where
  size : ℕ
  arr : ℕ → Fin ny × Fin nx → Pix

/-- A computation that may raise; the heap is what it is at that point. -/
def ArrM (ny nx : ℕ) (α : Type) := ArrHeap ny nx → Py α × ArrHeap ny nx

instance : Monad (ArrM ny nx) where
  pure a := fun h => (.ok a, h)
  bind x f := fun h => match x h with
    | (.ok a, h') => f a h'
    | (.error e, h') => (.error e, h')

/-- a new array object -/
def ArrM.alloc (v : Fin ny × Fin nx → Pix) : ArrM ny nx ℕ := fun h =>
  (.ok h.size, ⟨h.size + 1, fun r => if r = h.size then v else h.arr r⟩)

/-- the present contents of an array -/
def ArrM.read (r : ℕ) : ArrM ny nx (Fin ny × Fin nx → Pix) := fun h => (.ok (h.arr r), h)

/-- overwriting the contents of an array object -/
def ArrM.write (r : ℕ) (v : Fin ny × Fin nx → Pix) : ArrM ny nx Unit := fun h =>
  (.ok (), ⟨h.size, fun q => if q = r then v else h.arr q⟩)

/-- a computation without effect on the arrays of the caller -/
def ArrM.lift {α : Type} (x : Py α) : ArrM ny nx α := fun h => (x, h)

open ArrM

/-- `np.nan_to_num(a)`: a copy, also if there is no NaN (chi2_shifts.py:481-482, 485, 150-151; cross_correlation_shifts.py:79-80) -/
def nanToNumH (r : ℕ) : ArrM ny nx ℕ := do
  let v ← read r
  alloc (Np.nanToNum v)

/-- `im - (im[im==im].mean())`: a new array (chi2_shifts.py:478-479, register_images.py:50-51, cross_correlation_shifts.py:76-77); without
`zeromean` the name keeps referring to the same object -/
noncomputable def zeromeanH (zeromean : Bool) (r : ℕ) : ArrM ny nx ℕ :=
  if zeromean then do
    let v ← read r
    alloc (subPix v (nanMean v))
  else pure r

/-- `a[e==0] = v` (chi2_shifts.py:489-491): writes to the object `a` -/
noncomputable def setWhereZeroH (a e : ℕ) (v : ℝ) : ArrM ny nx Unit := do
  let ve ← read e
  let va ← read a
  write a fun i => open Classical in if ve i = some 0 then some v else va i

/-- The `err` argument: None, a number, or an array. -/
inductive ErrRef where
  | none
  | scalar (s : ℝ)
  | ref (r : ℕ)

/-- What `chi2n_map` returns with `return_all`: new array objects and numbers. -/
structure Chi2Refs where
  chi2 : ℕ
  term1 : ℝ
  term2 : ℕ
  term3 : ℝ ⊕ ℕ

/-- `chi2n_map(im1, im2, err, boundary, zeromean, return_all=True, reduced, allow_huge)` on array objects (chi2_shifts.py:477-518), in the order of
the statements of the code.  The results of expressions (`im1**2`, `correlate2d(…)`, `term1 + term2 + term3`) are new arrays; those that get a name in
the code are allocated.  `chi2 /= size-2` is done in place. -/
noncomputable def chi2nMapH (cfg : FFTConfig) (boundary : CorrBoundary) (im1 im2 : ℕ) (err : ErrRef) (zeromean reduced allowHuge : Bool) :
    ArrM ny nx Chi2Refs := do
  let im1 ← zeromeanH zeromean im1
  let im2 ← zeromeanH zeromean im2
  let im1 ← nanToNumH im1
  let im2 ← nanToNumH im2
  let (errv, term3) ← (match err with
    | .ref e => do
      let e ← nanToNumH e
      setWhereZeroH im2 e 0
      setWhereZeroH im1 e 0
      setWhereZeroH e e 1
      let v1 ← read im1
      let ve ← read e
      let t ← lift (correlate2dB cfg boundary allowHuge (realArr fun i => finiteVals v1 i ^ 2) (realArr fun i => 1 / finiteVals ve i ^ 2))
      let t3 ← alloc t
      pure (finiteVals ve, (Sum.inr t3 : ℝ ⊕ ℕ))
    | .scalar s => do
      let v1 ← read im1
      pure (fun _ => s, Sum.inl (∑ i, finiteVals v1 i ^ 2 / s ^ 2))
    | .none => do
      let v1 ← read im1
      pure (fun _ => 1, Sum.inl (∑ i, finiteVals v1 i ^ 2 / 1 ^ 2)) : ArrM ny nx ((Fin ny × Fin nx → ℝ) × (ℝ ⊕ ℕ)))
  let v2 ← read im2
  let term1 := ∑ i, finiteVals v2 i ^ 2 / errv i ^ 2
  let v1 ← read im1
  let corr ← lift (correlate2dB cfg boundary allowHuge v1 (realArr fun i => finiteVals v2 i / errv i ^ 2))
  let term2 ← alloc fun i => (corr i).map fun c => -2 * c
  let w2 ← read term2
  let w3 ← (match term3 with
    | .inl t => pure fun _ => some t
    | .inr r => read r : ArrM ny nx (Fin ny × Fin nx → Pix))
  let chi2 ← alloc fun i => Option.map₂ (fun a b => term1 + a + b) (w2 i) (w3 i)
  if reduced then
    let c ← read chi2
    write chi2 fun i => (c i).map fun v => v / ((ny : ℝ) * nx - 2)
  return ⟨chi2, term1, term2, term3⟩

/-- What `chi2_shift` computes from the chi-squared map (chi2_shifts.py:146-148, 153-252), as in `chi2ShiftB`. -/
noncomputable def chi2ShiftRest [NeZero ny] [NeZero nx] (cfg : FFTConfig) (stats : Stats) (chi2 : Fin ny × Fin nx → ℝ) (usArg : UsFactor)
    (nfitted : ℝ) (verbose returnError returnChi2array : Bool) (maxAutoSize : ℕ) (maxNsig : ℝ) : Py (List RetVal) := do
  let peak := Np.argmin chi2
  let xcen := chi2Centre nx
  let ycen := chi2Centre ny
  let yshift := ((peak.1 : ℕ) : ℝ) - ycen
  let xshift := ((peak.2 : ℕ) : ℝ) - xcen
  let (us, s1, s2) ← chooseUpsample chi2 usArg (mAuto stats maxNsig nfitted) maxAutoSize verbose
  let z ← zoomnd2 ⟨cfg.hasFftw, false, 1⟩ (rArr chi2) [yshift, xshift] id us (some (s1, s2)) true true
  match z with
  | .withX cube ⟨m, l, .real a⟩ =>
    if h : m ≠ 0 ∧ l ≠ 0 then
      have : NeZero m := ⟨h.1⟩
      have : NeZero l := ⟨h.2⟩
      chi2ShiftFinish stats (finiteVals a) (fun i => cube.val [0, i.1, i.2])
        (fun i => cube.val [1, i.1, i.2]) us ycen xcen verbose returnError returnChi2array
    else .error .valueError
  | .withX _ ⟨_, _, .cplx _⟩ => .error .typeError
  | .plain _ => .error .typeError

/-- `chi2_shift(im1, im2, err, …)` on array objects (chi2_shifts.py:142-252): after `chi2n_map` and the two copies of lines 150-151 the only arrays
that are written are new ones made inside `zoomnd`, which are not in this heap; what is computed from the map is a value. -/
noncomputable def chi2ShiftH [NeZero ny] [NeZero nx] (cfg : FFTConfig) (boundary : CorrBoundary) (stats : Stats) (im1 im2 : ℕ) (err : ErrRef)
    (usArg : UsFactor) (zeromean : Bool) (nfitted : ℝ) (verbose returnError returnChi2array : Bool) (maxAutoSize : ℕ) (maxNsig : ℝ)
    (allowHuge : Bool) : ArrM ny nx (List RetVal) := do
  let m ← chi2nMapH cfg boundary im1 im2 err zeromean false allowHuge
  let _ ← nanToNumH im1
  let _ ← nanToNumH im2
  let c ← read m.chi2
  lift (chi2ShiftRest cfg stats (finiteVals c) usArg nfitted verbose returnError returnChi2array maxAutoSize maxNsig)

/-- `if np.any(np.isnan(im)): im = im.copy(); im[im!=im] = 0` (register_images.py:53-58) -/
noncomputable def denanCopyH (r : ℕ) : ArrM ny nx ℕ :=
  open Classical in do
  let v ← read r
  if Np.anyNaN v then
    let c ← alloc v
    let w ← read c
    write c fun i => if w i = none then some 0 else w i
    pure c
  else pure r

/-- `register_images(im1, im2, …)` on array objects (register_images.py:49-75): the preparation of the two images; what is computed from
them (register_images.py:60-75) is a value, as in `registerBody`. -/
noncomputable def registerImagesH [NeZero ny] [NeZero nx] (cfg : FFTConfig) (im1 im2 usfac : ℕ) (returnRegistered returnError zeromean : Bool)
    (maxoff : Option ℕ) : ArrM ny nx (List (RegVal ny nx)) := do
  let im1 ← zeromeanH zeromean im1
  let im2 ← zeromeanH zeromean im2
  let im1 ← denanCopyH im1
  let im2 ← denanCopyH im2
  let v1 ← read im1
  let v2 ← read im2
  lift (registerBody cfg v1 v2 usfac returnRegistered returnError false maxoff)

/-- the value of an optional array argument -/
def readOpt (r : Option ℕ) : ArrM ny nx (Option (Fin ny × Fin nx → Pix)) := fun h => (.ok (r.map h.arr), h)

/-- `cross_correlation_shifts(image1, image2, errim1, errim2, …)` on array objects (cross_correlation_shifts.py:75-172): `ccorr` is a new array, in which
NaN is overwritten with 0 in place (line 84); the rest only reads. -/
noncomputable def ccShiftsH [NeZero ny] [NeZero nx] (cfg : FFTConfig) (agpy : Agpy ny nx) (image1 image2 : ℕ) (errim1 errim2 : Option ℕ)
    (maxoff : Option ℕ) (gaussfit returnError zeromean allowHuge : Bool) : ArrM ny nx (List Fl) := do
  let image1 ← zeromeanH zeromean image1
  let image2 ← zeromeanH zeromean image2
  let image1 ← nanToNumH image1
  let image2 ← nanToNumH image2
  let v1 ← read image1
  let v2 ← read image2
  let corr ← lift (correlate2d cfg allowHuge v1 v2)
  let ccorr ← alloc fun i => (corr i).map fun c => c / ((ny * nx : ℕ) : ℝ)
  let c ← read ccorr
  write ccorr fun i => some ((c i).getD 0)
  let c ← read ccorr
  let e1 ← readOpt errim1
  let e2 ← readOpt errim2
  let v1 ← read image1
  let v2 ← read image2
  lift (ccFromMap cfg allowHuge agpy (finiteVals v1) (finiteVals v2) (finiteVals c) e1 e2 maxoff gaussfit returnError)

end ImgReg
