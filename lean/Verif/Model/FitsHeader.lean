import Verif.Model.Downsample
import Mathlib.Data.Real.Sign
import Mathlib.Algebra.Order.Floor.Ring
import Mathlib.Algebra.Order.Archimedean.Real.Basic
import Mathlib.Data.List.Basic

/-!
# Model of `FITS_tools/fits_overlap.py` and `FITS_tools/load_header.py`

Not modelled, and taken as parameters: the WCS library (`pywcs.WCS` and its `wcs_pix2world`) and the FITS file reader.
Header objects live in a heap, so that writing to a header that was passed in would be visible.
-/

namespace ImgReg

/-! ### Headers -/

/-- The value of a header card. -/
inductive CardVal where
  | int (z : ℤ)
  | num (r : ℝ)
  | str (s : String)

/-- A FITS header: the cards in order.  Comments of cards are not modelled. -/
abbrev Header := List (String × CardVal)

/-- `key in header` -/
def Header.has (h : Header) (k : String) : Bool := h.any fun c => c.1 = k

/-- `header[key]`: KeyError if there is no such card, the first one otherwise. -/
def Header.getitem : Header → String → Py CardVal
  | [], _ => .error .keyError
  | c :: cs, k => if c.1 = k then .ok c.2 else Header.getitem cs k

/-- `header[key] = value`: the first card with this keyword is updated in place; a new card is appended. -/
def Header.setitem : Header → String → CardVal → Header
  | [], k, v => [(k, v)]
  | c :: cs, k, v => if c.1 = k then (k, v) :: cs else c :: Header.setitem cs k v

/-- `del header[key]`: all the cards with this keyword are removed. -/
def Header.delitem (h : Header) (k : String) : Header := h.filter fun c => c.1 ≠ k

/-- a card used as a pixel coordinate; a string is a ValueError in the WCS library -/
def CardVal.toReal : CardVal → Py ℝ
  | .int z => .ok z
  | .num r => .ok r
  | .str _ => .error .valueError

/-- What the code uses of a `pywcs.WCS` object: `pix2world x y` is `wcs_pix2world([[x,y]],1)` (its single row; raises
if the WCS does not have two axes); `naxis` axes; `cd` is `wcs.wcs.cd`, `none` when reading it raises AttributeError;
`cdelt` is `wcs.wcs.cdelt`; `getCdelt` is `wcs.wcs.get_cdelt()`. -/
structure Wcs where
  naxis : ℕ
  pix2world : ℝ → ℝ → Py (ℝ × ℝ)
  cd : Option (Fin naxis → Fin naxis → ℝ)
  cdelt : Fin naxis → ℝ
  getCdelt : Fin naxis → ℝ

/-! ### `header_overlap` -/

/-- The new values of the cards. -/
structure OverlapKeys where
  crval1 : ℝ
  crval2 : ℝ
  cdelt1 : ℝ
  cdelt2 : ℝ
  naxis1 : ℤ
  naxis2 : ℤ
  crpix1 : ℝ
  crpix2 : ℝ

/-- One element of `xmlist` (fits_overlap.py:51-53). -/
noncomputable def wrapLon (maxSeparation xm : ℝ) : ℝ :=
  open Classical in
  if xm > maxSeparation then xm - 360 else if xm < -maxSeparation then xm + 360 else xm

/-- The swaps of fits_overlap.py:57-64: (smaller, larger). -/
noncomputable def checkSigns (lo hi : ℝ) : ℝ × ℝ :=
  open Classical in if lo > hi then (hi, lo) else (lo, hi)

/-- One axis of the scale computation (fits_overlap.py:80-82). -/
noncomputable def finerScale (d1 d2 : ℝ) : ℝ := min |d1| |d2| * Real.sign d1

/-- `cdelt1,cdelt2` (fits_overlap.py:79-82): the diagonals of the CD matrices, or the CDELTs as soon as either header has
no CD matrix; anything but two axes cannot be unpacked (or stacked): ValueError. -/
noncomputable def overlapScale (w1 w2 : Wcs) : Py (ℝ × ℝ) :=
  if h : w1.naxis = 2 ∧ w2.naxis = 2 then
    let i1 : Fin 2 → Fin w1.naxis := Fin.cast h.1.symm
    let i2 : Fin 2 → Fin w2.naxis := Fin.cast h.2.symm
    match w1.cd, w2.cd with
    | some c1, some c2 => .ok (finerScale (c1 (i1 0) (i1 0)) (c2 (i2 0) (i2 0)), finerScale (c1 (i1 1) (i1 1)) (c2 (i2 1) (i2 1)))
    | _, _ => .ok (finerScale (w1.cdelt (i1 0)) (w2.cdelt (i2 0)), finerScale (w1.cdelt (i1 1)) (w2.cdelt (i2 1)))
  else .error .valueError

/-- `int(np.ceil(np.abs((hi-lo)/cdelt)))` (fits_overlap.py:88, 92) for numpy floats: a division by zero gives NaN
(`int` of it is a ValueError) or an infinity (OverflowError). -/
noncomputable def axisLength (lo hi cdelt : ℝ) : Py ℤ :=
  open Classical in
  if cdelt = 0 then (if hi - lo = 0 then .error .valueError else .error .overflowError)
  else .ok ⌈|(hi - lo) / cdelt|⌉

/-- The part of `header_overlap` (fits_overlap.py:42-98) that computes the new cards. -/
noncomputable def overlapKeys (mkWcs : Header → Py Wcs) (hdr1 hdr2 : Header) (maxSeparation : ℝ) (overlap : String) :
    Py OverlapKeys :=
  open Classical in do
  let wcs1 ← mkWcs hdr1
  let wcs2 ← mkWcs hdr2
  let n11 ← hdr1.getitem "NAXIS1" >>= CardVal.toReal
  let n12 ← hdr1.getitem "NAXIS2" >>= CardVal.toReal
  let (xmax1, ymax1) ← wcs1.pix2world n11 n12
  let n21 ← hdr2.getitem "NAXIS1" >>= CardVal.toReal
  let n22 ← hdr2.getitem "NAXIS2" >>= CardVal.toReal
  let (xmax2, ymax2) ← wcs2.pix2world n21 n22
  let (xmin1, ymin1) ← wcs1.pix2world 1 1
  let (xmin2, ymin2) ← wcs2.pix2world 1 1
  let xmin1 := wrapLon maxSeparation xmin1
  let xmax1 := wrapLon maxSeparation xmax1
  let xmin2 := wrapLon maxSeparation xmin2
  let xmax2 := wrapLon maxSeparation xmax2
  let (xmin2, xmax2) := checkSigns xmin2 xmax2
  let (xmin1, xmax1) := checkSigns xmin1 xmax1
  let (ymin2, ymax2) := checkSigns ymin2 ymax2
  let (ymin1, ymax1) := checkSigns ymin1 ymax1
  let (xmin, xmax, ymin, ymax) ←
    (if overlap = "union" then .ok (min xmin1 xmin2, max xmax1 xmax2, min ymin1 ymin2, max ymax1 ymax2)
    else if overlap = "intersection" then .ok (max xmin1 xmin2, min xmax1 xmax2, max ymin1 ymin2, min ymax1 ymax2)
    else .error .valueError : Py (ℝ × ℝ × ℝ × ℝ))
  let (cdelt1, cdelt2) ← overlapScale wcs1 wcs2
  let naxis1 ← (if xmin1 > xmax2 ∨ xmin2 > xmax1 then .ok 0 else axisLength xmin xmax cdelt1 : Py ℤ)
  let naxis2 ← (if ymin1 > ymax2 ∨ ymin2 > ymax1 then .ok 0 else axisLength ymin ymax cdelt2 : Py ℤ)
  return ⟨(xmin + xmax) / 2, (ymin + ymax) / 2, cdelt1, cdelt2, naxis1, naxis2, naxis1 / 2, naxis2 / 2⟩

/-- The header objects that exist; an object is named by its position. -/
abbrev Heap := List Header

/-- the header object `i` -/
def Heap.obj (heap : Heap) (i : ℕ) : Header := heap.getD i []

/-- `hdr[key] = value` on object `i` -/
def Heap.set (heap : Heap) (i : ℕ) (k : String) (v : CardVal) : Heap := heap.modify i fun h => h.setitem k v

/-- The assignments to `new_header` (fits_overlap.py:101-114) on object `i`. -/
noncomputable def writeKeys (heap : Heap) (i : ℕ) (k : OverlapKeys) : Heap :=
  let heap := heap.set i "CRVAL1" (.num k.crval1)
  let heap := heap.set i "CRVAL2" (.num k.crval2)
  let heap := heap.set i "CDELT1" (.num k.cdelt1)
  let heap := heap.set i "CDELT2" (.num k.cdelt2)
  let heap := ["CD1_1", "CD1_2", "CD2_1", "CD2_2"].foldl
    (fun hp key => if (hp.obj i).has key then hp.modify i fun h => h.delitem key else hp) heap
  let heap := heap.set i "NAXIS1" (.int k.naxis1)
  let heap := heap.set i "NAXIS2" (.int k.naxis2)
  let heap := heap.set i "CRPIX1" (.num k.crpix1)
  heap.set i "CRPIX2" (.num k.crpix2)

/-- `header_overlap(hdr1, hdr2, max_separation, overlap)` (fits_overlap.py:25-118) on the header objects `i1` and `i2`:
the result (the new header object) and the heap after the call. -/
noncomputable def headerOverlap (mkWcs : Header → Py Wcs) (heap : Heap) (i1 i2 : ℕ) (maxSeparation : ℝ)
    (overlap : String) : Py ℕ × Heap :=
  match overlapKeys mkWcs (heap.obj i1) (heap.obj i2) maxSeparation overlap with
  | .error e => (.error e, heap)
  | .ok k =>
    let newHeader := heap.length
    let heap := heap ++ [heap.obj i1]
    (.ok newHeader, writeKeys heap newHeader k)

/-- `fits_overlap(file1, file2, **kwargs)` (fits_overlap.py:9-23): `pyfits.getheader` is a parameter; the headers read
are new objects. -/
noncomputable def fitsOverlap {F : Type} (getheader : F → Py Header) (mkWcs : Header → Py Wcs) (heap : Heap)
    (file1 file2 : F) (maxSeparation : ℝ) (overlap : String) : Py ℕ × Heap :=
  match getheader file1 with
  | .error e => (.error e, heap)
  | .ok h1 =>
    match getheader file2 with
    | .error e => (.error e, heap ++ [h1])
    | .ok h2 => headerOverlap mkWcs (heap ++ [h1, h2]) heap.length (heap.length + 1) maxSeparation overlap

/-! ### `load_header.py` -/

/-- What `load_header` and `load_data` look at in their argument: `mapping` are the cards if it has a `get` attribute,
`header` and `data` the attributes of these names; `isArray` (with its value) if it is an ndarray; `hduList` the `data`
attributes of its elements if it is an `HDUList`. `α` is the type of arrays, `H` of headers; `data` is `none` without a
`data` attribute and `some none` when it is not an ndarray. -/
structure FitsArg (H α : Type) where
  mapping : Option H
  header : Option H
  array : Option α
  data : Option (Option α)
  hduList : Option (List (Option α))

/-- The readers of `astropy.io.fits`, outside of the model: any result or exception. -/
structure FitsReader (H α : Type) where
  getheader : Py H
  fromtextfile : Py H
  fromstring : Py H
  getdata : Py α

/-- `load_header(header)` (load_header.py:5-24); `fits.Header(header)` makes a header with the same cards. -/
def loadHeader {H α : Type} (io : FitsReader H α) (a : FitsArg H α) : Py H :=
  match a.mapping with
  | some h => .ok h
  | none =>
    match a.header with
    | some h => .ok h
    | none =>
      match io.getheader with
      | .error .ioError =>
        match io.fromtextfile with
        | .error .ioError => io.fromstring
        | r => r
      | r => r

/-- `load_data(data)` (load_header.py:26-43): the value (`none` is Python's None) and whether the warning was issued. -/
def loadData {H α : Type} (io : FitsReader H α) (a : FitsArg H α) : Py (Option α) × Bool :=
  match a.array with
  | some x => (.ok (some x), false)
  | none =>
    match io.getdata with
    | .error .ioError =>
      match a.data with
      | some (some x) => (.ok (some x), false)
      | _ =>
        match a.hduList with
        | some [] => (.error .indexError, true)
        | some (x :: _) => (.ok x, true)
        | none => (.ok none, false)
    | .error e => (.error e, false)
    | .ok x => (.ok (some x), false)

/-- `get_cd(wcs, n)` (load_header.py:46-58): `none` is Python's None; a negative index counts from the end. -/
noncomputable def getCd (w : Wcs) (n : ℤ) : Py (Option ℝ) :=
  open Classical in
  match Np.normAxis w.naxis (n - 1) with
  | none => .error .indexError
  | some i =>
    match w.cd with
    | some c => if c i i ≠ 0 then .ok (some (c i i)) else .ok none
    | none => .ok (some (w.getCdelt i))

end ImgReg
