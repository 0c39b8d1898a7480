import Verif.Model.FitsHeader
import Mathlib.Order.Interval.Set.UnorderedInterval
import Mathlib.Order.Bounds.Basic
import Mathlib.Tactic.Linarith
import Mathlib.Tactic.Push
import Mathlib.Tactic.Positivity
import Mathlib.Tactic.FieldSimp
import Mathlib.Tactic.NormNum
import Mathlib.Tactic.FinCases
import Mathlib.Data.Fin.VecNotation

/-!
# C64-C68: `header_overlap`, `get_cd`, `load_header`, `load_data`
-/

namespace ImgReg

/-! ## Specification -/

/-- The image with this header, whose WCS is `w` (two axes), has its first pixel at `first` and its last one at `last`. -/
def Spec.Corners (mkWcs : Header → Py Wcs) (h : Header) (w : Wcs) (first last : ℝ × ℝ) : Prop :=
  mkWcs h = .ok w ∧ w.pix2world 1 1 = .ok first ∧
  ∃ n1 n2 : ℤ, h.getitem "NAXIS1" = .ok (.int n1) ∧ h.getitem "NAXIS2" = .ok (.int n2) ∧ w.pix2world n1 n2 = .ok last

/-- Degrees per pixel: the diagonal of the CD matrix if both headers have one, CDELT otherwise. -/
def Spec.scale (cd otherCd : Option (Fin 2 → Fin 2 → ℝ)) (cdelt : Fin 2 → ℝ) : Fin 2 → ℝ :=
  match cd, otherCd with
  | some c, some _ => fun i => c i i
  | _, _ => cdelt

/-- A longitude as `header_overlap` uses it: outside of `[-s, s]` it is moved by 360 degrees towards 0. -/
noncomputable def Spec.lon (s x : ℝ) : ℝ := open Classical in if |x| ≤ s then x else x - 360 * Real.sign x

/-- One axis of the new header.  `R1`, `R2`: what the images cover; `d1`, `d2`: their scales. -/
structure Spec.AxisOK (overlap : String) (R1 R2 : Set ℝ) (d1 d2 crval cdelt crpix : ℝ) (naxis : ℤ) : Prop where
  /-- the scale is the finer one, with the sign of the first header -/
  scale : |cdelt| = min |d1| |d2|
  sign : 0 < cdelt * d1
  /-- `CRPIX` is half the number of pixels -/
  crpix : crpix = naxis / 2
  /-- number of pixels: none for disjoint images, whatever the mode -/
  disjoint : Disjoint R1 R2 → naxis = 0
  /-- otherwise, `CRVAL` is the centre of the region and the pixels are just enough for its extent -/
  union : overlap = "union" → ∃ lo hi, IsLeast (R1 ∪ R2) lo ∧ IsGreatest (R1 ∪ R2) hi ∧ crval = (lo + hi) / 2 ∧
    (¬ Disjoint R1 R2 → IsLeast {n : ℤ | hi - lo ≤ n * |cdelt|} naxis)
  inter : overlap = "intersection" → ¬ Disjoint R1 R2 → ∃ lo hi, IsLeast (R1 ∩ R2) lo ∧ IsGreatest (R1 ∩ R2) hi ∧
    crval = (lo + hi) / 2 ∧ IsLeast {n : ℤ | hi - lo ≤ n * |cdelt|} naxis

/-- The cards `header_overlap` writes or removes. -/
def Spec.overlapCards : List String :=
  ["CRVAL1", "CRVAL2", "CDELT1", "CDELT2", "CRPIX1", "CRPIX2", "NAXIS1", "NAXIS2", "CD1_1", "CD1_2", "CD2_1", "CD2_2"]

/-! ## Header lemmas -/

theorem Header.getitem_setitem (h : Header) (k k' : String) (v : CardVal) :
    (h.setitem k v).getitem k' = if k = k' then .ok v else h.getitem k' := by
  induction h with
  | nil =>
    simp only [Header.setitem, Header.getitem]
  | cons c cs ih =>
    simp only [Header.setitem]
    by_cases hc : c.1 = k
    · simp only [hc, if_true, Header.getitem]
      by_cases hk : k = k' <;> simp [hk]
    · simp only [hc, if_false, Header.getitem, ih]
      by_cases hk : k = k'
      · subst hk; simp [hc]
      · simp [hk]

theorem Header.getitem_delitem (h : Header) (k k' : String) :
    (h.delitem k).getitem k' = if k = k' then .error .keyError else h.getitem k' := by
  unfold Header.delitem
  induction h with
  | nil => simp [Header.getitem]
  | cons c cs ih =>
    by_cases hc : c.1 = k
    · rw [List.filter_cons_of_neg (by simpa using hc), ih]
      by_cases hk : k = k'
      · simp [hk]
      · simp only [hk, if_false, Header.getitem]
        rw [if_neg (by rw [hc]; exact hk)]
    · rw [List.filter_cons_of_pos (by simpa using hc)]
      simp only [Header.getitem, ih]
      by_cases hk : k = k'
      · subst hk; simp [hc]
      · simp [hk]

theorem Header.delitem_absent (h : Header) (k : String) (hk : h.has k = false) : h.delitem k = h := by
  unfold Header.delitem
  rw [List.filter_eq_self]
  intro c hc
  unfold Header.has at hk
  rw [List.any_eq_false] at hk
  simpa using hk c hc

theorem Header.filter_setitem (p : String → Bool) (h : Header) (k : String) (v : CardVal) (hp : p k = false) :
    (h.setitem k v).filter (fun c => p c.1) = h.filter fun c => p c.1 := by
  induction h with
  | nil => simp [Header.setitem, hp]
  | cons c cs ih =>
    simp only [Header.setitem]
    by_cases hc : c.1 = k
    · simp [hc, hp]
    · simp only [hc, if_false, List.filter_cons, ih]

theorem Header.filter_delitem (p : String → Bool) (h : Header) (k : String) (hp : p k = false) :
    (h.delitem k).filter (fun c => p c.1) = h.filter fun c => p c.1 := by
  unfold Header.delitem
  rw [List.filter_filter]
  refine List.filter_congr fun c _ => ?_
  by_cases hc : c.1 = k
  · simp [hc, hp]
  · simp [hc]

theorem Heap.set_last (heap : Heap) (h : Header) (k : String) (v : CardVal) :
    Heap.set (heap ++ [h]) heap.length k v = heap ++ [h.setitem k v] := by
  unfold Heap.set
  induction heap with
  | nil => rfl
  | cons a t ih => simp only [List.cons_append, List.length_cons, List.modify_succ_cons, ih]

theorem Heap.obj_last (heap : Heap) (h : Header) : Heap.obj (heap ++ [h]) heap.length = h := by
  simp [Heap.obj]

theorem Heap.del_last (heap : Heap) (h : Header) (k : String) :
    (if (Heap.obj (heap ++ [h]) heap.length).has k
      then (heap ++ [h]).modify heap.length (fun g : Header => g.delitem k) else heap ++ [h]) = heap ++ [h.delitem k] := by
  rw [Heap.obj_last]
  have hm : (heap ++ [h]).modify heap.length (fun g : Header => g.delitem k) = heap ++ [h.delitem k] := by
    induction heap with
    | nil => rfl
    | cons a t ih => simp only [List.cons_append, List.length_cons, List.modify_succ_cons, ih]
  rw [hm]
  split
  · rfl
  · rename_i hk
    rw [Header.delitem_absent h k (by simpa using hk)]

/-- the cards of the new header -/
noncomputable def newCards (h : Header) (k : OverlapKeys) : Header :=
  (((((((((((h.setitem "CRVAL1" (.num k.crval1)).setitem "CRVAL2" (.num k.crval2)).setitem "CDELT1" (.num k.cdelt1)).setitem
    "CDELT2" (.num k.cdelt2)).delitem "CD1_1").delitem "CD1_2").delitem "CD2_1").delitem "CD2_2").setitem "NAXIS1"
    (.int k.naxis1)).setitem "NAXIS2" (.int k.naxis2)).setitem "CRPIX1" (.num k.crpix1)).setitem "CRPIX2" (.num k.crpix2)

theorem writeKeys_last (heap : Heap) (h : Header) (k : OverlapKeys) :
    writeKeys (heap ++ [h]) heap.length k = heap ++ [newCards h k] := by
  unfold writeKeys newCards
  simp only [Heap.set_last, List.foldl_cons, List.foldl_nil, Heap.del_last]

theorem newCards_getitem (h : Header) (k : OverlapKeys) (key : String) :
    (newCards h k).getitem key =
      if key = "CRPIX2" then .ok (.num k.crpix2) else if key = "CRPIX1" then .ok (.num k.crpix1)
      else if key = "NAXIS2" then .ok (.int k.naxis2) else if key = "NAXIS1" then .ok (.int k.naxis1)
      else if key = "CD2_2" then .error .keyError else if key = "CD2_1" then .error .keyError
      else if key = "CD1_2" then .error .keyError else if key = "CD1_1" then .error .keyError
      else if key = "CDELT2" then .ok (.num k.cdelt2) else if key = "CDELT1" then .ok (.num k.cdelt1)
      else if key = "CRVAL2" then .ok (.num k.crval2) else if key = "CRVAL1" then .ok (.num k.crval1)
      else h.getitem key := by
  unfold newCards
  simp only [Header.getitem_setitem, Header.getitem_delitem, eq_comm (b := key)]

theorem newCards_filter (h : Header) (k : OverlapKeys) :
    (newCards h k).filter (fun c => decide (c.1 ∉ Spec.overlapCards)) = h.filter fun c => decide (c.1 ∉ Spec.overlapCards) := by
  unfold newCards
  iterate 4 rw [Header.filter_setitem (fun s => decide (s ∉ Spec.overlapCards)) _ _ _ (by decide)]
  iterate 4 rw [Header.filter_delitem (fun s => decide (s ∉ Spec.overlapCards)) _ _ (by decide)]
  iterate 4 rw [Header.filter_setitem (fun s => decide (s ∉ Spec.overlapCards)) _ _ _ (by decide)]

/-! ## Axis lemmas -/

theorem spec_lon (s : ℝ) (hs : 0 ≤ s) (x : ℝ) : Spec.lon s x = wrapLon s x := by
  unfold Spec.lon wrapLon
  by_cases h1 : x > s
  · rw [if_neg (by rw [abs_of_nonneg (by linarith)]; linarith), if_pos h1, Real.sign_of_pos (by linarith)]
    ring
  · rw [if_neg h1]
    by_cases h2 : x < -s
    · rw [if_neg (by rw [abs_of_nonpos (by linarith)]; linarith), if_pos h2, Real.sign_of_neg (by linarith)]
      ring
    · rw [if_neg h2, if_pos (abs_le.mpr ⟨by linarith, by linarith⟩)]


theorem checkSigns_eq (a b : ℝ) : checkSigns a b = (min a b, max a b) := by
  unfold checkSigns
  split_ifs with h
  · rw [min_eq_right h.le, max_eq_left h.le]
  · push Not at h
    rw [min_eq_left h, max_eq_right h]

/-- the wrapped longitudes an image covers -/
def Spec.span (a b : ℝ) : Set ℝ := Set.uIcc a b

theorem disjoint_span (a b c d : ℝ) : Disjoint (Spec.span a b) (Spec.span c d) ↔ (min a b > max c d ∨ min c d > max a b) := by
  unfold Spec.span Set.uIcc
  rw [Set.disjoint_iff_inter_eq_empty, Set.Icc_inter_Icc, Set.Icc_eq_empty_iff]
  simp only [sup_le_iff, le_inf_iff, not_and_or, not_le]
  have h1 : min a b ≤ max a b := min_le_max
  have h2 : min c d ≤ max c d := min_le_max
  constructor
  · rintro ((h | h) | (h | h))
    · exact absurd h (not_lt.mpr h1)
    · exact Or.inr h
    · exact Or.inl h
    · exact absurd h (not_lt.mpr h2)
  · rintro (h | h)
    · exact Or.inr (Or.inl h)
    · exact Or.inl (Or.inr h)

theorem isLeast_ceil (e d : ℝ) (he : 0 ≤ e) (hd : d ≠ 0) : IsLeast {n : ℤ | e ≤ n * |d|} ⌈|e / d|⌉ := by
  have hpos : 0 < |d| := abs_pos.mpr hd
  rw [abs_div, abs_of_nonneg he]
  constructor
  · show e ≤ _
    rw [← div_le_iff₀ hpos]
    exact Int.le_ceil _
  · intro n hn
    rw [Int.ceil_le, div_le_iff₀ hpos]
    exact hn

theorem finerScale_abs (d1 d2 : ℝ) (h1 : d1 ≠ 0) : |finerScale d1 d2| = min |d1| |d2| := by
  unfold finerScale
  rw [abs_mul]
  have : |Real.sign d1| = 1 := by
    rcases lt_or_gt_of_ne h1 with h | h
    · rw [Real.sign_of_neg h]; simp
    · rw [Real.sign_of_pos h]; simp
  rw [this, mul_one, abs_of_nonneg]
  exact le_min (abs_nonneg _) (abs_nonneg _)

theorem finerScale_sign (d1 d2 : ℝ) (h1 : d1 ≠ 0) (h2 : d2 ≠ 0) : 0 < finerScale d1 d2 * d1 := by
  unfold finerScale
  have hm : 0 < min |d1| |d2| := lt_min (abs_pos.mpr h1) (abs_pos.mpr h2)
  rcases lt_or_gt_of_ne h1 with h | h
  · rw [Real.sign_of_neg h]; nlinarith
  · rw [Real.sign_of_pos h]; nlinarith

theorem finerScale_ne (d1 d2 : ℝ) (h1 : d1 ≠ 0) (h2 : d2 ≠ 0) : finerScale d1 d2 ≠ 0 := by
  intro h
  have := finerScale_sign d1 d2 h1 h2
  rw [h] at this
  simp at this

/-- one axis of the computation of the code, from the corner values -/
noncomputable def axisLo (overlap : String) (a b c d : ℝ) : ℝ :=
  if overlap = "union" then min (min a b) (min c d) else max (min a b) (min c d)

/-- the other end -/
noncomputable def axisHi (overlap : String) (a b c d : ℝ) : ℝ :=
  if overlap = "union" then max (max a b) (max c d) else min (max a b) (max c d)

open Classical in
/-- its number of pixels -/
noncomputable def axisN (overlap : String) (a b c d cdelt : ℝ) : Py ℤ :=
  if min a b > max c d ∨ min c d > max a b then .ok 0
  else axisLength (axisLo overlap a b c d) (axisHi overlap a b c d) cdelt

theorem axis_ok (overlap : String) (a b c d d1 d2 : ℝ) (h1 : d1 ≠ 0) (h2 : d2 ≠ 0) :
    ∃ n, axisN overlap a b c d (finerScale d1 d2) = .ok n ∧
      Spec.AxisOK overlap (Spec.span a b) (Spec.span c d) d1 d2 ((axisLo overlap a b c d + axisHi overlap a b c d) / 2)
        (finerScale d1 d2) (n / 2) n := by
  have hu : IsLeast (Spec.span a b ∪ Spec.span c d) (min (min a b) (min c d)) := by
    have := (isLeast_Icc (min_le_max : min a b ≤ max a b)).union (isLeast_Icc (min_le_max : min c d ≤ max c d))
    exact this
  have hg : IsGreatest (Spec.span a b ∪ Spec.span c d) (max (max a b) (max c d)) := by
    have := (isGreatest_Icc (min_le_max : min a b ≤ max a b)).union (isGreatest_Icc (min_le_max : min c d ≤ max c d))
    exact this
  by_cases hdis : min a b > max c d ∨ min c d > max a b
  · refine ⟨0, by unfold axisN; rw [if_pos hdis], ?_⟩
    have hD := (disjoint_span a b c d).mpr hdis
    refine ⟨finerScale_abs d1 d2 h1, finerScale_sign d1 d2 h1 h2, rfl, fun _ => rfl, ?_, fun _ h => absurd hD h⟩
    intro ho
    refine ⟨_, _, hu, hg, ?_, fun h => absurd hD h⟩
    simp [axisLo, axisHi, ho]
  · have hD : ¬ Disjoint (Spec.span a b) (Spec.span c d) := fun h => hdis ((disjoint_span a b c d).mp h)
    have hne := finerScale_ne d1 d2 h1 h2
    refine ⟨_, by unfold axisN axisLength; rw [if_neg hdis, if_neg hne], ?_⟩
    refine ⟨finerScale_abs d1 d2 h1, finerScale_sign d1 d2 h1 h2, rfl, fun h => absurd h hD, ?_, ?_⟩
    · intro ho
      refine ⟨_, _, hu, hg, by simp [axisLo, axisHi, ho], fun _ => ?_⟩
      have he : axisHi overlap a b c d - axisLo overlap a b c d
          = max (max a b) (max c d) - min (min a b) (min c d) := by simp [axisLo, axisHi, ho]
      rw [he]
      exact isLeast_ceil _ _ (sub_nonneg.mpr (hu.2 hg.1)) hne
    · intro ho _
      have ho' : overlap ≠ "union" := by rw [ho]; decide
      push Not at hdis
      have hle : max (min a b) (min c d) ≤ min (max a b) (max c d) :=
        max_le (le_min min_le_max hdis.1) (le_min hdis.2 min_le_max)
      have hset : Spec.span a b ∩ Spec.span c d = Set.Icc (max (min a b) (min c d)) (min (max a b) (max c d)) :=
        Set.Icc_inter_Icc
      rw [hset]
      refine ⟨_, _, isLeast_Icc hle, isGreatest_Icc hle, by simp [axisLo, axisHi, ho'], ?_⟩
      have he : axisHi overlap a b c d - axisLo overlap a b c d
          = min (max a b) (max c d) - max (min a b) (min c d) := by simp [axisLo, axisHi, ho']
      rw [he]
      exact isLeast_ceil _ _ (sub_nonneg.mpr hle) hne

theorem overlapScale_two (p1 p2 : ℝ → ℝ → Py (ℝ × ℝ)) (cd1 cd2 : Option (Fin 2 → Fin 2 → ℝ)) (e1 e2 g1 g2 : Fin 2 → ℝ) :
    overlapScale ⟨2, p1, cd1, e1, g1⟩ ⟨2, p2, cd2, e2, g2⟩
      = .ok (finerScale (Spec.scale cd1 cd2 e1 0) (Spec.scale cd2 cd1 e2 0),
             finerScale (Spec.scale cd1 cd2 e1 1) (Spec.scale cd2 cd1 e2 1)) := by
  unfold overlapScale
  rw [dif_pos ⟨rfl, rfl⟩]
  cases cd1 <;> cases cd2 <;> rfl

/-- the computation of the new cards, for legal modes -/
theorem overlapKeys_eq (mkWcs : Header → Py Wcs) (h1 h2 : Header) (s : ℝ) (overlap : String) (w1 w2 : Wcs)
    (f1 l1 f2 l2 : ℝ × ℝ) (hc1 : Spec.Corners mkWcs h1 w1 f1 l1) (hc2 : Spec.Corners mkWcs h2 w2 f2 l2)
    (ho : overlap = "union" ∨ overlap = "intersection") :
    overlapKeys mkWcs h1 h2 s overlap = (do
      let (cdelt1, cdelt2) ← overlapScale w1 w2
      let n1 ← axisN overlap (wrapLon s f1.1) (wrapLon s l1.1) (wrapLon s f2.1) (wrapLon s l2.1) cdelt1
      let n2 ← axisN overlap f1.2 l1.2 f2.2 l2.2 cdelt2
      return ⟨(axisLo overlap (wrapLon s f1.1) (wrapLon s l1.1) (wrapLon s f2.1) (wrapLon s l2.1)
          + axisHi overlap (wrapLon s f1.1) (wrapLon s l1.1) (wrapLon s f2.1) (wrapLon s l2.1)) / 2,
        (axisLo overlap f1.2 l1.2 f2.2 l2.2 + axisHi overlap f1.2 l1.2 f2.2 l2.2) / 2,
        cdelt1, cdelt2, n1, n2, n1 / 2, n2 / 2⟩) := by
  obtain ⟨hm1, hf1, a1, b1, ha1, hb1, hl1⟩ := hc1
  obtain ⟨hm2, hf2, a2, b2, ha2, hb2, hl2⟩ := hc2
  unfold overlapKeys
  simp only [hm1, hm2, ha1, hb1, ha2, hb2, hf1, hf2, hl1, hl2, CardVal.toReal, bind, Except.bind, checkSigns_eq]
  rcases ho with ho | ho <;> subst ho
  · simp only [if_true, axisLo, axisHi, axisN]
  · simp only [if_true, axisLo, axisHi, axisN, show ("intersection" = "union") = False from by simp, if_false]

/-! ## C64, C65 -/

variable (mkWcs : Header → Py Wcs) (heap : Heap) (i1 i2 : ℕ) (s : ℝ) (overlap : String)

/-- C64, C65: the header `header_overlap` returns, for two images with two-axis WCSs of nonzero scales: what each axis
is; the CD cards are gone; every other card is a card of the first header, in the same order; no header that existed
before the call is modified. -/
theorem C65_header (p1 p2 : ℝ → ℝ → Py (ℝ × ℝ)) (cd1 cd2 : Option (Fin 2 → Fin 2 → ℝ)) (e1 e2 g1 g2 : Fin 2 → ℝ)
    (f1 l1 f2 l2 : ℝ × ℝ) (hc1 : Spec.Corners mkWcs (heap.obj i1) ⟨2, p1, cd1, e1, g1⟩ f1 l1)
    (hc2 : Spec.Corners mkWcs (heap.obj i2) ⟨2, p2, cd2, e2, g2⟩ f2 l2)
    (hd1 : ∀ i, Spec.scale cd1 cd2 e1 i ≠ 0) (hd2 : ∀ i, Spec.scale cd2 cd1 e2 i ≠ 0)
    (hs : 0 ≤ s) (ho : overlap = "union" ∨ overlap = "intersection") :
    ∃ (new : Header) (crval1 crval2 cdelt1 cdelt2 crpix1 crpix2 : ℝ) (naxis1 naxis2 : ℤ),
      headerOverlap mkWcs heap i1 i2 s overlap = (.ok heap.length, heap ++ [new]) ∧
      new.getitem "CRVAL1" = .ok (.num crval1) ∧ new.getitem "CRVAL2" = .ok (.num crval2) ∧
      new.getitem "CDELT1" = .ok (.num cdelt1) ∧ new.getitem "CDELT2" = .ok (.num cdelt2) ∧
      new.getitem "CRPIX1" = .ok (.num crpix1) ∧ new.getitem "CRPIX2" = .ok (.num crpix2) ∧
      new.getitem "NAXIS1" = .ok (.int naxis1) ∧ new.getitem "NAXIS2" = .ok (.int naxis2) ∧
      Spec.AxisOK overlap (Set.uIcc (Spec.lon s f1.1) (Spec.lon s l1.1)) (Set.uIcc (Spec.lon s f2.1) (Spec.lon s l2.1))
        (Spec.scale cd1 cd2 e1 0) (Spec.scale cd2 cd1 e2 0) crval1 cdelt1 crpix1 naxis1 ∧
      Spec.AxisOK overlap (Set.uIcc f1.2 l1.2) (Set.uIcc f2.2 l2.2)
        (Spec.scale cd1 cd2 e1 1) (Spec.scale cd2 cd1 e2 1) crval2 cdelt2 crpix2 naxis2 ∧
      (∀ k ∈ ["CD1_1", "CD1_2", "CD2_1", "CD2_2"], new.getitem k = .error .keyError) ∧
      new.filter (fun c => decide (c.1 ∉ Spec.overlapCards))
        = (heap.obj i1).filter (fun c => decide (c.1 ∉ Spec.overlapCards)) := by
  obtain ⟨n1, hn1, hA1⟩ := axis_ok overlap (wrapLon s f1.1) (wrapLon s l1.1) (wrapLon s f2.1) (wrapLon s l2.1)
    (Spec.scale cd1 cd2 e1 0) (Spec.scale cd2 cd1 e2 0) (hd1 0) (hd2 0)
  obtain ⟨n2, hn2, hA2⟩ := axis_ok overlap f1.2 l1.2 f2.2 l2.2
    (Spec.scale cd1 cd2 e1 1) (Spec.scale cd2 cd1 e2 1) (hd1 1) (hd2 1)
  have hk := overlapKeys_eq mkWcs _ _ s overlap _ _ f1 l1 f2 l2 hc1 hc2 ho
  rw [overlapScale_two] at hk
  simp only [bind, Except.bind, hn1, hn2] at hk
  obtain ⟨K, hK, hkk⟩ : ∃ K : OverlapKeys, overlapKeys mkWcs (heap.obj i1) (heap.obj i2) s overlap = .ok K ∧ K = _ := ⟨_, hk, rfl⟩
  refine ⟨newCards (heap.obj i1) K, K.crval1, K.crval2, K.cdelt1, K.cdelt2, K.crpix1, K.crpix2, K.naxis1, K.naxis2, ?_,
    by rw [newCards_getitem]; rfl, by rw [newCards_getitem]; rfl, by rw [newCards_getitem]; rfl,
    by rw [newCards_getitem]; rfl, by rw [newCards_getitem]; rfl, by rw [newCards_getitem]; rfl,
    by rw [newCards_getitem]; rfl, by rw [newCards_getitem]; rfl, ?_, ?_, ?_, newCards_filter _ _⟩
  · unfold headerOverlap
    rw [hK]
    simp only [writeKeys_last]
  · rw [hkk, spec_lon s hs, spec_lon s hs, spec_lon s hs, spec_lon s hs]; exact hA1
  · rw [hkk]; exact hA2
  · intro k hk
    simp only [List.mem_cons, List.not_mem_nil, or_false] at hk
    rcases hk with rfl | rfl | rfl | rfl <;> (rw [newCards_getitem]; rfl)

/-- `[lo, hi]` is the smallest interval that contains both `R1` and `R2` -/
def Spec.SmallestAround (R1 R2 : Set ℝ) (lo hi : ℝ) : Prop :=
  R1 ⊆ Set.Icc lo hi ∧ R2 ⊆ Set.Icc lo hi ∧ ∀ lo' hi', R1 ⊆ Set.Icc lo' hi' → R2 ⊆ Set.Icc lo' hi' → Set.Icc lo hi ⊆ Set.Icc lo' hi'

/-- `[lo, hi]` is the largest interval inside both `R1` and `R2` -/
def Spec.LargestInside (R1 R2 : Set ℝ) (lo hi : ℝ) : Prop :=
  lo ≤ hi ∧ Set.Icc lo hi ⊆ R1 ∧ Set.Icc lo hi ⊆ R2 ∧
    ∀ lo' hi', lo' ≤ hi' → Set.Icc lo' hi' ⊆ R1 → Set.Icc lo' hi' ⊆ R2 → Set.Icc lo' hi' ⊆ Set.Icc lo hi

theorem axisOK_union {R1 R2 : Set ℝ} {d1 d2 crval cdelt crpix : ℝ} {naxis : ℤ}
    (h : Spec.AxisOK "union" R1 R2 d1 d2 crval cdelt crpix naxis) (ht : ¬ Disjoint R1 R2) :
    ∃ lo hi, Spec.SmallestAround R1 R2 lo hi ∧ crval = (lo + hi) / 2 ∧ IsLeast {n : ℤ | hi - lo ≤ n * |cdelt|} naxis := by
  obtain ⟨lo, hi, hl, hh, hc, hn⟩ := h.union rfl
  refine ⟨lo, hi, ⟨fun x hx => ⟨hl.2 (.inl hx), hh.2 (.inl hx)⟩, fun x hx => ⟨hl.2 (.inr hx), hh.2 (.inr hx)⟩, fun lo' hi' h1 h2 => ?_⟩, hc, hn ht⟩
  have hsub : R1 ∪ R2 ⊆ Set.Icc lo' hi' := Set.union_subset h1 h2
  exact Set.Icc_subset_Icc (hsub hl.1).1 (hsub hh.1).2

theorem axisOK_inter {R1 R2 : Set ℝ} {d1 d2 crval cdelt crpix : ℝ} {naxis : ℤ} (h1 : R1.OrdConnected) (h2 : R2.OrdConnected)
    (h : Spec.AxisOK "intersection" R1 R2 d1 d2 crval cdelt crpix naxis) (ht : ¬ Disjoint R1 R2) :
    ∃ lo hi, Spec.LargestInside R1 R2 lo hi ∧ crval = (lo + hi) / 2 ∧ IsLeast {n : ℤ | hi - lo ≤ n * |cdelt|} naxis := by
  obtain ⟨lo, hi, hl, hh, hc, hn⟩ := h.inter rfl ht
  refine ⟨lo, hi, ⟨hl.2 hh.1, h1.out hl.1.1 hh.1.1, h2.out hl.1.2 hh.1.2, fun lo' hi' hle k1 k2 => ?_⟩, hc, hn⟩
  exact Set.Icc_subset_Icc (hl.2 ⟨k1 ⟨le_rfl, hle⟩, k2 ⟨le_rfl, hle⟩⟩) (hh.2 ⟨k1 ⟨hle, le_rfl⟩, k2 ⟨hle, le_rfl⟩⟩)

/-- C64: for two images that touch along both axes, the box of the new header is centred, along each axis, on the smallest interval that contains
both images (`union`) or on the largest interval inside both (`intersection`), and has just enough pixels to cover it. -/
theorem C64_box (p1 p2 : ℝ → ℝ → Py (ℝ × ℝ)) (cd1 cd2 : Option (Fin 2 → Fin 2 → ℝ)) (e1 e2 g1 g2 : Fin 2 → ℝ)
    (f1 l1 f2 l2 : ℝ × ℝ) (hc1 : Spec.Corners mkWcs (heap.obj i1) ⟨2, p1, cd1, e1, g1⟩ f1 l1)
    (hc2 : Spec.Corners mkWcs (heap.obj i2) ⟨2, p2, cd2, e2, g2⟩ f2 l2)
    (hd1 : ∀ i, Spec.scale cd1 cd2 e1 i ≠ 0) (hd2 : ∀ i, Spec.scale cd2 cd1 e2 i ≠ 0)
    (hs : 0 ≤ s) (ho : overlap = "union" ∨ overlap = "intersection") (X1 X2 Y1 Y2 : Set ℝ)
    (hX1 : X1 = Set.uIcc (Spec.lon s f1.1) (Spec.lon s l1.1)) (hX2 : X2 = Set.uIcc (Spec.lon s f2.1) (Spec.lon s l2.1))
    (hY1 : Y1 = Set.uIcc f1.2 l1.2) (hY2 : Y2 = Set.uIcc f2.2 l2.2) (hx : ¬ Disjoint X1 X2) (hy : ¬ Disjoint Y1 Y2) :
    ∃ (new : Header) (cdelt1 cdelt2 xlo xhi ylo yhi : ℝ) (naxis1 naxis2 : ℤ),
      headerOverlap mkWcs heap i1 i2 s overlap = (.ok heap.length, heap ++ [new]) ∧
      new.getitem "CRVAL1" = .ok (.num ((xlo + xhi) / 2)) ∧ new.getitem "CRVAL2" = .ok (.num ((ylo + yhi) / 2)) ∧
      new.getitem "CDELT1" = .ok (.num cdelt1) ∧ new.getitem "CDELT2" = .ok (.num cdelt2) ∧
      new.getitem "NAXIS1" = .ok (.int naxis1) ∧ new.getitem "NAXIS2" = .ok (.int naxis2) ∧
      (overlap = "union" → Spec.SmallestAround X1 X2 xlo xhi ∧ Spec.SmallestAround Y1 Y2 ylo yhi) ∧
      (overlap = "intersection" → Spec.LargestInside X1 X2 xlo xhi ∧ Spec.LargestInside Y1 Y2 ylo yhi) ∧
      IsLeast {n : ℤ | xhi - xlo ≤ n * |cdelt1|} naxis1 ∧ IsLeast {n : ℤ | yhi - ylo ≤ n * |cdelt2|} naxis2 := by
  obtain ⟨new, v1, v2, d1, d2, _, _, n1, n2, h, a1, a2, a3, a4, -, -, a7, a8, k1, k2, -⟩ :=
    C65_header mkWcs heap i1 i2 s overlap p1 p2 cd1 cd2 e1 e2 g1 g2 f1 l1 f2 l2 hc1 hc2 hd1 hd2 hs ho
  rw [← hX1, ← hX2] at k1
  rw [← hY1, ← hY2] at k2
  rcases ho with rfl | rfl
  · obtain ⟨xlo, xhi, b1, rfl, b3⟩ := axisOK_union k1 hx
    obtain ⟨ylo, yhi, c1, rfl, c3⟩ := axisOK_union k2 hy
    exact ⟨new, d1, d2, xlo, xhi, ylo, yhi, n1, n2, h, a1, a2, a3, a4, a7, a8, fun _ => ⟨b1, c1⟩, fun h => by simp at h, b3, c3⟩
  · obtain ⟨xlo, xhi, b1, rfl, b3⟩ := axisOK_inter (hX1 ▸ Set.ordConnected_uIcc) (hX2 ▸ Set.ordConnected_uIcc) k1 hx
    obtain ⟨ylo, yhi, c1, rfl, c3⟩ := axisOK_inter (hY1 ▸ Set.ordConnected_uIcc) (hY2 ▸ Set.ordConnected_uIcc) k2 hy
    exact ⟨new, d1, d2, xlo, xhi, ylo, yhi, n1, n2, h, a1, a2, a3, a4, a7, a8, fun h => by simp at h, fun _ => ⟨b1, c1⟩, b3, c3⟩

theorem axisN_symm (overlap : String) (a b c d d1 d2 : ℝ) (h1 : d1 ≠ 0) (h2 : d2 ≠ 0) :
    axisN overlap a b c d (finerScale d1 d2) = axisN overlap c d a b (finerScale d2 d1) := by
  unfold axisN axisLength axisLo axisHi
  have habs : |finerScale d1 d2| = |finerScale d2 d1| := by
    rw [finerScale_abs _ _ h1, finerScale_abs _ _ h2, min_comm]
  simp only [min_comm (min c d), max_comm (max c d), max_comm (min c d), min_comm (max c d),
    if_neg (finerScale_ne d1 d2 h1 h2), if_neg (finerScale_ne d2 d1 h2 h1), abs_div, habs,
    or_comm (a := min c d > max a b)]

/-- C64: exchanging the two headers changes neither the box nor the number of pixels nor the pixel size; only the sign of
CDELT (and the cards that are copied) follow the first header. -/
theorem C64_symmetric (p1 p2 : ℝ → ℝ → Py (ℝ × ℝ)) (cd1 cd2 : Option (Fin 2 → Fin 2 → ℝ)) (e1 e2 g1 g2 : Fin 2 → ℝ)
    (f1 l1 f2 l2 : ℝ × ℝ) (hc1 : Spec.Corners mkWcs (heap.obj i1) ⟨2, p1, cd1, e1, g1⟩ f1 l1)
    (hc2 : Spec.Corners mkWcs (heap.obj i2) ⟨2, p2, cd2, e2, g2⟩ f2 l2)
    (hd1 : ∀ i, Spec.scale cd1 cd2 e1 i ≠ 0) (hd2 : ∀ i, Spec.scale cd2 cd1 e2 i ≠ 0)
    (ho : overlap = "union" ∨ overlap = "intersection") :
    ∃ new new' : Header, headerOverlap mkWcs heap i1 i2 s overlap = (.ok heap.length, heap ++ [new]) ∧
      headerOverlap mkWcs heap i2 i1 s overlap = (.ok heap.length, heap ++ [new']) ∧
      (∀ k ∈ ["CRVAL1", "CRVAL2", "CRPIX1", "CRPIX2", "NAXIS1", "NAXIS2"], new.getitem k = new'.getitem k) ∧
      ∀ k ∈ ["CDELT1", "CDELT2"], ∃ d d' : ℝ, new.getitem k = .ok (.num d) ∧ new'.getitem k = .ok (.num d') ∧ |d| = |d'| := by
  obtain ⟨n1, hn1, -⟩ := axis_ok overlap (wrapLon s f1.1) (wrapLon s l1.1) (wrapLon s f2.1) (wrapLon s l2.1)
    (Spec.scale cd1 cd2 e1 0) (Spec.scale cd2 cd1 e2 0) (hd1 0) (hd2 0)
  obtain ⟨n2, hn2, -⟩ := axis_ok overlap f1.2 l1.2 f2.2 l2.2
    (Spec.scale cd1 cd2 e1 1) (Spec.scale cd2 cd1 e2 1) (hd1 1) (hd2 1)
  have hk := overlapKeys_eq mkWcs _ _ s overlap _ _ f1 l1 f2 l2 hc1 hc2 ho
  have hk' := overlapKeys_eq mkWcs _ _ s overlap _ _ f2 l2 f1 l1 hc2 hc1 ho
  rw [overlapScale_two] at hk hk'
  simp only [bind, Except.bind, hn1, hn2] at hk
  simp only [bind, Except.bind, ← axisN_symm _ _ _ _ _ _ _ (hd1 0) (hd2 0), ← axisN_symm _ _ _ _ _ _ _ (hd1 1) (hd2 1),
    hn1, hn2] at hk'
  have hlo : ∀ a b c d, axisLo overlap a b c d = axisLo overlap c d a b := by
    intro a b c d; unfold axisLo; rw [min_comm (min a b), max_comm (min a b)]
  have hhi : ∀ a b c d, axisHi overlap a b c d = axisHi overlap c d a b := by
    intro a b c d; unfold axisHi; rw [max_comm (max a b), min_comm (max a b)]
  have habs : ∀ i, |finerScale (Spec.scale cd1 cd2 e1 i) (Spec.scale cd2 cd1 e2 i)|
      = |finerScale (Spec.scale cd2 cd1 e2 i) (Spec.scale cd1 cd2 e1 i)| := by
    intro i
    rw [finerScale_abs _ _ (hd1 i), finerScale_abs _ _ (hd2 i), min_comm]
  obtain ⟨K, hK, hkk⟩ : ∃ K : OverlapKeys, overlapKeys mkWcs (heap.obj i1) (heap.obj i2) s overlap = .ok K ∧ K = _ :=
    ⟨_, hk, rfl⟩
  obtain ⟨K', hK', hkk'⟩ : ∃ K : OverlapKeys, overlapKeys mkWcs (heap.obj i2) (heap.obj i1) s overlap = .ok K ∧ K = _ :=
    ⟨_, hk', rfl⟩
  refine ⟨newCards (heap.obj i1) K, newCards (heap.obj i2) K', ?_, ?_, ?_, ?_⟩
  · unfold headerOverlap; rw [hK]; simp only [writeKeys_last]
  · unfold headerOverlap; rw [hK']; simp only [writeKeys_last]
  · intro k hk
    have e1 : K.crval1 = K'.crval1 := by rw [hkk, hkk']; simp only; rw [hlo, hhi]
    have e2 : K.crval2 = K'.crval2 := by rw [hkk, hkk']; simp only; rw [hlo, hhi]
    have e3 : K.naxis1 = K'.naxis1 := by rw [hkk, hkk']
    have e4 : K.naxis2 = K'.naxis2 := by rw [hkk, hkk']
    have e5 : K.crpix1 = K'.crpix1 := by rw [hkk, hkk']
    have e6 : K.crpix2 = K'.crpix2 := by rw [hkk, hkk']
    simp only [List.mem_cons, List.not_mem_nil, or_false] at hk
    rcases hk with rfl | rfl | rfl | rfl | rfl | rfl <;>
      (rw [newCards_getitem, newCards_getitem]; simp [e1, e2, e3, e4, e5, e6])
  · intro k hk
    simp only [List.mem_cons, List.not_mem_nil, or_false] at hk
    rcases hk with rfl | rfl
    · refine ⟨K.cdelt1, K'.cdelt1, by rw [newCards_getitem]; rfl, by rw [newCards_getitem]; rfl, ?_⟩
      rw [hkk, hkk']; exact habs 0
    · refine ⟨K.cdelt2, K'.cdelt2, by rw [newCards_getitem]; rfl, by rw [newCards_getitem]; rfl, ?_⟩
      rw [hkk, hkk']; exact habs 1

/-- C64: any other mode is a ValueError, and nothing is modified. -/
theorem C64_mode (w1 w2 : Wcs) (f1 l1 f2 l2 : ℝ × ℝ) (hc1 : Spec.Corners mkWcs (heap.obj i1) w1 f1 l1)
    (hc2 : Spec.Corners mkWcs (heap.obj i2) w2 f2 l2) (ho : overlap ≠ "union") (ho' : overlap ≠ "intersection") :
    headerOverlap mkWcs heap i1 i2 s overlap = (.error .valueError, heap) := by
  obtain ⟨hm1, hf1, a1, b1, ha1, hb1, hl1⟩ := hc1
  obtain ⟨hm2, hf2, a2, b2, ha2, hb2, hl2⟩ := hc2
  unfold headerOverlap overlapKeys
  simp only [hm1, hm2, ha1, hb1, ha2, hb2, hf1, hf2, hl1, hl2, CardVal.toReal, bind, Except.bind, if_neg ho, if_neg ho']

/-- C64: a header whose coordinates do not have exactly two axes is a ValueError, whatever the mode, and nothing is modified. -/
theorem C64_axes (w1 w2 : Wcs) (f1 l1 f2 l2 : ℝ × ℝ) (hc1 : Spec.Corners mkWcs (heap.obj i1) w1 f1 l1)
    (hc2 : Spec.Corners mkWcs (heap.obj i2) w2 f2 l2) (hn : w1.naxis ≠ 2 ∨ w2.naxis ≠ 2) :
    headerOverlap mkWcs heap i1 i2 s overlap = (.error .valueError, heap) := by
  by_cases ho : overlap = "union" ∨ overlap = "intersection"
  · have hk := overlapKeys_eq mkWcs _ _ s overlap _ _ f1 l1 f2 l2 hc1 hc2 ho
    have hs : overlapScale w1 w2 = .error .valueError := by
      unfold overlapScale
      rw [dif_neg]
      rintro ⟨h1, h2⟩
      exact hn.elim (fun h => h h1) fun h => h h2
    rw [hs] at hk
    unfold headerOverlap
    rw [hk]
    rfl
  · exact C64_mode mkWcs heap i1 i2 s overlap w1 w2 f1 l1 f2 l2 hc1 hc2 (fun h => ho (Or.inl h)) fun h => ho (Or.inr h)

/-- C64: a first header without a size (NAXIS1 or NAXIS2) is a KeyError, and nothing is modified. -/
theorem C64_no_size (w1 w2 : Wcs) (h1 : mkWcs (heap.obj i1) = .ok w1) (h2 : mkWcs (heap.obj i2) = .ok w2)
    (hk : (heap.obj i1).has "NAXIS1" = false ∨ (∃ n : ℤ, (heap.obj i1).getitem "NAXIS1" = .ok (.int n)) ∧ (heap.obj i1).has "NAXIS2" = false) :
    headerOverlap mkWcs heap i1 i2 s overlap = (.error .keyError, heap) := by
  have hg : ∀ (h : Header) (k : String), h.has k = false → h.getitem k = .error .keyError := by
    intro h k
    induction h with
    | nil => intro _; rfl
    | cons c cs ih =>
      intro hc
      unfold Header.has at hc ih
      rw [List.any_cons, Bool.or_eq_false_iff] at hc
      have hne : ¬ c.1 = k := by simpa using hc.1
      show (if c.1 = k then _ else _) = _
      rw [if_neg hne]
      exact ih hc.2
  unfold headerOverlap overlapKeys
  rcases hk with hk | ⟨⟨n, hn⟩, hk⟩
  · simp only [h1, h2, hg _ _ hk, bind, Except.bind]
  · simp only [h1, h2, hn, hg _ _ hk, CardVal.toReal, bind, Except.bind]

/-- C64, non-vacuity of `C64_axes` and `C64_no_size`: a three-dimensional cube, and an empty header. -/
example : headerOverlap (fun _ => .ok ⟨3, fun x y => .ok (x, y), none, fun _ => 1, fun _ => 1⟩) [[("NAXIS1", .int 5), ("NAXIS2", .int 4)]] 0 0 180
      "union" = (.error .valueError, [[("NAXIS1", .int 5), ("NAXIS2", .int 4)]]) ∧
    headerOverlap (fun _ => .ok ⟨2, fun x y => .ok (x, y), none, fun _ => 1, fun _ => 1⟩) [[]] 0 0 180 "union" = (.error .keyError, [[]]) := by
  constructor
  · refine C64_axes _ _ _ _ _ _ _ _ (1, 1) (5, 4) (1, 1) (5, 4) ⟨rfl, rfl, 5, 4, rfl, rfl, by norm_num⟩ ⟨rfl, rfl, 5, 4, rfl, rfl, by norm_num⟩ (Or.inl (by decide))
  · exact C64_no_size _ _ _ _ _ _ _ _ rfl rfl (Or.inl rfl)

/-- C65: whatever the arguments, no header object that existed is modified, and a call that raises creates none. -/
theorem C65_inputs_kept :
    (∃ new, headerOverlap mkWcs heap i1 i2 s overlap = (.ok heap.length, heap ++ [new])) ∨
    (∃ e, headerOverlap mkWcs heap i1 i2 s overlap = (.error e, heap)) := by
  unfold headerOverlap
  cases overlapKeys mkWcs (heap.obj i1) (heap.obj i2) s overlap with
  | error e => exact Or.inr ⟨e, rfl⟩
  | ok k => exact Or.inl ⟨newCards (heap.obj i1) k, by simp only [writeKeys_last]⟩

/-- The region of one axis that the new header is to cover. -/
def Spec.region (overlap : String) (R1 R2 : Set ℝ) : Set ℝ := if overlap = "union" then R1 ∪ R2 else R1 ∩ R2

open Classical in
/-- Python's error for the number of pixels of scale 0 that cover a region: `int(inf)`, or `int(nan)` if the region is a point. -/
noncomputable def Spec.zeroScaleError (region : Set ℝ) : PyErr := if region.Subsingleton then .valueError else .overflowError

theorem subsingleton_iff_ends (R : Set ℝ) (lo hi : ℝ) (hl : IsLeast R lo) (hh : IsGreatest R hi) :
    R.Subsingleton ↔ hi - lo = 0 := by
  constructor
  · intro h
    rw [h hh.1 hl.1, sub_self]
  · intro h x hx y hy
    have := hl.2 hx
    have := hl.2 hy
    have := hh.2 hx
    have := hh.2 hy
    linarith

theorem axisN_zero (ho : overlap = "union" ∨ overlap = "intersection") (a b c d : ℝ)
    (ht : ¬ Disjoint (Spec.span a b) (Spec.span c d)) :
    axisN overlap a b c d 0 = .error (Spec.zeroScaleError (Spec.region overlap (Spec.span a b) (Spec.span c d))) := by
  have hdis : ¬ (min a b > max c d ∨ min c d > max a b) := fun h => ht ((disjoint_span a b c d).mpr h)
  have key : (Spec.region overlap (Spec.span a b) (Spec.span c d)).Subsingleton
      ↔ axisHi overlap a b c d - axisLo overlap a b c d = 0 := by
    rcases ho with rfl | rfl
    · refine subsingleton_iff_ends _ _ _ ?_ ?_
      · simp only [Spec.region, axisLo, if_true]
        exact (isLeast_Icc (min_le_max : min a b ≤ max a b)).union (isLeast_Icc (min_le_max : min c d ≤ max c d))
      · simp only [Spec.region, axisHi, if_true]
        exact (isGreatest_Icc (min_le_max : min a b ≤ max a b)).union (isGreatest_Icc (min_le_max : min c d ≤ max c d))
    · push Not at hdis
      have hle : max (min a b) (min c d) ≤ min (max a b) (max c d) :=
        max_le (le_min min_le_max hdis.1) (le_min hdis.2 min_le_max)
      have hset : Spec.span a b ∩ Spec.span c d = Set.Icc (max (min a b) (min c d)) (min (max a b) (max c d)) :=
        Set.Icc_inter_Icc
      have hn : ¬ ("intersection" = "union") := by decide
      refine subsingleton_iff_ends _ _ _ ?_ ?_
      · simp only [Spec.region, axisLo, if_neg hn, hset]
        exact isLeast_Icc hle
      · simp only [Spec.region, axisHi, if_neg hn, hset]
        exact isGreatest_Icc hle
  unfold axisN axisLength Spec.zeroScaleError
  rw [if_neg hdis, if_pos rfl]
  by_cases h : axisHi overlap a b c d - axisLo overlap a b c d = 0
  · rw [if_pos h, if_pos (key.mpr h)]
  · rw [if_neg h, if_neg fun h' => h (key.mp h')]

theorem finerScale_zero (d1 d2 : ℝ) (hd : d1 = 0 ∨ d2 = 0) : finerScale d1 d2 = 0 := by
  unfold finerScale
  rcases hd with h | h <;> rw [h]
  · simp
  · rw [abs_zero, min_eq_right (abs_nonneg _), zero_mul]

/-- C65: a scale of 0 on the first axis (e.g. a CD matrix rotated by 90 degrees) of images that touch there: OverflowError,
or ValueError when the region to cover is a single longitude. -/
theorem C65_zero_scale (p1 p2 : ℝ → ℝ → Py (ℝ × ℝ)) (cd1 cd2 : Option (Fin 2 → Fin 2 → ℝ)) (e1 e2 g1 g2 : Fin 2 → ℝ)
    (f1 l1 f2 l2 : ℝ × ℝ) (hc1 : Spec.Corners mkWcs (heap.obj i1) ⟨2, p1, cd1, e1, g1⟩ f1 l1)
    (hc2 : Spec.Corners mkWcs (heap.obj i2) ⟨2, p2, cd2, e2, g2⟩ f2 l2) (hs : 0 ≤ s)
    (hd : Spec.scale cd1 cd2 e1 0 = 0 ∨ Spec.scale cd2 cd1 e2 0 = 0)
    (R1 R2 : Set ℝ) (h1 : R1 = Set.uIcc (Spec.lon s f1.1) (Spec.lon s l1.1)) (h2 : R2 = Set.uIcc (Spec.lon s f2.1) (Spec.lon s l2.1))
    (ht : ¬ Disjoint R1 R2) (ho : overlap = "union" ∨ overlap = "intersection") :
    headerOverlap mkWcs heap i1 i2 s overlap = (.error (Spec.zeroScaleError (Spec.region overlap R1 R2)), heap) := by
  have hk := overlapKeys_eq mkWcs _ _ s overlap _ _ f1 l1 f2 l2 hc1 hc2 ho
  rw [overlapScale_two, finerScale_zero _ _ hd] at hk
  rw [spec_lon s hs, spec_lon s hs] at h1 h2
  subst h1 h2
  unfold headerOverlap
  rw [hk]
  simp only [bind, Except.bind, axisN_zero overlap ho _ _ _ _ ht]
  rfl

/-- C65: likewise for the second axis, when the first one has nonzero scales. -/
theorem C65_zero_scale_second (p1 p2 : ℝ → ℝ → Py (ℝ × ℝ)) (cd1 cd2 : Option (Fin 2 → Fin 2 → ℝ)) (e1 e2 g1 g2 : Fin 2 → ℝ)
    (f1 l1 f2 l2 : ℝ × ℝ) (hc1 : Spec.Corners mkWcs (heap.obj i1) ⟨2, p1, cd1, e1, g1⟩ f1 l1)
    (hc2 : Spec.Corners mkWcs (heap.obj i2) ⟨2, p2, cd2, e2, g2⟩ f2 l2)
    (hd1 : Spec.scale cd1 cd2 e1 0 ≠ 0) (hd2 : Spec.scale cd2 cd1 e2 0 ≠ 0)
    (hd : Spec.scale cd1 cd2 e1 1 = 0 ∨ Spec.scale cd2 cd1 e2 1 = 0)
    (ht : ¬ Disjoint (Set.uIcc f1.2 l1.2) (Set.uIcc f2.2 l2.2)) (ho : overlap = "union" ∨ overlap = "intersection") :
    headerOverlap mkWcs heap i1 i2 s overlap
      = (.error (Spec.zeroScaleError (Spec.region overlap (Set.uIcc f1.2 l1.2) (Set.uIcc f2.2 l2.2))), heap) := by
  have hk := overlapKeys_eq mkWcs _ _ s overlap _ _ f1 l1 f2 l2 hc1 hc2 ho
  obtain ⟨n1, hn1, -⟩ := axis_ok overlap (wrapLon s f1.1) (wrapLon s l1.1) (wrapLon s f2.1) (wrapLon s l2.1)
    (Spec.scale cd1 cd2 e1 0) (Spec.scale cd2 cd1 e2 0) hd1 hd2
  rw [overlapScale_two, finerScale_zero (Spec.scale cd1 cd2 e1 1) _ hd] at hk
  unfold headerOverlap
  rw [hk]
  simp only [bind, Except.bind, hn1, axisN_zero overlap ho _ _ _ _ ht]
  rfl

/-! ## C66 -/

/-- A longitude and the same direction another turn away. -/
def Spec.SameDirection (x y : ℝ) : Prop := ∃ k : ℤ, |k| ≤ 1 ∧ y = x + 360 * k

theorem lon_same (x y : ℝ) (hx : |x| < 180) (h : Spec.SameDirection x y) : wrapLon 180 y = x := by
  obtain ⟨k, hk, rfl⟩ := h
  rw [abs_lt] at hx
  rw [abs_le] at hk
  have : k = -1 ∨ k = 0 ∨ k = 1 := by omega
  unfold wrapLon
  rcases this with rfl | rfl | rfl <;> push_cast <;> split_ifs <;> linarith

/-- C66: with the default `max_separation` of 180 degrees, the header does not depend on the turn in which the WCS library
reports longitudes (359 or -1 degrees): with corners within 180 degrees of longitude 0, and another library giving the same
directions, up to one turn apart, the results are equal. -/
theorem C66_meridian (mkWcs' : Header → Py Wcs) (p1 p2 p1' p2' : ℝ → ℝ → Py (ℝ × ℝ)) (cd1 cd2 : Option (Fin 2 → Fin 2 → ℝ))
    (e1 e2 g1 g2 : Fin 2 → ℝ) (f1 l1 f2 l2 f1' l1' f2' l2' : ℝ × ℝ)
    (hc1 : Spec.Corners mkWcs (heap.obj i1) ⟨2, p1, cd1, e1, g1⟩ f1 l1)
    (hc2 : Spec.Corners mkWcs (heap.obj i2) ⟨2, p2, cd2, e2, g2⟩ f2 l2)
    (hc1' : Spec.Corners mkWcs' (heap.obj i1) ⟨2, p1', cd1, e1, g1⟩ f1' l1')
    (hc2' : Spec.Corners mkWcs' (heap.obj i2) ⟨2, p2', cd2, e2, g2⟩ f2' l2')
    (hr : ∀ c ∈ [f1, l1, f2, l2], |c.1| < 180)
    (hx : ∀ c ∈ [(f1, f1'), (l1, l1'), (f2, f2'), (l2, l2')], Spec.SameDirection c.1.1 c.2.1 ∧ c.1.2 = c.2.2) :
    headerOverlap mkWcs' heap i1 i2 180 overlap = headerOverlap mkWcs heap i1 i2 180 overlap := by
  by_cases ho : overlap = "union" ∨ overlap = "intersection"
  · have hk := overlapKeys_eq mkWcs _ _ 180 overlap _ _ f1 l1 f2 l2 hc1 hc2 ho
    have hk' := overlapKeys_eq mkWcs' _ _ 180 overlap _ _ f1' l1' f2' l2' hc1' hc2' ho
    have hid : ∀ x : ℝ, |x| < 180 → wrapLon 180 x = x := fun x h => lon_same x x h ⟨0, by norm_num, by simp⟩
    simp only [List.forall_mem_cons, List.not_mem_nil, IsEmpty.forall_iff, implies_true, and_true] at hr hx
    obtain ⟨r1, r2, r3, r4⟩ := hr
    obtain ⟨⟨a1, b1⟩, ⟨a2, b2⟩, ⟨a3, b3⟩, ⟨a4, b4⟩⟩ := hx
    rw [hid _ r1, hid _ r2, hid _ r3, hid _ r4] at hk
    rw [lon_same _ _ r1 a1, lon_same _ _ r2 a2, lon_same _ _ r3 a3, lon_same _ _ r4 a4, ← b1, ← b2, ← b3, ← b4] at hk'
    unfold headerOverlap
    rw [hk, hk', overlapScale_two, overlapScale_two]
  · push Not at ho
    rw [C64_mode mkWcs heap i1 i2 180 overlap _ _ _ _ _ _ hc1 hc2 ho.1 ho.2,
      C64_mode mkWcs' heap i1 i2 180 overlap _ _ _ _ _ _ hc1' hc2' ho.1 ho.2]

/-- C66: an image at longitudes 358, 359 and one at 0, 1, ... meet: the header is the one of the images at -2, -1 and 0, 1. -/
example : Spec.SameDirection (-2) 358 ∧ Spec.SameDirection (-1) 359 ∧ Spec.SameDirection 0 0 :=
  ⟨⟨1, by norm_num, by norm_num⟩, ⟨1, by norm_num, by norm_num⟩, ⟨0, by norm_num, by norm_num⟩⟩

/-- C66: the longitudes in the cards (`Spec.lon` in C65_header): for `max_separation` of at least 180 degrees, a
longitude within a turn of `[-s, s]` is moved into it by whole turns, and not at all if it is inside. -/
theorem C66_wrap (hs : 180 ≤ s) (x : ℝ) (hx : |x| ≤ 360 + s) :
    |Spec.lon s x| ≤ s ∧ (∃ k : ℤ, Spec.lon s x = x + 360 * k) ∧ (|x| ≤ s → Spec.lon s x = x) := by
  rw [spec_lon s (by linarith)]
  rw [abs_le] at hx
  unfold wrapLon
  split_ifs with h1 h2
  · refine ⟨abs_le.mpr ⟨by linarith, by linarith⟩, ⟨-1, by push_cast; ring⟩, fun h => ?_⟩
    have := (abs_le.mp h).2
    linarith
  · refine ⟨abs_le.mpr ⟨by linarith, by linarith⟩, ⟨1, by push_cast; ring⟩, fun h => ?_⟩
    have := (abs_le.mp h).1
    linarith
  · exact ⟨abs_le.mpr ⟨by linarith, by linarith⟩, ⟨0, by simp⟩, fun _ => rfl⟩

/-- C66: with `max_separation` below 180 degrees the wrap can leave the interval: longitudes between `s` and `360 - s`
are moved to below `-s`. -/
theorem C66_small (hs : 0 ≤ s) (x : ℝ) (h1 : s < x) (h2 : x < 360 - s) : Spec.lon s x < -s := by
  rw [spec_lon s hs]
  unfold wrapLon
  rw [if_pos h1]
  linarith

/-! ## C82: an image with itself -/

/-- The linear WCS with these cards. -/
noncomputable def Spec.linear (crval1 crval2 cdelt1 cdelt2 crpix1 crpix2 : ℝ) : ℝ → ℝ → Py (ℝ × ℝ) := fun x y =>
  .ok (crval1 + cdelt1 * (x - crpix1), crval2 + cdelt2 * (y - crpix2))

theorem isLeast_mul (n : ℤ) (d : ℝ) (hd : d ≠ 0) (m : ℤ) (h : IsLeast {k : ℤ | n * |d| ≤ k * |d|} m) : m = n := by
  have hpos : 0 < |d| := abs_pos.mpr hd
  have h1 := h.1
  have h2 := h.2 (show n ∈ {k : ℤ | (n : ℝ) * |d| ≤ k * |d|} from le_refl ((n : ℝ) * |d|))
  have h3 : (n : ℝ) ≤ m := le_of_mul_le_mul_right h1 hpos
  exact le_antisymm h2 (by exact_mod_cast h3)

theorem uIcc_least (a b : ℝ) : IsLeast (Set.uIcc a b) (min a b) ∧ IsGreatest (Set.uIcc a b) (max a b) :=
  ⟨isLeast_Icc min_le_max, isGreatest_Icc min_le_max⟩

/-- an axis of the overlap of an image of `n` pixels with itself -/
theorem axis_self (overlap : String) (ho : overlap = "union" ∨ overlap = "intersection") (a d : ℝ) (n : ℤ) (hn : 1 ≤ n)
    (crval cdelt crpix : ℝ) (naxis : ℤ)
    (h : Spec.AxisOK overlap (Set.uIcc a (a + d * (n - 1))) (Set.uIcc a (a + d * (n - 1))) d d crval cdelt crpix naxis)
    (hd : d ≠ 0) : naxis = n - 1 ∧ cdelt = d ∧ crval = a + d * (n - 1) / 2 := by
  set R := Set.uIcc a (a + d * (n - 1)) with hR
  have hl := uIcc_least a (a + d * (n - 1))
  rw [← hR] at hl
  have hdis : ¬ Disjoint R R := by
    rw [disjoint_self]
    exact Set.Nonempty.ne_empty ⟨_, hl.1.1⟩
  have hmain : ∃ lo hi, IsLeast R lo ∧ IsGreatest R hi ∧ crval = (lo + hi) / 2 ∧ IsLeast {m : ℤ | hi - lo ≤ m * |cdelt|} naxis := by
    rcases ho with ho | ho
    · obtain ⟨lo, hi, h1, h2, h3, h4⟩ := h.union ho
      rw [Set.union_self] at h1 h2
      exact ⟨lo, hi, h1, h2, h3, h4 hdis⟩
    · obtain ⟨lo, hi, h1, h2, h3, h4⟩ := h.inter ho hdis
      rw [Set.inter_self] at h1 h2
      exact ⟨lo, hi, h1, h2, h3, h4⟩
  obtain ⟨lo, hi, h1, h2, h3, h4⟩ := hmain
  have elo : lo = min a (a + d * (n - 1)) := h1.unique hl.1
  have ehi : hi = max a (a + d * (n - 1)) := h2.unique hl.2
  have hsc := h.scale
  rw [min_self] at hsc
  have hnn : (0 : ℝ) ≤ (n : ℝ) - 1 := by
    have : (1 : ℝ) ≤ n := by exact_mod_cast hn
    linarith
  refine ⟨?_, ?_, ?_⟩
  · have hext : hi - lo = ((n - 1 : ℤ) : ℝ) * |d| := by
      rw [ehi, elo, max_sub_min_eq_abs']
      push_cast
      rw [show a - (a + d * (n - 1)) = -(((n : ℝ) - 1) * d) by ring, abs_neg, abs_mul, abs_of_nonneg hnn]
    rw [hext, hsc] at h4
    exact isLeast_mul _ d hd _ h4
  · have hsg := h.sign
    rcases abs_eq_abs.mp hsc with h' | h'
    · exact h'
    · rw [h'] at hsg
      nlinarith [sq_nonneg d]
  · rw [h3, elo, ehi, min_add_max]
    ring

/-- C82: the overlap, in either mode, of an image with itself (linear WCS, longitudes within `max_separation`): same scales,
the same centre, but one pixel less on each axis than the image has. -/
theorem C82_self (crval1 crval2 d1 d2 crpix1 crpix2 : ℝ) (n1 n2 : ℤ) (hn1 : 1 ≤ n1) (hn2 : 1 ≤ n2) (hd1 : d1 ≠ 0)
    (hd2 : d2 ≠ 0) (hs : 0 ≤ s) (ho : overlap = "union" ∨ overlap = "intersection")
    (hN1 : (heap.obj i1).getitem "NAXIS1" = .ok (.int n1)) (hN2 : (heap.obj i1).getitem "NAXIS2" = .ok (.int n2))
    (hw : mkWcs (heap.obj i1)
      = .ok ⟨2, Spec.linear crval1 crval2 d1 d2 crpix1 crpix2, Option.none, ![d1, d2], ![d1, d2]⟩)
    (hx : |crval1 + d1 * (1 - crpix1)| ≤ s) (hx' : |crval1 + d1 * (n1 - crpix1)| ≤ s) :
    ∃ new, headerOverlap mkWcs heap i1 i1 s overlap = (.ok heap.length, heap ++ [new]) ∧
      new.getitem "NAXIS1" = .ok (.int (n1 - 1)) ∧ new.getitem "NAXIS2" = .ok (.int (n2 - 1)) ∧
      new.getitem "CDELT1" = .ok (.num d1) ∧ new.getitem "CDELT2" = .ok (.num d2) ∧
      new.getitem "CRVAL1" = .ok (.num (crval1 + d1 * ((n1 + 1) / 2 - crpix1))) ∧
      new.getitem "CRVAL2" = .ok (.num (crval2 + d2 * ((n2 + 1) / 2 - crpix2))) := by
  have hc : Spec.Corners mkWcs (heap.obj i1)
      ⟨2, Spec.linear crval1 crval2 d1 d2 crpix1 crpix2, Option.none, ![d1, d2], ![d1, d2]⟩
      (crval1 + d1 * (1 - crpix1), crval2 + d2 * (1 - crpix2)) (crval1 + d1 * (n1 - crpix1), crval2 + d2 * (n2 - crpix2)) :=
    ⟨hw, rfl, n1, n2, hN1, hN2, rfl⟩
  have hsc : ∀ i, Spec.scale Option.none Option.none ![d1, d2] i ≠ 0 := by
    intro i
    fin_cases i <;> simp [Spec.scale, hd1, hd2]
  obtain ⟨new, v1, v2, c1, c2, p1, p2, m1, m2, h0, hv1, hv2, hcd1, hcd2, -, -, hm1, hm2, hA1, hA2, -, -⟩ :=
    C65_header mkWcs heap i1 i1 s overlap _ _ _ _ _ _ _ _ _ _ _ _ hc hc hsc hsc hs ho
  have hlon : ∀ x : ℝ, |x| ≤ s → Spec.lon s x = x := fun x h => by unfold Spec.lon; rw [if_pos h]
  simp only [Spec.scale, Matrix.cons_val_zero, Matrix.cons_val_one, hlon _ hx, hlon _ hx'] at hA1 hA2
  rw [show crval1 + d1 * (n1 - crpix1) = (crval1 + d1 * (1 - crpix1)) + d1 * (n1 - 1) by ring] at hA1
  rw [show crval2 + d2 * (n2 - crpix2) = (crval2 + d2 * (1 - crpix2)) + d2 * (n2 - 1) by ring] at hA2
  obtain ⟨r1, r2, r3⟩ := axis_self overlap ho _ d1 n1 hn1 _ _ _ _ hA1 hd1
  obtain ⟨q1, q2, q3⟩ := axis_self overlap ho _ d2 n2 hn2 _ _ _ _ hA2 hd2
  refine ⟨new, h0, by rw [hm1, r1], by rw [hm2, q1], by rw [hcd1, r2], by rw [hcd2, q2], ?_, ?_⟩
  · rw [hv1, r3]; congr 2; ring
  · rw [hv2, q3]; congr 2; ring

/-! ## C83: where the images fall in the new header -/

theorem axis_pixels (overlap : String) (R1 R2 : Set ℝ) (d1 d2 crval cdelt crpix : ℝ) (naxis : ℤ)
    (h : Spec.AxisOK overlap R1 R2 d1 d2 crval cdelt crpix naxis) (ho : overlap = "union") (ht : ¬ Disjoint R1 R2)
    (x : ℝ) (hx : x ∈ R1 ∪ R2) :
    0 ≤ crpix + (x - crval) / cdelt ∧ crpix + (x - crval) / cdelt ≤ naxis := by
  obtain ⟨lo, hi, h1, h2, h3, h4⟩ := h.union ho
  have hne : cdelt ≠ 0 := by
    intro h0
    have := h.sign
    rw [h0, zero_mul] at this
    exact lt_irrefl _ this
  have hle := (h4 ht).1
  have hlo := h1.2 hx
  have hhi := h2.2 hx
  have habs : |(x - crval) / cdelt| ≤ naxis / 2 := by
    rw [abs_div, div_le_iff₀ (abs_pos.mpr hne), h3, abs_le]
    have : hi - lo ≤ naxis * |cdelt| := hle
    constructor <;> linarith
  rw [abs_le] at habs
  rw [h.crpix]
  constructor <;> linarith [habs.1, habs.2]

/-- C83: with the linear WCS of the new header, every point of either image (between its first and last pixel centres) has
pixel coordinates between 0 and NAXIS. (Pixel `k` extends from `k - 1/2` to `k + 1/2`, so the first half pixel can be lost.) -/
theorem C83_union_covers (p1 p2 : ℝ → ℝ → Py (ℝ × ℝ)) (cd1 cd2 : Option (Fin 2 → Fin 2 → ℝ)) (e1 e2 g1 g2 : Fin 2 → ℝ)
    (f1 l1 f2 l2 : ℝ × ℝ) (hc1 : Spec.Corners mkWcs (heap.obj i1) ⟨2, p1, cd1, e1, g1⟩ f1 l1)
    (hc2 : Spec.Corners mkWcs (heap.obj i2) ⟨2, p2, cd2, e2, g2⟩ f2 l2)
    (hd1 : ∀ i, Spec.scale cd1 cd2 e1 i ≠ 0) (hd2 : ∀ i, Spec.scale cd2 cd1 e2 i ≠ 0) (hs : 0 ≤ s)
    (ht1 : ¬ Disjoint (Set.uIcc (Spec.lon s f1.1) (Spec.lon s l1.1)) (Set.uIcc (Spec.lon s f2.1) (Spec.lon s l2.1)))
    (ht2 : ¬ Disjoint (Set.uIcc f1.2 l1.2) (Set.uIcc f2.2 l2.2)) :
    ∃ (new : Header) (crval1 crval2 cdelt1 cdelt2 crpix1 crpix2 : ℝ) (naxis1 naxis2 : ℤ),
      headerOverlap mkWcs heap i1 i2 s "union" = (.ok heap.length, heap ++ [new]) ∧
      new.getitem "CRVAL1" = .ok (.num crval1) ∧ new.getitem "CRVAL2" = .ok (.num crval2) ∧
      new.getitem "CDELT1" = .ok (.num cdelt1) ∧ new.getitem "CDELT2" = .ok (.num cdelt2) ∧
      new.getitem "CRPIX1" = .ok (.num crpix1) ∧ new.getitem "CRPIX2" = .ok (.num crpix2) ∧
      new.getitem "NAXIS1" = .ok (.int naxis1) ∧ new.getitem "NAXIS2" = .ok (.int naxis2) ∧
      (∀ x ∈ Set.uIcc (Spec.lon s f1.1) (Spec.lon s l1.1) ∪ Set.uIcc (Spec.lon s f2.1) (Spec.lon s l2.1),
        ∃ p : ℝ, 0 ≤ p ∧ p ≤ naxis1 ∧ crval1 + cdelt1 * (p - crpix1) = x) ∧
      (∀ y ∈ Set.uIcc f1.2 l1.2 ∪ Set.uIcc f2.2 l2.2, ∃ p : ℝ, 0 ≤ p ∧ p ≤ naxis2 ∧ crval2 + cdelt2 * (p - crpix2) = y) := by
  obtain ⟨new, v1, v2, c1, c2, q1, q2, m1, m2, h0, hv1, hv2, hcd1, hcd2, hq1, hq2, hm1, hm2, hA1, hA2, -, -⟩ :=
    C65_header mkWcs heap i1 i2 s "union" _ _ _ _ _ _ _ _ _ _ _ _ hc1 hc2 hd1 hd2 hs (Or.inl rfl)
  have hne : ∀ {R1 R2 : Set ℝ} {a b c d e : ℝ} {n : ℤ}, Spec.AxisOK "union" R1 R2 a b c d e n → d ≠ 0 := by
    intro R1 R2 a b c d e n h h0
    have := h.sign
    rw [h0, zero_mul] at this
    exact lt_irrefl _ this
  refine ⟨new, v1, v2, c1, c2, q1, q2, m1, m2, h0, hv1, hv2, hcd1, hcd2, hq1, hq2, hm1, hm2, ?_, ?_⟩
  · intro x hx
    obtain ⟨a, b⟩ := axis_pixels "union" _ _ _ _ _ _ _ _ hA1 rfl ht1 x hx
    refine ⟨_, a, b, ?_⟩
    have := hne hA1
    field_simp
    ring
  · intro x hx
    obtain ⟨a, b⟩ := axis_pixels "union" _ _ _ _ _ _ _ _ hA2 rfl ht2 x hx
    refine ⟨_, a, b, ?_⟩
    have := hne hA2
    field_simp
    ring

/-! ## C67: `get_cd` -/

/-- C67: `get_cd(wcs, n)` for `1 ≤ n ≤ naxis`. -/
theorem C67_get_cd (w : Wcs) (i : Fin w.naxis) :
    (∀ c, w.cd = some c → c i i ≠ 0 → getCd w (i + 1 : ℕ) = .ok (some (c i i))) ∧
    (∀ c, w.cd = some c → c i i = 0 → getCd w (i + 1 : ℕ) = .ok Option.none) ∧
    (w.cd = Option.none → getCd w (i + 1 : ℕ) = .ok (some (w.getCdelt i))) := by
  have hi := i.2
  have e1 : Np.normAxis w.naxis ((((i : ℕ) + 1 : ℕ) : ℤ) - 1) = some i := by
    rw [show ((((i : ℕ) + 1 : ℕ) : ℤ) - 1) = ((i : ℕ) : ℤ) by push_cast; ring]
    unfold Np.normAxis
    rw [dif_pos ⟨by omega, by omega⟩]
    rfl
  unfold getCd
  rw [e1]
  refine ⟨?_, ?_, ?_⟩
  · intro c hc h; simp only [hc, if_pos h]
  · intro c hc h; simp only [hc, h, ne_eq, not_true, if_false]
  · intro hc; simp only [hc]

/-- C67: an axis that does not exist is an IndexError; `n = 0` (and negative numbers) count from the last axis. -/
theorem C67_index (w : Wcs) (n : ℤ) :
    (w.naxis < n ∨ n ≤ -w.naxis → getCd w n = .error .indexError) ∧
    (-(w.naxis : ℤ) < n → n ≤ 0 → getCd w n = getCd w (n + w.naxis)) := by
  unfold getCd Np.normAxis
  constructor
  · intro h
    rw [dif_neg (by omega), dif_neg (by omega)]
  · intro h1 h2
    rw [dif_neg (by omega), dif_pos (by omega), dif_pos (by omega)]
    simp only [show n - 1 + (w.naxis : ℤ) = n + w.naxis - 1 by ring]

/-! ## C68: `load_header`, `load_data` -/

/-- C68: `load_header` takes the first of these that applies: the mapping, the `header` attribute, the FITS file, the text
file, the string; it goes past a reader only when that reader raises IOError (OSError). -/
theorem C68_load_header {H α : Type} (io : FitsReader H α) (a : FitsArg H α) :
    (∀ h, a.mapping = some h → loadHeader io a = .ok h) ∧
    (∀ h, a.mapping = Option.none → a.header = some h → loadHeader io a = .ok h) ∧
    (a.mapping = Option.none → a.header = Option.none →
      (io.getheader ≠ .error .ioError → loadHeader io a = io.getheader) ∧
      (io.getheader = .error .ioError → io.fromtextfile ≠ .error .ioError → loadHeader io a = io.fromtextfile) ∧
      (io.getheader = .error .ioError → io.fromtextfile = .error .ioError → loadHeader io a = io.fromstring)) := by
  unfold loadHeader
  refine ⟨?_, ?_, ?_⟩
  · intro h hm; simp only [hm]
  · intro h hm hh; simp only [hm, hh]
  · intro hm hh
    simp only [hm, hh]
    refine ⟨?_, ?_, ?_⟩
    · intro h
      split
      · rename_i e; exact absurd e h
      · rfl
    · intro h1 h2
      simp only [h1]
    · intro h1 h2; simp only [h1, h2]

/-- C68: `load_data`: arrays as they are; then the FITS reader; when that raises IOError (and only then), the `data` attribute
if it is an array, the first HDU of an HDUList (with a warning), or None. -/
theorem C68_load_data {H α : Type} (io : FitsReader H α) (a : FitsArg H α) :
    (∀ x, a.array = some x → loadData io a = (.ok (some x), false)) ∧
    (a.array = Option.none →
      (∀ x, io.getdata = .ok x → loadData io a = (.ok (some x), false)) ∧
      (∀ e, io.getdata = .error e → e ≠ .ioError → loadData io a = (.error e, false)) ∧
      (io.getdata = .error .ioError →
        (∀ x, a.data = some (some x) → loadData io a = (.ok (some x), false)) ∧
        ((∀ x, a.data ≠ some (some x)) →
          (∀ x xs, a.hduList = some (x :: xs) → loadData io a = (.ok x, true)) ∧
          (a.hduList = some [] → loadData io a = (.error .indexError, true)) ∧
          (a.hduList = Option.none → loadData io a = (.ok Option.none, false))))) := by
  unfold loadData
  refine ⟨fun x h => by simp only [h], fun h0 => ⟨fun x h => by simp only [h0, h], ?_, fun h => ⟨fun x hx => by simp only [h0, h, hx], ?_⟩⟩⟩
  · intro e h he
    simp only [h0, h]
  · intro hx
    simp only [h0, h]
    refine ⟨fun x xs hl => ?_, fun hl => ?_, fun hl => ?_⟩ <;> simp only [hl]

/-! ## C86: `fits_overlap` -/

/-- C86: `fits_overlap` of two files is `header_overlap` of the headers read from them; headers that existed are kept. -/
theorem C86_fits_overlap {F : Type} (getheader : F → Py Header) (file1 file2 : F) (h1 h2 : Header)
    (g1 : getheader file1 = .ok h1) (g2 : getheader file2 = .ok h2) :
    (∀ e, headerOverlap mkWcs [h1, h2] 0 1 s overlap = (.error e, [h1, h2]) →
      fitsOverlap getheader mkWcs heap file1 file2 s overlap = (.error e, heap ++ [h1, h2])) ∧
    ∀ new, headerOverlap mkWcs [h1, h2] 0 1 s overlap = (.ok 2, [h1, h2, new]) →
      fitsOverlap getheader mkWcs heap file1 file2 s overlap = (.ok (heap.length + 2), heap ++ [h1, h2] ++ [new]) := by
  have o1 : (heap ++ [h1, h2]).obj heap.length = h1 := by simp [Heap.obj]
  have o2 : (heap ++ [h1, h2]).obj (heap.length + 1) = h2 := by simp [Heap.obj]
  have q1 : Heap.obj [h1, h2] 0 = h1 := rfl
  have q2 : Heap.obj [h1, h2] 1 = h2 := rfl
  unfold fitsOverlap
  simp only [g1, g2]
  unfold headerOverlap
  rw [o1, o2, q1, q2]
  cases overlapKeys mkWcs h1 h2 s overlap with
  | error e =>
    refine ⟨fun e' h => ?_, fun new h => ?_⟩
    · simp only [Prod.mk.injEq, Except.error.injEq, and_true] at h
      rw [h]
    · simp at h
  | ok k =>
    refine ⟨fun e' h => ?_, fun new h => ?_⟩
    · simp at h
    · simp only [writeKeys_last, Prod.mk.injEq] at h ⊢
      obtain ⟨-, h⟩ := h
      refine ⟨by simp, ?_⟩
      have : newCards h1 k = new := by simpa using h
      rw [this]

/-- C86: a file that cannot be read is the reader's error. -/
theorem C86_errors {F : Type} (getheader : F → Py Header) (file1 file2 : F) (e : PyErr) :
    (getheader file1 = .error e → fitsOverlap getheader mkWcs heap file1 file2 s overlap = (.error e, heap)) ∧
    (∀ h1, getheader file1 = .ok h1 → getheader file2 = .error e →
      (fitsOverlap getheader mkWcs heap file1 file2 s overlap).1 = .error e) := by
  unfold fitsOverlap
  refine ⟨fun h => by simp only [h], fun h1 h h' => by simp only [h, h']⟩

/-! ## A concrete case -/

/-- a header of 3 × 2 pixels of 1 degree, starting at longitude `lon` -/
noncomputable def Spec.demoHeader (lon : ℝ) : Header :=
  [("SIMPLE", .str "T"), ("NAXIS1", .int 3), ("NAXIS2", .int 2), ("CRVAL1", .num lon), ("CD1_1", .num 1), ("OBJECT", .str "M31")]

/-- a linear WCS that reads CRVAL1 -/
noncomputable def Spec.demoWcs (h : Header) : Py Wcs :=
  match h.getitem "CRVAL1" with
  | .ok (.num v) => .ok ⟨2, Spec.linear v 0 1 1 1 1, some fun i j => if i = j then 1 else 0, ![1, 1], ![1, 1]⟩
  | _ => .error .keyError

/-- The hypotheses of C65_header and C83_union_covers hold of images at longitudes 356..358 and 357..359 ... -/
example : Spec.Corners Spec.demoWcs (Spec.demoHeader 356)
      ⟨2, Spec.linear 356 0 1 1 1 1, some fun i j => if i = j then 1 else 0, ![1, 1], ![1, 1]⟩ (356, 0) (358, 1) ∧
    Spec.Corners Spec.demoWcs (Spec.demoHeader 357)
      ⟨2, Spec.linear 357 0 1 1 1 1, some fun i j => if i = j then 1 else 0, ![1, 1], ![1, 1]⟩ (357, 0) (359, 1) ∧
    (∀ i, Spec.scale (some fun i j => if i = j then 1 else 0) (some fun i j => if i = j then 1 else 0) ![1, 1] i ≠ 0) := by
  refine ⟨⟨rfl, ?_, 3, 2, rfl, rfl, ?_⟩, ⟨rfl, ?_, 3, 2, rfl, rfl, ?_⟩, ?_⟩
  · simp [Spec.linear]
  · simp [Spec.linear]; norm_num
  · simp [Spec.linear]
  · simp [Spec.linear]; norm_num
  · intro i; simp [Spec.scale]

/-- ... and so do those of C64_box: the images have the longitude -3 and the latitude 0 in common ... -/
example : ¬ Disjoint (Set.uIcc (Spec.lon 180 356) (Spec.lon 180 358)) (Set.uIcc (Spec.lon 180 357) (Spec.lon 180 359)) ∧
    ¬ Disjoint (Set.uIcc (0 : ℝ) 1) (Set.uIcc (0 : ℝ) 1) := by
  have l : ∀ x : ℝ, 180 < x → Spec.lon 180 x = x - 360 := by
    intro x hx
    unfold Spec.lon
    rw [if_neg (by rw [abs_of_pos (by linarith)]; linarith), Real.sign_of_pos (by linarith), mul_one]
  rw [l _ (by norm_num), l _ (by norm_num), l _ (by norm_num), l _ (by norm_num), Set.not_disjoint_iff, Set.not_disjoint_iff]
  refine ⟨⟨-3, ?_, ?_⟩, 0, ?_, ?_⟩ <;> rw [Set.mem_uIcc] <;> left <;> norm_num

/-- ... whose union starts at -4 degrees, has 3 pixels, and keeps OBJECT. -/
example : ∃ new, headerOverlap Spec.demoWcs [Spec.demoHeader 356, Spec.demoHeader 357] 0 1 180 "union"
      = (.ok 2, [Spec.demoHeader 356, Spec.demoHeader 357, new]) ∧
    new.getitem "CRVAL1" = .ok (.num (-(5 / 2))) ∧ new.getitem "NAXIS1" = .ok (.int 3) ∧
    new.getitem "OBJECT" = .ok (.str "M31") := by
  have h1 : Spec.Corners Spec.demoWcs (Heap.obj [Spec.demoHeader 356, Spec.demoHeader 357] 0)
      ⟨2, Spec.linear 356 0 1 1 1 1, some fun i j => if i = j then 1 else 0, ![1, 1], ![1, 1]⟩ (356, 0) (358, 1) := by
    refine ⟨rfl, by simp [Spec.linear], 3, 2, rfl, rfl, by simp [Spec.linear]; norm_num⟩
  have h2 : Spec.Corners Spec.demoWcs (Heap.obj [Spec.demoHeader 356, Spec.demoHeader 357] 1)
      ⟨2, Spec.linear 357 0 1 1 1 1, some fun i j => if i = j then 1 else 0, ![1, 1], ![1, 1]⟩ (357, 0) (359, 1) := by
    refine ⟨rfl, by simp [Spec.linear], 3, 2, rfl, rfl, by simp [Spec.linear]; norm_num⟩
  have hk := overlapKeys_eq Spec.demoWcs _ _ 180 "union" _ _ _ _ _ _ h1 h2 (Or.inl rfl)
  rw [overlapScale_two] at hk
  have w1 : wrapLon 180 356 = -4 := by unfold wrapLon; norm_num
  have w2 : wrapLon 180 357 = -3 := by unfold wrapLon; norm_num
  have w3 : wrapLon 180 358 = -2 := by unfold wrapLon; norm_num
  have w4 : wrapLon 180 359 = -1 := by unfold wrapLon; norm_num
  have fs : finerScale 1 1 = 1 := by unfold finerScale; rw [Real.sign_of_pos one_pos]; simp
  simp only [bind, Except.bind, Spec.scale, if_true, w1, w2, w3, w4, fs, axisN, axisLo, axisHi, axisLength] at hk
  norm_num at hk
  unfold headerOverlap
  rw [hk]
  refine ⟨newCards (Spec.demoHeader 356) _, by
    have := writeKeys_last [Spec.demoHeader 356, Spec.demoHeader 357] (Spec.demoHeader 356)
    exact congrArg (Prod.mk _) (this _), ?_, ?_, ?_⟩
  · rw [newCards_getitem]; rfl
  · rw [newCards_getitem]; rfl
  · rw [newCards_getitem]; rfl

/-- C65_zero_scale: an image of 3 × 2 pixels whose axes are swapped on the sky (CD matrix 0 on the diagonal), overlapped with itself. -/
example : headerOverlap
      (fun _ => .ok ⟨2, fun x y => .ok (20 + y, x), some fun i j => if i = j then 0 else 1, ![1, 1], ![1, 1]⟩)
      [Spec.demoHeader 20] 0 0 180 "intersection" = (.error .overflowError, [Spec.demoHeader 20]) := by
  have hc : Spec.Corners
      (fun _ => .ok ⟨2, fun x y => .ok (20 + y, x), some fun i j => if i = j then 0 else 1, ![1, 1], ![1, 1]⟩)
      (Heap.obj [Spec.demoHeader 20] 0)
      ⟨2, fun x y => .ok (20 + y, x), some fun i j => if i = j then 0 else 1, ![1, 1], ![1, 1]⟩ (21, 1) (22, 3) :=
    ⟨rfl, by simp; norm_num, 3, 2, rfl, rfl, by simp; norm_num⟩
  have l1 : Spec.lon 180 21 = 21 := by unfold Spec.lon; rw [if_pos (by rw [abs_le]; norm_num)]
  have l2 : Spec.lon 180 22 = 22 := by unfold Spec.lon; rw [if_pos (by rw [abs_le]; norm_num)]
  have h := C65_zero_scale _ [Spec.demoHeader 20] 0 0 180 "intersection" _ _ _ _ _ _ _ _ _ _ _ _ hc hc (by norm_num)
    (Or.inl (by simp [Spec.scale])) (Set.uIcc 21 22) (Set.uIcc 21 22) (by rw [l1, l2]) (by rw [l1, l2])
    (by rw [disjoint_self]; exact Set.Nonempty.ne_empty ⟨21, Set.left_mem_uIcc⟩) (Or.inr rfl)
  rw [h]
  congr 2
  have hr : Spec.region "intersection" (Set.uIcc (21 : ℝ) 22) (Set.uIcc 21 22) = Set.uIcc 21 22 := by
    unfold Spec.region
    rw [if_neg (by decide : ¬ ("intersection" = "union")), Set.inter_self]
  unfold Spec.zeroScaleError
  rw [hr, if_neg]
  intro hs
  have := hs (Set.left_mem_uIcc : (21 : ℝ) ∈ Set.uIcc 21 22) Set.right_mem_uIcc
  norm_num at this

end ImgReg
