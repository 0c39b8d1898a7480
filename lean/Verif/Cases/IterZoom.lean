import Verif.Cases.Basic
import Verif.Props.IterZoom
import Verif.Props.IterZoomMore

/-! # Concrete cases of the theorems of `Props/IterZoom` -/

namespace ImgReg.Cases
open ImgReg

/-- a call that returns -/
theorem dip_returns (rz rc : Bool) (m l : ℕ) [NeZero m] [NeZero l] :
    ∃ fuel res, iterativeZoom true fuel (realArr dip) 1 (m, l) 2 .min rz rc = some (.ok res) :=
  C40_iterative_zoom_returns true dip ⟨(0, 0), (1, 0), by simp [dip]⟩ 1 one_pos m l 2 one_lt_two .min rz
    rc fun _ => ⟨(1, 0), dip_first, dip_gap⟩

/-- a line with a dip -/
def dip1 : Fin 3 → ℝ := ![10, 0, 10]

theorem dip1_first : Spec.IsFirstExt1 .min dip1 1 := by
  refine ⟨?_, ?_⟩
  · intro i; fin_cases i <;> simp [dip1]
  · intro j hj
    have := hj 1
    fin_cases j
    · norm_num [dip1] at this
    · simp
    · norm_num [dip1] at this

theorem dip1_returns (rz rc : Bool) :
    ∃ fuel res, iterativeZoom1d true fuel (realArr dip1) 1 10 2 .min rz rc = some (.ok res) := by
  refine C40_iterative_zoom_1d_returns true dip1 ⟨0, 1, by simp [dip1]⟩ 1 one_pos 10 (by norm_num) 2
    one_lt_two .min rz rc fun _ => ⟨1, dip1_first, ?_⟩
  intro i hi
  fin_cases i
  · norm_num [dip1]
  · simp at hi
  · norm_num [dip1]

/-- `C39_iterative_zoom` -/
example : ∃ fuel res, iterativeZoom true fuel (realArr dip) 1 (10, 10) 2 .min true false = some (.ok res) ∧ True := by
  obtain ⟨fuel, res, h⟩ := dip_returns true false 10 10
  have := C39_iterative_zoom true fuel dip 1 10 10 2 .min true false res h
  exact ⟨fuel, res, h, trivial⟩

/-- `C39_offset_of_center`, `C41_iterative_zoom_drift` -/
example : ∃ (fuel : ℕ) (res : IterZoomRes) (cy cx : ℝ),
    iterativeZoom true fuel (realArr dip) 1 (10, 10) 2 .min true true = some (.ok res) ∧ (res = .plain [cy, cx] ∨ ∃ v zf, res = .zoomed v zf [cy, cx]) ∧
    |cy - 1| ≤ 9 / 2 ∧ |cx| ≤ 9 / 2 := by
  obtain ⟨fuel, res, h⟩ := dip_returns true true 10 10
  have := C39_offset_of_center true fuel dip 1 (10, 10) 2 .min res h
  obtain ⟨cy, cx, p, hr, hp, h1, h2⟩ := C41_iterative_zoom_drift true fuel dip 1 10 10 2 one_lt_two .min true res h
  obtain rfl : p = (1, 0) := by
    by_contra hne
    have := hp.1 (1, 0)
    simp [dip, hne] at this
    norm_num at this
  exact ⟨fuel, res, cy, cx, h, hr, by norm_num at h1; linarith, by norm_num at h2; linarith⟩

/-- `C79_iterative_zoom_improves`: odd numbers of samples -/
example : ∃ (fuel : ℕ) (res : IterZoomRes) (cy cx : ℝ),
    iterativeZoom true fuel (realArr dip) 1 (2 * 4 + 1, 2 * 4 + 1) 2 .min true true = some (.ok res) ∧
    (interp2C (fun j => (dip j : ℂ)) cy cx).re ≤ 0 := by
  obtain ⟨fuel, res, h⟩ := dip_returns true true (2 * 4 + 1) (2 * 4 + 1)
  obtain ⟨cy, cx, -, h2⟩ := C79_iterative_zoom_improves true fuel dip 1 4 4 2 .min true res h
  have := h2 (1, 0)
  simp only [dip, if_true] at this
  exact ⟨fuel, res, cy, cx, h, this⟩

/-- `C39_iterative_zoom_1d`, `C41_iterative_zoom_1d_drift` -/
example : ∃ (fuel : ℕ) (res : IterZoomRes) (c : ℝ), iterativeZoom1d true fuel (realArr dip1) 1 10 2 .min true true = some (.ok res) ∧ (res = .plain [c] ∨ ∃ v zf, res = .zoomed v zf [c]) ∧ |c - 1| ≤ 9 / 2 := by
  obtain ⟨fuel, res, h⟩ := dip1_returns true true
  have := C39_iterative_zoom_1d true fuel dip1 1 10 (by norm_num) 2 .min true true res h
  obtain ⟨c, p, hr, hp, h1⟩ := C41_iterative_zoom_1d_drift true fuel dip1 1 10 (by norm_num) 2 one_lt_two .min true res h
  obtain rfl : p = 1 := by
    have := hp.1 1
    revert this
    fin_cases p <;> norm_num [dip1]
  exact ⟨fuel, res, c, h, hr, by norm_num at h1; linarith⟩

/-- `C40_iterative_zoom_terminates` -/
example := C40_iterative_zoom_terminates true picNan 1 one_pos (10, 10) 2 one_lt_two .min true true

/-- `C40_iterative_zoom_1d_terminates` -/
example := C40_iterative_zoom_1d_terminates true (realArr dip1) 1 one_pos 10 2 one_lt_two .max true true

/-- `C42_iterative_zoom_constant`: a NaN pixel -/
example := C42_iterative_zoom_constant true 3 picNan (.inr ⟨(3, 4), rfl⟩) 1 (10, 10) 2 .min true true

/-- `C42_iterative_zoom_1d_constant` -/
example := C42_iterative_zoom_1d_constant true 3 (fun _ : Fin 3 => some 5) (.inl ⟨5, rfl⟩) 1 10 2 .min true true

/-- `C42_iterative_zoom_1d_not_entered`: the tolerance exceeds the depth of the dip -/
example := C42_iterative_zoom_1d_not_entered true 3 dip1 20 .min 1 0 dip1_first.1 (by simp [dip1]) (by norm_num [dip1]) 10 2 true

/-- `C72_centers_to_edges` -/
example := C72_centers_to_edges (n := 3) (by norm_num) (fun i => 4 + ((i : ℕ) : ℝ) * 2) 4 2 (by norm_num) (fun _ => rfl)

/-- `C72_centers_to_edges_short` -/
example := C72_centers_to_edges_short (n := 1) (by norm_num) (fun _ => 4)

end ImgReg.Cases
