import Verif.Props.Chi2Symm
import Verif.Props.Chi2More
import Verif.Props.Mirror
import Verif.Props.Transpose
import Verif.Props.FillExamples
import Verif.Props.RegisterSymm
import Verif.Props.ZoomMore
import Verif.Props.ScaleMore
import Verif.Props.CrossCorrMore
import Verif.Props.IterZoomMore
import Verif.Props.Again
import Verif.Props.Convolve
import Verif.Props.ConvolveMore
import Verif.Props.IterZoomChi2
import Verif.Props.Converge

/-!
# Concrete cases for theorems whose hypotheses are not shown to be satisfiable beside them
-/

open Finset

namespace ImgReg

/-- a single bright pixel in a frame of any size -/
def Example.point (ny nx : ℕ) [NeZero ny] [NeZero nx] (p : Fin ny × Fin nx) : ℝ := if p = 0 then 1 else 0

theorem point_dft (ny nx : ℕ) [NeZero ny] [NeZero nx] (k : Fin ny × Fin nx) :
    dft (fun p => ((Example.point ny nx p : ℝ) : ℂ)) k ≠ 0 := by
  have h1 : dft (fun p => ((Example.point ny nx p : ℝ) : ℂ)) k = 1 := by
    unfold dft Example.point
    rw [Finset.sum_eq_single 0]
    · simp [FFTIndex.e_zero]
    · intro b _ hb; simp [hb]
    · simp
  rw [h1]; exact one_ne_zero

theorem point_identifiable (ny nx : ℕ) [NeZero ny] [NeZero nx] (hy : 2 ≤ ny) (hx : 2 ≤ nx) (usfac : ℕ) :
    Spec.identifiable (Spec.candidates usfac) (Example.point ny nx) :=
  identifiable_of_dft _ _ hy hx (point_dft ny nx _) (point_dft ny nx _) (Or.inl (point_dft ny nx _))

/-! ### C01-C20 -/

/-- C01: a NaN in a 2 × 3 array -/
example (cfg : FFTConfig) (k : ∀ d : Fin 2, Fin ((![2, 3] : Fin 2 → ℕ) d)) :
    (getFfts cfg).1 (fun i : ∀ d : Fin 2, Fin ((![2, 3] : Fin 2 → ℕ) d) => if i = 0 then (none : CPix) else some 1) k = none :=
  C01_nan_spreads cfg _ 0 (by simp) k

/-- C03, C04, C08: 3 × 5 images shifted by (0.3, -1.7) and by (2.5, 4) -/
example (cfg cfg' : FFTConfig) (x : (∀ d : Fin 2, Fin ((![3, 5] : Fin 2 → ℕ) d)) → ℝ) (ra : Bool) :
    (∃ y, shiftnd cfg (rArr x) (List.ofFn ![0.3, -1.7]) 0 ra true = .real (realArr y) ∧
      shiftnd cfg' (rArr y) (List.ofFn ![2.5, 4]) 0 ra true
        = shiftnd cfg (rArr x) (List.ofFn fun d : Fin 2 => (![0.3, -1.7] : Fin 2 → ℝ) d + (![2.5, 4] : Fin 2 → ℝ) d) 0 ra true) ∧
    (∃ y, shiftnd cfg (rArr x) (List.ofFn ![0.3, -1.7]) 0 ra true = .real (realArr y) ∧
      shiftnd cfg' (rArr y) (List.ofFn fun d : Fin 2 => -(![0.3, -1.7] : Fin 2 → ℝ) d) 0 ra true = .real (realArr x)) ∧
    (∃ y, shiftnd cfg (rArr x) [0.3, -1.7] 0 ra true = .real (realArr y) ∧ ∑ i, y i ^ 2 = ∑ i, x i ^ 2) ∧
    ∃ y : (∀ d : Fin 2, Fin ((![3, 5] : Fin 2 → ℕ) d)) → ℝ, shiftnd cfg (rArr x) [0.3, -1.7] 0 false false = .cplx (rArr y) ∧
      shiftnd cfg (rArr x) [0.3, -1.7] 0 false true = .real (realArr y) := by
  have hodd : ∀ d : Fin 2, Odd ((![3, 5] : Fin 2 → ℕ) d) := by
    intro d; fin_cases d
    · exact ⟨1, rfl⟩
    · exact ⟨2, rfl⟩
  exact ⟨C03_compose_real_odd cfg cfg' x hodd _ _ ra, C03_undo_real_odd cfg cfg' x hodd _ ra, C04_energy_real_odd cfg x _ ra hodd,
    C08_odd_real cfg x _ hodd⟩

/-- C10: frequencies -2, 0 and 1 on five pixels -/
example (cfg : FFTConfig) (p q : Fin 3 → ℝ) :
    fourierInterp1d cfg
        (rArr fun j : Fin 5 => ∑ a, (p a * Real.cos (2 * Real.pi * ((![-2, 0, 1] : Fin 3 → ℤ) a * ((j : ℕ) : ℝ) / (5 : ℕ))) +
            q a * Real.sin (2 * Real.pi * ((![-2, 0, 1] : Fin 3 → ℤ) a * ((j : ℕ) : ℝ) / (5 : ℕ)))))
        (Arr.ofVec ![0.5, 7.25]) none true
      = .ok ⟨2, .real (realArr fun i => ∑ a, (p a * Real.cos (2 * Real.pi * ((![-2, 0, 1] : Fin 3 → ℤ) a * (![0.5, 7.25] : Fin 2 → ℝ) i / (5 : ℕ))) +
            q a * Real.sin (2 * Real.pi * ((![-2, 0, 1] : Fin 3 → ℤ) a * (![0.5, 7.25] : Fin 2 → ℝ) i / (5 : ℕ)))))⟩ :=
  C10_bandlimited_real cfg p q ![-2, 0, 1] (by intro a; fin_cases a <;> norm_num) ![0.5, 7.25]

/-- C13, C18, C19: arrays with a NaN, empty requests -/
example (cfg : FFTConfig) (ty : Fin 2 → ℝ) (tx : Fin 4 → ℝ) :
    fourierInterp2d cfg (fun p : Fin 3 × Fin 3 => if p = (1, 2) then (none : CPix) else some 1) (pairInds ty tx) true
      = .ok ⟨2, 4, .real fun _ => none⟩ ∧
    dftups (fun p : Fin 3 × Fin 3 => if p = (1, 2) then (none : CPix) else some 1) (some 7) none 2 0 0
      = .ok ⟨7, 3, fun _ => none⟩ ∧
    zoomOnPixel2 cfg (fun p : Fin 3 × Fin 3 => if p = (1, 2) then (none : CPix) else some 1) [1, 1] 2 (some (0, 4)) true true
      = .error .indexError :=
  ⟨C13_nan_2d cfg _ (1, 2) (by simp) ty tx, C18_dftups_nan _ (1, 2) (by simp) (some 7) none 2 0 0 two_ne_zero,
    C17_empty_output cfg _ _ 2 two_ne_zero 0 4 (Or.inl rfl) true true⟩

/-- C14: nine points, a third of a pixel apart, around pixel 1 of a vector of four -/
example (cfg : FFTConfig) (x : Fin 4 → ℂ) :
    ∃ (xs : Fin 9 → ℝ) (cube : Arr) (r : Out1), zoomOnPixel1 cfg (cArr x) [1] 3 (some 9) true true = .ok (.withX cube r) ∧
      fourierInterp1d cfg (cArr x) (Arr.ofVec xs) none true = .ok r ∧ (∀ i, xs i + xs i.rev = 2 * 1) := by
  obtain ⟨xs, cube, r, _, _, h1, _, h2, _, h3⟩ := C14_zoom_on_pixel_1d cfg x 1 3 three_ne_zero (some 9) 9 rfl (by norm_num) true
  exact ⟨xs, cube, r, h1, h2, h3⟩

/-! ### C28-C38, C77, C120, C139 -/

/-- C28: a 2 × 2 image with a NaN: the mean of 1, 2 and 6 is 3 -/
example (cfg : FFTConfig) (im2 : Fin 2 × Fin 2 → ℝ) (h2 : ∑ i, (im2 i - 5) = 0) :
    chi2nMap cfg (fun p : Fin 2 × Fin 2 => (![![some 1, none], ![some 2, some 6]] : Fin 2 → Fin 2 → Pix) p.1 p.2) (realArr im2) (.scalar 2) true false false false
      = chi2nMap cfg (fun p : Fin 2 × Fin 2 => ((![![some 1, none], ![some 2, some 6]] : Fin 2 → Fin 2 → Pix) p.1 p.2).map (· - 3))
        (fun i => (realArr im2 i).map (· - 5)) (.scalar 2) false false false false := by
  refine C28_is_centering cfg _ _ (.scalar 2) false false false 3 5 ⟨(0, 0), rfl⟩ ⟨(0, 0), rfl⟩ ?_ ?_
  · rw [Fintype.sum_prod_type]
    simp [Fin.sum_univ_two, Spec.nan0]
    norm_num
  · exact h2

/-- C33: a point in a 5 × 7 frame rolled by (-2, 3), every factor 1, 2, 3, 4 -/
example (cfg : FFTConfig) (zm : Bool) :
    ∃ dx' dy' : ℤ,
      chi2Shift cfg none (realArr (Example.point 5 7)) (realArr (Spec.roll2 (-2) 3 (Example.point 5 7))) (.scalar 2) (.int 3) zm 2 false false
        false 512 1.1 false = .ok [.num dx', .num dy'] ∧ dx' = 3 ∧ dy' = -2 := by
  obtain ⟨dx, dy, h, m1, a1, a2, m2, b1, b2⟩ := C33_recovers_roll cfg none trivial (Example.point 5 7) (by norm_num) (by norm_num)
    (point_dft 5 7 _) (point_dft 5 7 _) (-2) 3 (.scalar 2) 2 two_ne_zero rfl 3 (by norm_num) zm 2 512 1.1 false (Or.inr (by norm_num))
    (by unfold Spec.wholeOnGrid; norm_num; try decide) (by unfold Spec.wholeOnGrid; norm_num; try decide)
  refine ⟨dx, dy, h, ?_, ?_⟩
  · clear h; obtain ⟨k, hk⟩ := m1.symm.dvd; push_cast at hk; omega
  · clear h; obtain ⟨k, hk⟩ := m2.symm.dvd; push_cast at hk; omega

/-- C33, sub-pixel: a point in a 5 × 7 frame (odd sizes, so that a Fourier shift by any amount is real); if `(0.5, 0.5)` is on the grid it is reported -/
example (cfg cfg' : FFTConfig) : ∃ (im2 : Fin 5 × Fin 7 → ℝ) (rx ry : ℝ) (s1 s2 : ℕ) (xv yv c : Fin s1 × Fin s2 → ℝ),
    shift2d cfg' (rArr (Example.point 5 7)) 0.5 0.5 0 false false = .cplx (rArr im2) ∧
    chi2Shift cfg none (realArr (Example.point 5 7)) (realArr im2) .none (.int 2) false 2 false false true 512 1.1 false
        = .ok [.num rx, .num ry, .arrays s1 s2 xv yv c] ∧
      ((∃ i, xv i = -0.5 ∧ yv i = -0.5) → rx = 0.5 ∧ ry = 0.5) := by
  have hodd : ∀ d : Fin 2, Odd ((![5, 7] : Fin 2 → ℕ) d) := by
    intro d; fin_cases d
    · exact ⟨2, rfl⟩
    · exact ⟨3, rfl⟩
  obtain ⟨y, h1, h2⟩ := C08_odd_real cfg' (fun i => Example.point 5 7 (pairIdx i)) [0.5, 0.5] hodd
  have h : shift2d cfg' (rArr (Example.point 5 7)) 0.5 0.5 0 false false = .cplx (rArr fun p => y (pairIdx.symm p)) := by
    have h3 := C06_shift2d_eq_shiftnd cfg' (rArr (Example.point 5 7)) 0.5 0.5 0 false false
    have h4 : (shift2d cfg' (rArr (Example.point 5 7)) 0.5 0.5 0 false false).comp pairIdx = .cplx (rArr y) := by
      rw [← h3]; exact h1
    generalize shift2d cfg' (rArr (Example.point 5 7)) 0.5 0.5 0 false false = S at h4 ⊢
    cases S with
    | real a => simp [NdOut.comp] at h4
    | cplx a =>
      simp only [NdOut.comp, NdOut.cplx.injEq] at h4
      congr 1
      funext p
      have := congrFun h4 (pairIdx.symm p)
      simp only [Equiv.apply_symm_apply] at this
      exact this
  obtain ⟨rx, ry, s1, s2, xv, yv, c, g1, g2⟩ := C33_recovers_subpixel cfg cfg' none trivial (Example.point 5 7) _ (by norm_num) (by norm_num)
    (point_dft 5 7 _) (point_dft 5 7 _) 0.5 0.5 h .none 1 one_ne_zero rfl 2 (by norm_num) false 2 512 1.1 false (Or.inr (by norm_num))
  exact ⟨_, rx, ry, s1, s2, xv, yv, c, h, g1, g2⟩

/-- C37: the built-in thresholds of 1 and 2 sigma -/
example (c : Fin 4 × Fin 5 → ℝ) : ∃ er er', chi2mapToErrors none c 3 1 2 = .ok er ∧ chi2mapToErrors none c 3 2 2 = .ok er' ∧
    er.xLow ≤ er'.xLow ∧ er.xHigh ≤ er'.xHigh ∧ er.yLow ≤ er'.yLow ∧ er.yHigh ≤ er'.yHigh := by
  refine C37_monotone none none c 3 1 2 2 2 (by norm_num) ?_ ?_
  · simp [sigmaToChi2]
    norm_num
  · simp only [sigmaToChi2, Real.one_rpow]
    have : (1 : ℝ) ≤ 2 ^ (1.80468278 : ℝ) := Real.one_le_rpow (by norm_num) (by norm_num)
    nlinarith

/-- C120, C139: a map with a unique minimum -/
example (zf : ℝ) := C120_chi2map_to_errors none (fun p : Fin 3 × Fin 4 => if p = (1, 2) then 0 else ((p.1 : ℕ) : ℝ) + 1) zf 1 2 (1, 2)
  (fun j hj => by simp only [hj, if_true, if_false]; positivity)

example (zf : ℝ) := C139_chi2map_to_errors none true false (fun p : Fin 3 × Fin 4 => if p = (1, 2) then 0 else ((p.1 : ℕ) : ℝ) + 1) zf 1 2 (1, 2)
  (fun j hj => by simp only [hj, if_true, if_false]; positivity)

/-- C120: two rows, five columns, factor 3 -/
example (cfg : FFTConfig) (im1 im2 : Fin 2 × Fin 5 → Pix) := C120_rows_decide cfg none trivial im1 im2 (.scalar 2) 3 (by norm_num) (by norm_num)
  true 2 512 1.1 false (Or.inr (by norm_num))

/-! ### C44-C53 -/

/-- C44, C47, C49: the point in a 6 × 7 frame rolled by (2, -3), half-pixel search within 6 half pixels -/
example (cfg : FFTConfig) :
    registerImages cfg (realArr (Example.point 6 7)) (realArr (Spec.roll2 2 (-3) (Example.point 6 7))) 10 false false false (some 7)
      = .ok [.num ((-3 : ℤ) : ℝ), .num ((2 : ℤ) : ℝ)] := by
  refine C47_keeps_true_shift cfg _ 2 (-3) 10 (by norm_num) (Or.inr ⟨by norm_num, by norm_num⟩) false ?_ ⟨by norm_num, by norm_num⟩
    ⟨by norm_num, by norm_num⟩ 7 ?_ ?_
  · simpa using point_identifiable 6 7 (by norm_num) (by norm_num) 10
  · simp [Spec.density]
  · simp [Spec.density]

example (cfg : FFTConfig) := C49_half_image_roll cfg (Example.point 6 7) 2 (-3) 10 (by norm_num) (Or.inr ⟨by norm_num, by norm_num⟩) false
  (by simpa using point_identifiable 6 7 (by norm_num) (by norm_num) 10) ⟨by norm_num, by norm_num⟩ ⟨by norm_num, by norm_num⟩

/-- C119: images in other units, with other backgrounds -/
example (cfg : FFTConfig) (im1 im2 : Fin 4 × Fin 5 → Pix) := C119_brightness_registered cfg im1 im2 10 (by norm_num) true (some 3) 2 (-3) 100 7
  two_ne_zero (by norm_num) (Or.inl rfl)

/-- a 3 × 3 table of correlations with its peak in the middle -/
def Example.peakMap : Fin 3 → Fin 3 → ℝ := ![![0, 1, 0], ![2, 9, 4], ![0, 3, 4]]

/-- the image whose correlation with a point is that table -/
noncomputable def Example.peakImage (p : Fin 3 × Fin 3) : ℝ := Example.peakMap (1 - p.1) (1 - p.2)

theorem Example.peak_xcorr (i : Fin 3 × Fin 3) :
    Spec.xcorr (Example.point 3 3) Example.peakImage i = Example.peakMap i.1 i.2 := by
  unfold Spec.xcorr Example.point
  rw [Finset.sum_eq_single 0]
  · rw [if_pos rfl, one_mul]
    unfold Example.peakImage
    obtain ⟨a, b⟩ := i
    have : ∀ a : Fin 3, Spec.wrap 3 (((Spec.zeroLag 3 : ℕ) : ℤ) - ((a : ℕ) : ℤ)) = 1 - a := by decide
    have h1 : (1 : Fin 3) - (1 - a) = a := by revert a; decide
    have h2 : (1 : Fin 3) - (1 - b) = b := by revert b; decide
    have h3 : Spec.move (((Spec.zeroLag 3 : ℕ) : ℤ) - ((a : ℕ) : ℤ)) (((Spec.zeroLag 3 : ℕ) : ℤ) - ((b : ℕ) : ℤ)) (0 : Fin 3 × Fin 3) = (1 - a, 1 - b) := by
      revert a b; decide
    rw [h3, h1, h2]
  · intro b _ hb; rw [if_neg hb, zero_mul]
  · simp

/-- C51: the reported shift for that map, from the slopes 1, 1, the curvatures -12, -14 and the mixed derivative 1 -/
example (cfg : FFTConfig) :
    crossCorrelationShifts cfg none (realArr (Example.point 3 3)) (realArr Example.peakImage) none none none false false false false
      = .ok [.fin (1 / 2 - 11 / 167), .fin (1 / 2 - 13 / 167)] := by
  have hx : Spec.xcorr (prep false (realArr (Example.point 3 3))) (prep false (realArr Example.peakImage)) = fun i => Example.peakMap i.1 i.2 := by
    rw [prep_real, prep_real]; simp only [Bool.false_eq_true, if_false, sub_zero]; exact funext Example.peak_xcorr
  have hc : Spec.ccMap (prep false (realArr (Example.point 3 3))) (prep false (realArr Example.peakImage)) = fun i => Example.peakMap i.1 i.2 / 9 := by
    funext i; unfold Spec.ccMap; rw [hx]; norm_num
  have hmax : ∀ j : Fin 3 × Fin 3, j ≠ (1, 1) → Example.peakMap j.1 j.2 < Example.peakMap 1 1 := by
    rintro ⟨a, b⟩ h
    fin_cases a <;> fin_cases b <;> first | exact absurd rfl h | (simp [Example.peakMap]; try norm_num)
  have hq : Spec.localFit (fun i : Fin 3 × Fin 3 => Example.peakMap i.1 i.2 / 9) (1, 1) = ⟨-12 / 9, -14 / 9, 1 / 9, 1 / 9, 1 / 9⟩ := by
    have E : ∀ (a b : Fin 3) (y x : ℤ), y = ((a : ℕ) : ℤ) → x = ((b : ℕ) : ℤ) →
        Spec.ext0 (fun i : Fin 3 × Fin 3 => Example.peakMap i.1 i.2 / 9) y x = Example.peakMap a b / 9 := by
      rintro a b _ _ rfl rfl; exact ext0_in _ (a, b)
    generalize (fun i : Fin 3 × Fin 3 => Example.peakMap i.1 i.2 / 9) = C at E ⊢
    have e00 := E 0 0 0 0 rfl rfl
    have e01 := E 0 1 0 1 rfl rfl
    have e02 := E 0 2 0 2 rfl rfl
    have e10 := E 1 0 1 0 rfl rfl
    have e11 := E 1 1 1 1 rfl rfl
    have e12 := E 1 2 1 2 rfl rfl
    have e20 := E 2 0 2 0 rfl rfl
    have e21 := E 2 1 2 1 rfl rfl
    have e22 := E 2 2 2 2 rfl rfl
    simp only [Example.peakMap, Matrix.cons_val] at e00 e01 e02 e10 e11 e12 e20 e21 e22
    norm_num [Spec.localFit, Spec.curvX, Spec.curvY, Spec.mixed, Spec.slopeX, Spec.slopeY, e00, e01, e02, e10, e11, e12, e20, e21, e22]
  have h1 := Np.argmax_spec (fun i : Fin 3 × Fin 3 => Example.peakMap i.1 i.2)
  rw [Np.argmax_eq_of_unique hmax] at h1
  rw [C51_formula cfg none _ _ none none false false (Or.inr (by norm_num)) (1, 1) (by rw [hx]; exact h1)
    (by rw [hx]; norm_num [Example.peakMap]) (by decide) (by decide) _ rfl, hc, hq]
  norm_num [Spec.ccRef, Spec.zeroLag]

/-! ### C61-C63, C72, C74 -/

/-- C63: NaN and 4 only, kernel (1/4, 1/2, 1/4) -/
example (cfg : FFTConfig) := C63_constant (s := fun _ : Fin 1 => 4) (t := fun _ : Fin 1 => 3) cfg
  { boundary := .wrap, interpolateNan := true } .wrap ⟨rfl, fun _ => by norm_num⟩ rfl rfl (by simp) rfl rfl (Or.inl rfl) 4
  (fun i => if i 0 = 2 then Option.none else some 4) (fun j => by by_cases h : j 0 = 2 <;> simp [h])
  (fun q => if q 0 = 1 then 1 / 2 else 1 / 4)
  (by rw [← Equiv.sum_comp (Equiv.funUnique (Fin 1) (Fin 3)).symm, Fin.sum_univ_three]; simp; norm_num)
  (fun q => by split_ifs <;> norm_num)

/-- C63: a kernel of sum 3 -/
example (cfg : FFTConfig) (x : Idx (fun _ : Fin 1 => 4) → Pix) := C63_unnormalised (s := fun _ : Fin 1 => 4) (t := fun _ : Fin 1 => 3) cfg
  { interpolateNan := true } .fill (Or.inl rfl) rfl rfl 0 (by simp) rfl x (fun _ => 1)
  (by rw [← Equiv.sum_comp (Equiv.funUnique (Fin 1) (Fin 3)).symm, Fin.sum_univ_three]; norm_num)

/-- C61: normalised by a function that returns 5 -/
example (cfg : FFTConfig) (x : Idx (fun _ : Fin 1 => 4) → CPix) (κ : Idx (fun _ : Fin 1 => 3) → CPix) :=
  C61_normalize_function (s := fun _ : Fin 1 => 4) (t := fun _ : Fin 1 => 3) cfg
  { normalizeKernel := .fn fun _ => some 5 } (fun _ => some 5) rfl rfl rfl x κ 5 (by norm_num) rfl

/-- C72: four centres, half a pixel apart -/
example := C72_centers_to_edges (n := 4) (by norm_num) (fun i => 3 + ((i : ℕ) : ℝ) * (1 / 2)) 3 (1 / 2) (by norm_num) (fun _ => rfl)

/-- C74: samples at 0, 1, 4, 9; the coordinates 0.5 and 5 lie between the first two and the last two -/
example (cfg : FFTConfig) (x : Fin 4 → ℂ) :
    fourierInterp1d cfg (cArr x) (Arr.ofVec ![0.5, 5]) (some (Arr.ofVec fun j : Fin 4 => ((j : ℕ) : ℝ) ^ 2)) true
      = fourierInterp1d cfg (cArr x) (Arr.ofVec fun i : Fin 2 => (((![0, 2] : Fin 2 → Fin 4) i : ℕ) : ℝ)
          + ((![0.5, 5] : Fin 2 → ℝ) i - (((![0, 2] : Fin 2 → Fin 4) i : ℕ) : ℝ) ^ 2)
            / ((((![1, 3] : Fin 2 → Fin 4) i : ℕ) : ℝ) ^ 2 - (((![0, 2] : Fin 2 → Fin 4) i : ℕ) : ℝ) ^ 2)) none true := by
  refine C74_data_x_between cfg x (fun j => ((j : ℕ) : ℝ) ^ 2) ?_ ![0.5, 5] ![0, 2] ![1, 3] ?_ ?_ ?_ true
  · intro a b h
    have : ((a : ℕ) : ℝ) < ((b : ℕ) : ℝ) := by exact_mod_cast h
    have : (0 : ℝ) ≤ ((a : ℕ) : ℝ) := Nat.cast_nonneg _
    beta_reduce
    nlinarith
  · intro i; fin_cases i <;> rfl
  · intro i; fin_cases i <;> norm_num
  · intro i; fin_cases i <;> norm_num

/-! ### C91, C129 -/

/-- C91: every sufficiently small `mindiff` is below all the non-zero values of the map, since there are finitely many -/
example (cfg : FFTConfig) (dy dx : ℤ) (zm : Bool) : ∃ md : ℝ, 0 < md ∧
    ∀ c, chi2nMap cfg (realArr (Example.point 5 8)) (realArr (Spec.roll2 dy dx (Example.point 5 8))) .none zm false false false = .ok (.only c) →
      ∀ i, c i ≠ 0 → md < |c i| := by
  rcases h : chi2nMap cfg (realArr (Example.point 5 8)) (realArr (Spec.roll2 dy dx (Example.point 5 8))) .none zm false false false with e | r
  · exact ⟨1, one_pos, fun c hc => by simp at hc⟩
  · cases r with
    | only c =>
      obtain ⟨j, -, hj⟩ := Finset.exists_min_image (Finset.univ : Finset (Fin 5 × Fin 8)) (fun i => if c i = 0 then 1 else |c i|) ⟨0, Finset.mem_univ _⟩
      have hpos : 0 < (if c j = 0 then 1 else |c j|) := by
        split_ifs with h0
        · exact one_pos
        · exact abs_pos.2 h0
      refine ⟨(if c j = 0 then 1 else |c j|) / 2, half_pos hpos, ?_⟩
      rintro c' hc i hi
      obtain rfl : c = c' := by simpa using hc
      have := hj i (Finset.mem_univ _)
      rw [if_neg hi] at this
      exact lt_of_lt_of_le (half_lt_self hpos) this
    | _ => exact ⟨1, one_pos, fun c hc => by simp at hc⟩

/-- C129: the margin is met by a point and the same point, a third of a pixel away from the nominal shift -/
example (cfg cfg' : FFTConfig) (o : Fin 5 × Fin 7 → ℂ) (ho : shift2d cfg' (rArr (Example.point 5 7)) (1 / 3) (1 / 3) 0 false false = .cplx (cArr o)) :=
  C129_chi2_rate cfg cfg' none trivial (Example.point 5 7) (Example.point 5 7) (Example.point 5 7) (Example.point 5 7) (by norm_num) (by norm_num)
    (1 / 3) (1 / 3) false (fun p => by simp) (fun p => by simp) o ho
    ⟨0, 0, fun fy fx h => by
      have hz : ∑ p, (Spec.roll2 0 0 (Example.point 5 7) p - Example.point 5 7 p) ^ 2 = 0 := by
        rw [show Spec.roll2 0 0 (Example.point 5 7) = Example.point 5 7 from by rw [roll2_zero]]; simp
      rw [hz]
      refine lt_of_le_of_ne (Finset.sum_nonneg fun p _ => sq_nonneg _) fun h0 => h ?_
      have h1 := (Finset.sum_eq_zero_iff_of_nonneg fun p _ => sq_nonneg _).1 h0.symm 0 (Finset.mem_univ _)
      have h2 : Spec.roll2 fy fx (Example.point 5 7) 0 = 1 := by
        have h3 := pow_eq_zero_iff (two_ne_zero) |>.1 h1
        rw [show Example.point 5 7 0 = 1 from by simp [Example.point]] at h3
        linarith
      rw [roll2_eq] at h2
      unfold Example.point at h2
      have h4 : (0 : Fin 5 × Fin 7) - (Spec.wrap 5 fy, Spec.wrap 7 fx) = 0 := by
        by_contra hne; beta_reduce at h2; rw [if_neg hne] at h2; norm_num at h2
      rw [zero_sub, neg_eq_zero, Prod.mk_eq_zero] at h4
      have d : ∀ (n : ℕ) [NeZero n] (f : ℤ), Spec.wrap n f = 0 → ∃ z : ℤ, |(f : ℝ) - 1 / 3 - z * n| ≤ 1 / 2 := by
        intro n _ f hw
        have h5 : f ≡ 0 [ZMOD n] := by simpa [hw] using (Spec.wrap_modEq n f).symm
        obtain ⟨z, rfl⟩ := Int.modEq_zero_iff_dvd.1 h5
        refine ⟨z, ?_⟩
        have : (((n : ℤ) * z : ℤ) : ℝ) - 1 / 3 - z * n = -(1 / 3) := by push_cast; ring
        rw [this, abs_neg, abs_of_pos (by norm_num)]; norm_num
      exact ⟨d 5 fy h4.1, d 7 fx h4.2⟩⟩
    .none 1 one_ne_zero rfl 50 (by norm_num) 2 512 1.1 false (Or.inr (by norm_num))

/-- C42: the loop of `iterative_zoom_1d` is not entered -/
example := C42_iterative_zoom_1d_not_entered true 3 (![5, 1, 2, 7] : Fin 4 → ℝ) 10 .min 1 0
  (by intro j; fin_cases j <;> norm_num) (by norm_num) (by norm_num) 10 2 false

end ImgReg
