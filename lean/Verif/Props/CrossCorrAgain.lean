import Verif.Props.CrossCorrSymm
import Verif.Props.Again

/-!
# Moving one image and calling `cross_correlation_shifts` again (C135)
-/

open Finset

namespace ImgReg

section
variable {ny nx : ℕ} [NeZero ny] [NeZero nx]

/-- a pixel of the map of the moved image and the pixel of the first map that shows the same lag -/
theorem xcorr_roll_second (a b : Fin ny × Fin nx → ℝ) (dy dx : ℤ) (i j : Fin ny × Fin nx)
    (hy : ((i.1 : ℕ) : ℤ) ≡ ((j.1 : ℕ) : ℤ) - dy [ZMOD ny]) (hx : ((i.2 : ℕ) : ℤ) ≡ ((j.2 : ℕ) : ℤ) - dx [ZMOD nx]) :
    Spec.xcorr a (Spec.roll2 dy dx b) i = Spec.xcorr a b j := by
  unfold Spec.xcorr
  refine Finset.sum_congr rfl fun p _ => ?_
  congr 1
  rw [← Spec.roll2_move dy dx b, move_move]
  congr 1
  rw [Spec.move_eq, Spec.move_eq]
  congr 2
  · refine Spec.wrap_congr ny ?_
    have := Int.ModEq.sub (Int.ModEq.refl (Spec.zeroLag ny : ℤ)) hy
    refine this.trans ?_
    rw [show (Spec.zeroLag ny : ℤ) - (((j.1 : ℕ) : ℤ) - dy) = dy + (Spec.zeroLag ny - ((j.1 : ℕ) : ℤ)) by ring]
  · refine Spec.wrap_congr nx ?_
    have := Int.ModEq.sub (Int.ModEq.refl (Spec.zeroLag nx : ℤ)) hx
    refine this.trans ?_
    rw [show (Spec.zeroLag nx : ℤ) - (((j.2 : ℕ) : ℤ) - dx) = dx + (Spec.zeroLag nx - ((j.2 : ℕ) : ℤ)) by ring]

/-- a reported number with `z` added (infinities and NaN stay) -/
def Spec.addTo (z : ℝ) : Fl → Fl
  | .fin r => .fin (r + z)
  | .inf => .inf
  | .nan => .nan

/-- a reported list with `zx` added to the first and `zy` to the second number; what follows (the errors) stays -/
def Spec.movedBy (zx zy : ℝ) : List Fl → List Fl
  | rx :: ry :: rest => Spec.addTo zx rx :: Spec.addTo zy ry :: rest
  | l => l

theorem negAdd_addTo (k z : ℝ) (s : Fl) : Fl.negAdd (k - z) s = Spec.addTo z (Fl.negAdd k s) := by
  cases s <;> simp only [Fl.negAdd, Spec.addTo]
  congr 1; ring

/-- two maps that look the same around their peaks -/
theorem ccFromMap_translate (cfg : FFTConfig) (ah : Bool) (hf : Spec.fits ah ny nx) (agpy : Agpy ny nx) (a b c a' b' c' : Fin ny × Fin nx → ℝ)
    (e1 e2 : Option (Fin ny × Fin nx → Pix)) (re : Bool) (loc loc' : Fin ny × Fin nx) (hloc : Np.argmax c = loc) (hloc' : Np.argmax c' = loc')
    (h0 : c loc ≠ 0) (hy : 1 ≤ (loc.1 : ℕ)) (hy1 : (loc.1 : ℕ) + 2 ≤ ny) (hx : 1 ≤ (loc.2 : ℕ)) (hx1 : (loc.2 : ℕ) + 2 ≤ nx)
    (hy' : 1 ≤ (loc'.1 : ℕ)) (hy1' : (loc'.1 : ℕ) + 2 ≤ ny) (hx' : 1 ≤ (loc'.2 : ℕ)) (hx1' : (loc'.2 : ℕ) + 2 ≤ nx)
    (ha : ∑ i, a' i ^ 2 = ∑ i, a i ^ 2) (hb : ∑ i, b' i ^ 2 = ∑ i, b i ^ 2)
    (hc : ∀ i j : Fin ny × Fin nx, ((i.1 : ℕ) : ℤ) - ((loc'.1 : ℕ) : ℤ) = ((j.1 : ℕ) : ℤ) - ((loc.1 : ℕ) : ℤ) →
      ((i.2 : ℕ) : ℤ) - ((loc'.2 : ℕ) : ℤ) = ((j.2 : ℕ) : ℤ) - ((loc.2 : ℕ) : ℤ) → c' i = c j) :
    ccFromMap cfg ah agpy a' b' c' e1 e2 none false re
      = (ccFromMap cfg ah agpy a b c e1 e2 none false re).map
          (Spec.movedBy (((loc.2 : ℕ) : ℝ) - ((loc'.2 : ℕ) : ℝ)) (((loc.1 : ℕ) : ℝ) - ((loc'.1 : ℕ) : ℝ))) := by
  have hE : ∀ s t : ℤ, -1 ≤ s → s ≤ 1 → -1 ≤ t → t ≤ 1 →
      Spec.ext0 c' (((loc'.1 : ℕ) : ℤ) + s) (((loc'.2 : ℕ) : ℤ) + t) = Spec.ext0 c (((loc.1 : ℕ) : ℤ) + s) (((loc.2 : ℕ) : ℤ) + t) := by
    intro s t h1 h2 h3 h4
    rw [ext0_eq _ (⟨(((loc'.1 : ℕ) : ℤ) + s).toNat, by omega⟩, ⟨(((loc'.2 : ℕ) : ℤ) + t).toNat, by omega⟩)
      (by simp only; omega) (by simp only; omega),
      ext0_eq _ (⟨(((loc.1 : ℕ) : ℤ) + s).toNat, by omega⟩, ⟨(((loc.2 : ℕ) : ℤ) + t).toNat, by omega⟩)
      (by simp only; omega) (by simp only; omega)]
    exact hc _ _ (by simp only; omega) (by simp only; omega)
  have hcp : c' loc' = c loc := hc _ _ (by omega) (by omega)
  have E00 := hE 0 0 (by omega) (by omega) (by omega) (by omega)
  have E01 := hE 0 1 (by omega) (by omega) (by omega) (by omega)
  have E0n := hE 0 (-1) (by omega) (by omega) (by omega) (by omega)
  have E10 := hE 1 0 (by omega) (by omega) (by omega) (by omega)
  have En0 := hE (-1) 0 (by omega) (by omega) (by omega) (by omega)
  have E11 := hE 1 1 (by omega) (by omega) (by omega) (by omega)
  have E1n := hE 1 (-1) (by omega) (by omega) (by omega) (by omega)
  have En1 := hE (-1) 1 (by omega) (by omega) (by omega) (by omega)
  have Enn := hE (-1) (-1) (by omega) (by omega) (by omega) (by omega)
  simp only [add_zero, ← sub_eq_add_neg] at E00 E01 E0n E10 En0 E11 E1n En1 Enn
  subst hloc hloc'
  rw [ccFromMap_eq cfg ah hf agpy a' b' c' e1 e2 re (by rw [hcp]; exact h0) hy' hx' _ _ rfl rfl _ _ _ _ _
      (show Spec.curvX (Spec.ext0 c) (((Np.argmax c).1 : ℕ) : ℤ) (((Np.argmax c).2 : ℕ) : ℤ) = _ by unfold Spec.curvX; rw [E01, E0n, E00])
      (show Spec.curvY (Spec.ext0 c) (((Np.argmax c).1 : ℕ) : ℤ) (((Np.argmax c).2 : ℕ) : ℤ) = _ by unfold Spec.curvY; rw [E10, En0, E00])
      (show Spec.mixed (Spec.ext0 c) (((Np.argmax c).1 : ℕ) : ℤ) (((Np.argmax c).2 : ℕ) : ℤ) = _ by
        unfold Spec.mixed; rw [E11, Enn, E1n, En1])
      (show Spec.slopeX nx (Spec.ext0 c) (((Np.argmax c).1 : ℕ) : ℤ) (((Np.argmax c).2 : ℕ) : ℤ) = _ by
        unfold Spec.slopeX; rw [if_pos (by omega), if_pos (by omega), E01, E0n])
      (show Spec.slopeY ny (Spec.ext0 c) (((Np.argmax c).1 : ℕ) : ℤ) (((Np.argmax c).2 : ℕ) : ℤ) = _ by
        unfold Spec.slopeY; rw [if_pos (by omega), if_pos (by omega), E10, En0]),
    ccFromMap_eq cfg ah hf agpy a b c e1 e2 re h0 hy hx _ _ rfl rfl _ _ _ _ _ rfl rfl rfl rfl rfl, ha, hb, hcp]
  have key : ∀ (p p' : ℕ) (r : ℝ) (s : Fl), Fl.negAdd (((p' : ℤ) : ℝ) - r) s = Spec.addTo ((p : ℝ) - (p' : ℝ)) (Fl.negAdd (((p : ℤ) : ℝ) - r) s) := by
    intro p p' r s
    rw [← negAdd_addTo]
    congr 1
    push_cast; ring
  rw [key ((Np.argmax c).2 : ℕ) ((Np.argmax c').2 : ℕ) (ccCentre nx), key ((Np.argmax c).1 : ℕ) ((Np.argmax c').1 : ℕ) (ccCentre ny)]
  cases re with
  | false => rfl
  | true =>
    simp only [if_true]
    split <;> rename_i hz
    · rfl
    · simp only [Except.map, Spec.movedBy, List.cons_append, List.nil_append]

/-- the result for two images whose correlation is that of two others moved by `(-dy, -dx)` -/
theorem ccFromMap_moved (cfg : FFTConfig) (ah : Bool) (hf : Spec.fits ah ny nx) (agpy : Agpy ny nx) (a b a' b' : Fin ny × Fin nx → ℝ)
    (e1 e2 : Option (Fin ny × Fin nx → Pix)) (re : Bool) (loc loc' : Fin ny × Fin nx)
    (hloc : ∀ j, j ≠ loc → Spec.xcorr a b j < Spec.xcorr a b loc) (h0 : Spec.xcorr a b loc ≠ 0)
    (hy : 1 ≤ (loc.1 : ℕ) ∧ (loc.1 : ℕ) + 2 ≤ ny) (hx : 1 ≤ (loc.2 : ℕ) ∧ (loc.2 : ℕ) + 2 ≤ nx)
    (hy' : 1 ≤ (loc'.1 : ℕ) ∧ (loc'.1 : ℕ) + 2 ≤ ny) (hx' : 1 ≤ (loc'.2 : ℕ) ∧ (loc'.2 : ℕ) + 2 ≤ nx)
    (dy dx k l : ℤ) (hdy : ((loc'.1 : ℕ) : ℤ) = ((loc.1 : ℕ) : ℤ) - dy + l * ny) (hdx : ((loc'.2 : ℕ) : ℤ) = ((loc.2 : ℕ) : ℤ) - dx + k * nx)
    (ha : ∑ i, a' i ^ 2 = ∑ i, a i ^ 2) (hb : ∑ i, b' i ^ 2 = ∑ i, b i ^ 2)
    (hx0 : ∀ i j : Fin ny × Fin nx, ((i.1 : ℕ) : ℤ) ≡ ((j.1 : ℕ) : ℤ) - dy [ZMOD ny] → ((i.2 : ℕ) : ℤ) ≡ ((j.2 : ℕ) : ℤ) - dx [ZMOD nx] →
        Spec.xcorr a' b' i = Spec.xcorr a b j) :
    ccFromMap cfg ah agpy a' b' (Spec.ccMap a' b') e1 e2 none false re
      = (ccFromMap cfg ah agpy a b (Spec.ccMap a b) e1 e2 none false re).map (Spec.movedBy (dx - k * nx) (dy - l * ny)) := by
  have hN : (0 : ℝ) < ((ny * nx : ℕ) : ℝ) := by
    exact_mod_cast Nat.mul_pos (Nat.pos_of_ne_zero (NeZero.ne ny)) (Nat.pos_of_ne_zero (NeZero.ne nx))
  have same : ∀ i j : Fin ny × Fin nx, ((i.1 : ℕ) : ℤ) ≡ ((j.1 : ℕ) : ℤ) - dy [ZMOD ny] → ((i.2 : ℕ) : ℤ) ≡ ((j.2 : ℕ) : ℤ) - dx [ZMOD nx] →
      Spec.ccMap a' b' i = Spec.ccMap a b j := by
    intro i j h1 h2
    unfold Spec.ccMap
    rw [hx0 i j h1 h2]
  have hm : ∀ j, j ≠ loc → Spec.ccMap a b j < Spec.ccMap a b loc := fun j hj => by
    unfold Spec.ccMap
    exact div_lt_div_of_pos_right (hloc j hj) hN
  have modY : ((loc'.1 : ℕ) : ℤ) ≡ ((loc.1 : ℕ) : ℤ) - dy [ZMOD ny] := by
    rw [hdy]; exact (Int.modEq_iff_dvd.2 ⟨-l, by ring⟩)
  have modX : ((loc'.2 : ℕ) : ℤ) ≡ ((loc.2 : ℕ) : ℤ) - dx [ZMOD nx] := by
    rw [hdx]; exact (Int.modEq_iff_dvd.2 ⟨-k, by ring⟩)
  have hm' : ∀ i, i ≠ loc' → Spec.ccMap a' b' i < Spec.ccMap a' b' loc' := by
    intro i hi
    rw [same loc' loc modY modX, same i (Spec.wrap ny (((i.1 : ℕ) : ℤ) + dy), Spec.wrap nx (((i.2 : ℕ) : ℤ) + dx))]
    · refine hm _ fun he => hi ?_
      have f1 := (Spec.wrap_eq_iff ny _ _).1 (congrArg Prod.fst he)
      have f2 := (Spec.wrap_eq_iff nx _ _).1 (congrArg Prod.snd he)
      have g1 : ((i.1 : ℕ) : ℤ) ≡ ((loc'.1 : ℕ) : ℤ) [ZMOD ny] := by
        refine Int.ModEq.trans ?_ modY.symm
        have := Int.ModEq.sub f1 (Int.ModEq.refl dy)
        rwa [add_sub_cancel_right] at this
      have g2 : ((i.2 : ℕ) : ℤ) ≡ ((loc'.2 : ℕ) : ℤ) [ZMOD nx] := by
        refine Int.ModEq.trans ?_ modX.symm
        have := Int.ModEq.sub f2 (Int.ModEq.refl dx)
        rwa [add_sub_cancel_right] at this
      have := i.1.isLt; have := i.2.isLt; have := loc'.1.isLt; have := loc'.2.isLt
      rw [Int.ModEq, Int.emod_eq_of_lt (by omega) (by omega), Int.emod_eq_of_lt (by omega) (by omega)] at g1 g2
      exact Prod.ext (Fin.ext (by exact_mod_cast g1)) (Fin.ext (by exact_mod_cast g2))
    · have := (Spec.wrap_modEq ny (((i.1 : ℕ) : ℤ) + dy)).sub (Int.ModEq.refl dy)
      rw [add_sub_cancel_right] at this
      exact this.symm
    · have := (Spec.wrap_modEq nx (((i.2 : ℕ) : ℤ) + dx)).sub (Int.ModEq.refl dx)
      rw [add_sub_cancel_right] at this
      exact this.symm
  rw [ccFromMap_translate cfg ah hf agpy a b (Spec.ccMap a b) a' b' (Spec.ccMap a' b') e1 e2 re loc loc'
    (Np.argmax_eq_of_unique hm) (Np.argmax_eq_of_unique hm') (div_ne_zero h0 hN.ne') hy.1 hy.2 hx.1 hx.2 hy'.1 hy'.2 hx'.1 hx'.2 ha hb
    (fun i j h1 h2 => same i j
      (by
        refine Int.modEq_iff_dvd.2 ⟨-l, ?_⟩
        have : ((i.1 : ℕ) : ℤ) = ((j.1 : ℕ) : ℤ) - dy + l * ny := by omega
        rw [this]; ring)
      (by
        refine Int.modEq_iff_dvd.2 ⟨-k, ?_⟩
        have : ((i.2 : ℕ) : ℤ) = ((j.2 : ℕ) : ℤ) - dx + k * nx := by omega
        rw [this]; ring))]
  have c1 : ((loc'.1 : ℕ) : ℝ) = ((loc.1 : ℕ) : ℝ) - dy + l * ny := by exact_mod_cast hdy
  have c2 : ((loc'.2 : ℕ) : ℝ) = ((loc.2 : ℕ) : ℝ) - dx + k * nx := by exact_mod_cast hdx
  rw [c1, c2]
  congr 2 <;> ring

/-- C135: rolling the second image by `(dy, dx)` adds exactly `(dx, dy)` to the reported shift — up to whole turns around the image — and leaves
the errors alone, also for NaN or infinite answers. Here the correlation map has a unique largest value, at a pixel `loc` that is not on the border of the map, and
neither is the pixel `loc'` to which it moves. -/
theorem C135_roll_second (cfg : FFTConfig) (agpy : Agpy ny nx) (im1 im2 : Fin ny × Fin nx → Pix)
    (e1 e2 : Option (Fin ny × Fin nx → Pix)) (re zm ah : Bool) (loc loc' : Fin ny × Fin nx)
    (hloc : ∀ j, j ≠ loc → Spec.xcorr (prep zm im1) (prep zm im2) j < Spec.xcorr (prep zm im1) (prep zm im2) loc)
    (h0 : Spec.xcorr (prep zm im1) (prep zm im2) loc ≠ 0)
    (hy : 1 ≤ (loc.1 : ℕ) ∧ (loc.1 : ℕ) + 2 ≤ ny) (hx : 1 ≤ (loc.2 : ℕ) ∧ (loc.2 : ℕ) + 2 ≤ nx)
    (hy' : 1 ≤ (loc'.1 : ℕ) ∧ (loc'.1 : ℕ) + 2 ≤ ny) (hx' : 1 ≤ (loc'.2 : ℕ) ∧ (loc'.2 : ℕ) + 2 ≤ nx)
    (dy dx k l : ℤ) (hdy : ((loc'.1 : ℕ) : ℤ) = ((loc.1 : ℕ) : ℤ) - dy + l * ny) (hdx : ((loc'.2 : ℕ) : ℤ) = ((loc.2 : ℕ) : ℤ) - dx + k * nx) :
    crossCorrelationShifts cfg agpy im1 (Spec.roll2 dy dx im2) e1 e2 none false re zm ah
      = (crossCorrelationShifts cfg agpy im1 im2 e1 e2 none false re zm ah).map (Spec.movedBy (dx - k * nx) (dy - l * ny)) := by
  by_cases hf : Spec.fits ah ny nx
  · rw [ccShifts_eq _ _ _ _ _ _ _ _ _ _ _ hf, ccShifts_eq _ _ _ _ _ _ _ _ _ _ _ hf, prep_roll2]
    exact ccFromMap_moved cfg ah hf agpy _ _ _ _ e1 e2 re loc loc' hloc h0 hy hx hy' hx' dy dx k l hdy hdx rfl
      (Spec.roll2_sum dy dx fun p => prep zm im2 p ^ 2) fun i j h1 h2 => xcorr_roll_second _ _ dy dx i j h1 h2
  · unfold crossCorrelationShifts
    rw [dif_pos ⟨rfl, rfl⟩, dif_pos ⟨rfl, rfl⟩]
    unfold ccShiftsBody
    simp only [correlate2d_huge cfg ah hf, bind, Except.bind]
    rfl

/-- C135: rolling the first image by `(dy, dx)` subtracts exactly `(dx, dy)`, under the same conditions. Here the correlation map has a unique largest value, at a pixel `loc` that is not on the border of the map, and
neither is the pixel `loc'` to which it moves. -/
theorem C135_roll_first (cfg : FFTConfig) (agpy : Agpy ny nx) (im1 im2 : Fin ny × Fin nx → Pix)
    (e1 e2 : Option (Fin ny × Fin nx → Pix)) (re zm ah : Bool) (loc loc' : Fin ny × Fin nx)
    (hloc : ∀ j, j ≠ loc → Spec.xcorr (prep zm im1) (prep zm im2) j < Spec.xcorr (prep zm im1) (prep zm im2) loc)
    (h0 : Spec.xcorr (prep zm im1) (prep zm im2) loc ≠ 0)
    (hy : 1 ≤ (loc.1 : ℕ) ∧ (loc.1 : ℕ) + 2 ≤ ny) (hx : 1 ≤ (loc.2 : ℕ) ∧ (loc.2 : ℕ) + 2 ≤ nx)
    (hy' : 1 ≤ (loc'.1 : ℕ) ∧ (loc'.1 : ℕ) + 2 ≤ ny) (hx' : 1 ≤ (loc'.2 : ℕ) ∧ (loc'.2 : ℕ) + 2 ≤ nx)
    (dy dx k l : ℤ) (hdy : ((loc'.1 : ℕ) : ℤ) = ((loc.1 : ℕ) : ℤ) + dy + l * ny) (hdx : ((loc'.2 : ℕ) : ℤ) = ((loc.2 : ℕ) : ℤ) + dx + k * nx) :
    crossCorrelationShifts cfg agpy (Spec.roll2 dy dx im1) im2 e1 e2 none false re zm ah
      = (crossCorrelationShifts cfg agpy im1 im2 e1 e2 none false re zm ah).map (Spec.movedBy (-dx - k * nx) (-dy - l * ny)) := by
  by_cases hf : Spec.fits ah ny nx
  · rw [ccShifts_eq _ _ _ _ _ _ _ _ _ _ _ hf, ccShifts_eq _ _ _ _ _ _ _ _ _ _ _ hf, prep_roll2]
    have := ccFromMap_moved cfg ah hf agpy (prep zm im1) (prep zm im2) (Spec.roll2 dy dx (prep zm im1)) (prep zm im2) e1 e2 re loc loc' hloc h0
      hy hx hy' hx' (-dy) (-dx) k l (by rw [hdy]; ring) (by rw [hdx]; ring) (Spec.roll2_sum dy dx fun p => prep zm im1 p ^ 2) rfl
      (fun i j h1 h2 => by
        rw [← xcorr_roll_second (prep zm im1) (prep zm im2) (-dy) (-dx) i j h1 h2,
          ← xcorr_common_roll (prep zm im1) (Spec.roll2 (-dy) (-dx) (prep zm im2)) dy dx]
        congr 1
        rw [roll2_add, add_neg_cancel, add_neg_cancel, roll2_zero])
    rw [this]
    push_cast
    rfl
  · unfold crossCorrelationShifts
    rw [dif_pos ⟨rfl, rfl⟩, dif_pos ⟨rfl, rfl⟩]
    unfold ccShiftsBody
    simp only [correlate2d_huge cfg ah hf, bind, Except.bind]
    rfl

/-- C135: moving the second image back by the measured shift, rounded to whole pixels, and measuring again gives exactly the remainder, which is at
most half a pixel. Here the images are at least 7 pixels wide, the correlation has a unique nonzero largest value at a pixel `loc` that is not on the border, and
the first answer was within one pixel of that peak. -/
theorem C135_measured_again (cfg : FFTConfig) (agpy : Agpy ny nx) (im1 im2 : Fin ny × Fin nx → Pix)
    (e1 e2 : Option (Fin ny × Fin nx → Pix)) (zm ah : Bool) (hny : 7 ≤ ny) (hnx : 7 ≤ nx) (loc : Fin ny × Fin nx)
    (hloc : ∀ j, j ≠ loc → Spec.xcorr (prep zm im1) (prep zm im2) j < Spec.xcorr (prep zm im1) (prep zm im2) loc)
    (h0 : Spec.xcorr (prep zm im1) (prep zm im2) loc ≠ 0)
    (hy : 1 ≤ (loc.1 : ℕ) ∧ (loc.1 : ℕ) + 2 ≤ ny) (hx : 1 ≤ (loc.2 : ℕ) ∧ (loc.2 : ℕ) + 2 ≤ nx) (rx ry : ℝ)
    (hres : crossCorrelationShifts cfg agpy im1 im2 e1 e2 none false false zm ah = .ok [.fin rx, .fin ry])
    (hrx : |rx - (Spec.ccRef nx - ((loc.2 : ℕ) : ℝ))| ≤ 1) (hry : |ry - (Spec.ccRef ny - ((loc.1 : ℕ) : ℝ))| ≤ 1) :
    crossCorrelationShifts cfg agpy im1 (Spec.roll2 (-round ry) (-round rx) im2) e1 e2 none false false zm ah
      = .ok [.fin (rx - round rx), .fin (ry - round ry)] ∧
    |rx - round rx| ≤ 1 / 2 ∧ |ry - round ry| ≤ 1 / 2 := by
  refine ⟨?_, abs_sub_round rx, abs_sub_round ry⟩
  have hin : ∀ (n : ℕ) (p : Fin n) (r : ℝ), 7 ≤ n → |r - (Spec.ccRef n - ((p : ℕ) : ℝ))| ≤ 1 →
      1 ≤ ((p : ℕ) : ℤ) + round r ∧ ((p : ℕ) : ℤ) + round r + 2 ≤ n := by
    intro n p r hn h
    have h1 := abs_le.1 h
    have h2 := abs_le.1 (abs_sub_round r)
    have hc : (3 : ℝ) ≤ Spec.ccRef n ∧ Spec.ccRef n ≤ ((n : ℝ)) / 2 := by
      unfold Spec.ccRef Spec.zeroLag
      obtain ⟨m, rfl | rfl⟩ : ∃ m, n = 2 * m ∨ n = 2 * m + 1 := ⟨n / 2, by omega⟩
      · have : 4 ≤ m := by omega
        have e : (2 * m - 1) / 2 = m - 1 := by omega
        rw [e, if_neg (by omega)]
        have : (4 : ℝ) ≤ m := by exact_mod_cast this
        push_cast [Nat.cast_sub (show 1 ≤ m by omega)]
        constructor <;> linarith
      · have : 3 ≤ m := by omega
        have e : (2 * m + 1 - 1) / 2 = m := by omega
        rw [e, if_pos (by omega)]
        have : (3 : ℝ) ≤ m := by exact_mod_cast this
        push_cast
        constructor <;> linarith
    have hn' : (7 : ℝ) ≤ n := by exact_mod_cast hn
    constructor
    · have : (0 : ℝ) < ((((p : ℕ) : ℤ) + round r : ℤ) : ℝ) := by push_cast; linarith
      have := Int.cast_pos.1 this
      omega
    · have : ((((p : ℕ) : ℤ) + round r : ℤ) : ℝ) < ((n - 1 : ℤ) : ℝ) := by push_cast; linarith
      have := Int.cast_lt.1 this
      omega
  obtain ⟨a1, a2⟩ := hin ny loc.1 ry hny hry
  obtain ⟨b1, b2⟩ := hin nx loc.2 rx hnx hrx
  have key := C135_roll_second cfg agpy im1 im2 e1 e2 false zm ah loc
    (⟨(((loc.1 : ℕ) : ℤ) + round ry).toNat, by omega⟩, ⟨(((loc.2 : ℕ) : ℤ) + round rx).toNat, by omega⟩) hloc h0 hy hx
    ⟨by simp only; omega, by simp only; omega⟩ ⟨by simp only; omega, by simp only; omega⟩ (-round ry) (-round rx) 0 0
    (by simp only; omega) (by simp only; omega)
  rw [key, hres]
  simp only [Except.map, Spec.movedBy, Spec.addTo]
  push_cast
  simp only [zero_mul, sub_zero, ← sub_eq_add_neg]

/-- C135: but the function is not usable at every position. Whatever the two images, if their correlation has a unique nonzero largest value, some
roll of the second image makes `cross_correlation_shifts` raise ValueError. -/
theorem C135_some_position_fails (cfg : FFTConfig) (agpy : Agpy ny nx) (im1 im2 : Fin ny × Fin nx → Pix)
    (e1 e2 : Option (Fin ny × Fin nx → Pix)) (re zm ah : Bool) (hf : Spec.fits ah ny nx) (loc : Fin ny × Fin nx)
    (hloc : ∀ j, j ≠ loc → Spec.xcorr (prep zm im1) (prep zm im2) j < Spec.xcorr (prep zm im1) (prep zm im2) loc)
    (h0 : Spec.xcorr (prep zm im1) (prep zm im2) loc ≠ 0) :
    ∃ dy : ℤ, 0 ≤ dy ∧ dy < ny ∧
      crossCorrelationShifts cfg agpy im1 (Spec.roll2 dy 0 im2) e1 e2 none false re zm ah = .error .valueError := by
  refine ⟨((loc.1 : ℕ) : ℤ), by omega, by have := loc.1.isLt; omega, ?_⟩
  have hsame : ∀ i j : Fin ny × Fin nx, ((i.1 : ℕ) : ℤ) ≡ ((j.1 : ℕ) : ℤ) - ((loc.1 : ℕ) : ℤ) [ZMOD ny] → i.2 = j.2 →
      Spec.xcorr (prep zm im1) (prep zm (Spec.roll2 ((loc.1 : ℕ) : ℤ) 0 im2)) i = Spec.xcorr (prep zm im1) (prep zm im2) j := by
    intro i j h1 h2
    rw [prep_roll2]
    exact xcorr_roll_second _ _ _ 0 i j h1 (by rw [h2, sub_zero])
  have hz : ((((0 : Fin ny), loc.2).1 : ℕ) : ℤ) ≡ ((loc.1 : ℕ) : ℤ) - ((loc.1 : ℕ) : ℤ) [ZMOD ny] := by simp
  have hval := hsame (0, loc.2) loc hz rfl
  have hm : ∀ i, i ≠ ((0 : Fin ny), loc.2) → Spec.xcorr (prep zm im1) (prep zm (Spec.roll2 ((loc.1 : ℕ) : ℤ) 0 im2)) i
      < Spec.xcorr (prep zm im1) (prep zm (Spec.roll2 ((loc.1 : ℕ) : ℤ) 0 im2)) (0, loc.2) := by
    intro i hi
    have hw := (Spec.wrap_modEq ny (((i.1 : ℕ) : ℤ) + ((loc.1 : ℕ) : ℤ))).sub (Int.ModEq.refl ((loc.1 : ℕ) : ℤ))
    rw [add_sub_cancel_right] at hw
    rw [hval, hsame i (Spec.wrap ny (((i.1 : ℕ) : ℤ) + ((loc.1 : ℕ) : ℤ)), i.2) hw.symm rfl]
    refine hloc _ fun he => hi ?_
    have f1 := (Spec.wrap_eq_iff ny _ _).1 (congrArg Prod.fst he)
    have f2 := f1.sub (Int.ModEq.refl ((loc.1 : ℕ) : ℤ))
    rw [add_sub_cancel_right, sub_self] at f2
    have := i.1.isLt
    rw [Int.ModEq, Int.emod_eq_of_lt (by omega) (by omega), Int.zero_emod] at f2
    have f3 : i.2 = loc.2 := by rw [← he]
    refine Prod.ext (Fin.ext ?_) f3
    simp only [Fin.val_zero]
    exact_mod_cast f2
  have hmax : Np.IsFirstMax (Spec.xcorr (prep zm im1) (prep zm (Spec.roll2 ((loc.1 : ℕ) : ℤ) 0 im2))) (0, loc.2) := by
    have := Np.argmax_spec (Spec.xcorr (prep zm im1) (prep zm (Spec.roll2 ((loc.1 : ℕ) : ℤ) 0 im2)))
    rwa [Np.argmax_eq_of_unique hm] at this
  exact C53_first_row_or_column cfg agpy im1 _ e1 e2 re zm ah hf (0, loc.2) hmax (by rw [hval]; exact h0) (.inl rfl)

end

/-- the case used below: a star moved by `(1, 2)` on a 10×9 detector; its correlation peak is at `(3, 2)` -/
theorem again_cc_case (loc : Fin 10 × Fin 9) (hl : loc = (3, 2)) :
    let s : Fin 10 × Fin 9 → ℝ := fun p => if p = (4, 3) then 1 else 0
    (∀ j, j ≠ loc → Spec.xcorr (prep false (realArr s)) (prep false (realArr (Spec.roll2 1 2 s))) j
      < Spec.xcorr (prep false (realArr s)) (prep false (realArr (Spec.roll2 1 2 s))) loc) ∧
    Spec.xcorr (prep false (realArr s)) (prep false (realArr (Spec.roll2 1 2 s))) loc ≠ 0 := by
  intro s
  subst hl
  have hp : prep false (realArr s) = s := by
    rw [prep_real]; funext p; simp
  have hmax := roll_peak s (aperiodic_point _) 1 2 (3, 2) (by norm_num [Spec.zeroLag]) (by norm_num [Spec.zeroLag])
  rw [prep_roll, hp]
  refine ⟨hmax, ?_⟩
  have h2 := hmax (0, 0) (by decide)
  refine (lt_of_le_of_lt ?_ h2).ne'
  unfold Spec.xcorr Spec.roll2
  exact Finset.sum_nonneg fun p _ => by simp only [s]; positivity

/-- C135, non-vacuity of `C135_roll_second`: the star at `(1, 2)` is moved on by `(-2, -3)`; the peak moves from `(3, 2)` to `(5, 5)` and the
answer goes from `(5/2, 1)` to `(-1/2, -1)` (half a pixel of the odd size included). -/
example (cfg : FFTConfig) :
    crossCorrelationShifts cfg none (realArr fun p : Fin 10 × Fin 9 => if p = (4, 3) then 1 else 0)
      (Spec.roll2 (-2) (-3) (realArr (Spec.roll2 1 2 fun p : Fin 10 × Fin 9 => if p = (4, 3) then 1 else 0))) none none none false false
      false false = .ok [.fin (-1 / 2), .fin (-1)] := by
  obtain ⟨c1, c2⟩ := again_cc_case (3, 2) rfl
  rw [C135_roll_second cfg none _ _ none none false false false (3, 2) (5, 5) c1 c2 (by decide) (by decide) (by decide) (by decide)
    (-2) (-3) 0 0 (by decide) (by decide),
    C50_roll cfg none _ (aperiodic_point _) 1 2 (by norm_num) (by norm_num) (by norm_num) (by norm_num) none
      none false false (Or.inr (by norm_num))]
  simp only [Except.map, Spec.movedBy, Spec.addTo]
  norm_num

/-- C135, non-vacuity of `C135_roll_first` -/
example (cfg : FFTConfig) :
    crossCorrelationShifts cfg none (Spec.roll2 2 3 (realArr fun p : Fin 10 × Fin 9 => if p = (4, 3) then 1 else 0))
      (realArr (Spec.roll2 1 2 fun p : Fin 10 × Fin 9 => if p = (4, 3) then 1 else 0)) none none none false false
      false false = .ok [.fin (-1 / 2), .fin (-1)] := by
  obtain ⟨c1, c2⟩ := again_cc_case (3, 2) rfl
  rw [C135_roll_first cfg none _ _ none none false false false (3, 2) (5, 5) c1 c2 (by decide) (by decide) (by decide) (by decide)
    2 3 0 0 (by decide) (by decide),
    C50_roll cfg none _ (aperiodic_point _) 1 2 (by norm_num) (by norm_num) (by norm_num) (by norm_num) none
      none false false (Or.inr (by norm_num))]
  simp only [Except.map, Spec.movedBy, Spec.addTo]
  norm_num

/-- C135, non-vacuity of `C135_measured_again`: the answer `(5/2, 1)` is rounded to `(3, 1)`, the second answer is `(-1/2, 0)` -/
example (cfg : FFTConfig) :
    crossCorrelationShifts cfg none (realArr fun p : Fin 10 × Fin 9 => if p = (4, 3) then 1 else 0)
      (Spec.roll2 (-round (1 : ℝ)) (-round (5 / 2 : ℝ)) (realArr (Spec.roll2 1 2 fun p : Fin 10 × Fin 9 => if p = (4, 3) then 1 else 0)))
      none none none false false false false = .ok [.fin (5 / 2 - round (5 / 2 : ℝ)), .fin (1 - round (1 : ℝ))] := by
  obtain ⟨c1, c2⟩ := again_cc_case (3, 2) rfl
  refine (C135_measured_again cfg none _ _ none none false false (by norm_num) (by norm_num) (3, 2) c1 c2 (by decide) (by decide) (5 / 2) 1
    ?_ ?_ ?_).1
  · rw [C50_roll cfg none _ (aperiodic_point _) 1 2 (by norm_num) (by norm_num) (by norm_num) (by norm_num) none
      none false false (Or.inr (by norm_num))]
    norm_num
  · norm_num [Spec.ccRef, Spec.zeroLag]
  · norm_num [Spec.ccRef, Spec.zeroLag]

/-- C135, non-vacuity of `C135_some_position_fails` -/
example (cfg : FFTConfig) : ∃ dy : ℤ, 0 ≤ dy ∧ dy < (10 : ℕ) ∧
    crossCorrelationShifts cfg none (realArr fun p : Fin 10 × Fin 9 => if p = (4, 3) then 1 else 0)
      (Spec.roll2 dy 0 (realArr (Spec.roll2 1 2 fun p : Fin 10 × Fin 9 => if p = (4, 3) then 1 else 0))) none none none false false
      false false = .error .valueError := by
  obtain ⟨c1, c2⟩ := again_cc_case (3, 2) rfl
  exact C135_some_position_fails cfg none _ _ none none false false false (Or.inr (by norm_num)) (3, 2) c1 c2

end ImgReg
