import Verif.Model.CrossCorr
import Verif.Lemmas.Chi2Recover

/-! # Lemmas about the model of `cross_correlation_shifts` -/

open Finset

namespace ImgReg

/-- an image extended by 0 outside -/
noncomputable def Spec.ext0 {m n : ℕ} (f : Fin m × Fin n → ℝ) (y x : ℤ) : ℝ :=
  if h : (0 ≤ y ∧ y < m) ∧ (0 ≤ x ∧ x < n) then f (⟨y.toNat, by omega⟩, ⟨x.toNat, by omega⟩) else 0

/-- three-point second difference along x -/
noncomputable def Spec.curvX (E : ℤ → ℤ → ℝ) (y x : ℤ) : ℝ := E y (x + 1) + E y (x - 1) - 2 * E y x

/-- three-point second difference along y -/
noncomputable def Spec.curvY (E : ℤ → ℤ → ℝ) (y x : ℤ) : ℝ := E (y + 1) x + E (y - 1) x - 2 * E y x

/-- the usual mixed second difference -/
noncomputable def Spec.mixed (E : ℤ → ℤ → ℝ) (y x : ℤ) : ℝ :=
  (E (y + 1) (x + 1) + E (y - 1) (x - 1) - E (y + 1) (x - 1) - E (y - 1) (x + 1)) / 4

section
variable {m n : ℕ}

theorem ext0_in (f : Fin m × Fin n → ℝ) (i : Fin m × Fin n) :
    Spec.ext0 f ((i.1 : ℕ) : ℤ) ((i.2 : ℕ) : ℤ) = f i := by
  unfold Spec.ext0
  have h1 := i.1.isLt
  have h2 := i.2.isLt
  rw [dif_pos ⟨⟨by omega, by omega⟩, by omega, by omega⟩]
  rfl

theorem ext0_eq (f : Fin m × Fin n → ℝ) {y x : ℤ} (i : Fin m × Fin n) (hy : y = ((i.1 : ℕ) : ℤ))
    (hx : x = ((i.2 : ℕ) : ℤ)) : Spec.ext0 f y x = f i := by
  rw [hy, hx]; exact ext0_in f i

theorem ext0_out (f : Fin m × Fin n → ℝ) {y x : ℤ} (h : y < 0 ∨ (m : ℤ) ≤ y ∨ x < 0 ∨ (n : ℤ) ≤ x) :
    Spec.ext0 f y x = 0 := by
  unfold Spec.ext0
  rw [dif_neg (by omega)]

theorem pred_mod {k j : ℕ} (h : j < k) (h0 : j ≠ 0) : (j + k - 1) % k = j - 1 := by
  rw [show j + k - 1 = (j - 1) + k by omega, Nat.add_mod_right, Nat.mod_eq_of_lt (by omega)]

/-- inside the image, the shifted arrays are the neighbours (0 outside) -/
theorem ext0_shiftRight (f : Fin m × Fin n → ℝ) (y x : ℤ) (hx : x < n) :
    Spec.ext0 (shiftRight f) y x = Spec.ext0 f y (x - 1) := by
  by_cases h : (0 ≤ y ∧ y < m) ∧ (0 ≤ x ∧ x < n)
  · unfold Spec.ext0
    rw [dif_pos h]
    unfold shiftRight
    by_cases hx0 : x = 0
    · rw [if_pos (by simp [hx0]), dif_neg (by omega)]
    · rw [if_neg (by simp only; omega), dif_pos (by omega)]
      congr 2
      apply Fin.ext
      simp only
      rw [pred_mod (by omega) (by omega)]; omega
  · rw [ext0_out _ (by omega), ext0_out _ (by omega)]

theorem ext0_shiftLeft (f : Fin m × Fin n → ℝ) (y x : ℤ) (hx : 0 ≤ x) :
    Spec.ext0 (shiftLeft f) y x = Spec.ext0 f y (x + 1) := by
  by_cases h : (0 ≤ y ∧ y < m) ∧ (0 ≤ x ∧ x < n)
  · unfold Spec.ext0
    rw [dif_pos h]
    unfold shiftLeft
    by_cases hx0 : x = (n : ℤ) - 1
    · rw [if_pos (by simp only; omega), dif_neg (by omega)]
    · rw [if_neg (by simp only; omega), dif_pos (by omega)]
      congr 2
      apply Fin.ext
      simp only
      rw [Nat.mod_eq_of_lt (by omega)]; omega
  · rw [ext0_out _ (by omega), ext0_out _ (by omega)]

theorem ext0_shiftDown (f : Fin m × Fin n → ℝ) (y x : ℤ) (hy : y < m) :
    Spec.ext0 (shiftDown f) y x = Spec.ext0 f (y - 1) x := by
  by_cases h : (0 ≤ y ∧ y < m) ∧ (0 ≤ x ∧ x < n)
  · unfold Spec.ext0
    rw [dif_pos h]
    unfold shiftDown
    by_cases hx0 : y = 0
    · rw [if_pos (by simp [hx0]), dif_neg (by omega)]
    · rw [if_neg (by simp only; omega), dif_pos (by omega)]
      congr 2
      apply Fin.ext
      simp only
      rw [pred_mod (by omega) (by omega)]; omega
  · rw [ext0_out _ (by omega), ext0_out _ (by omega)]

theorem ext0_shiftUp (f : Fin m × Fin n → ℝ) (y x : ℤ) (hy : 0 ≤ y) :
    Spec.ext0 (shiftUp f) y x = Spec.ext0 f (y + 1) x := by
  by_cases h : (0 ≤ y ∧ y < m) ∧ (0 ≤ x ∧ x < n)
  · unfold Spec.ext0
    rw [dif_pos h]
    unfold shiftUp
    by_cases hx0 : y = (m : ℤ) - 1
    · rw [if_pos (by simp only; omega), dif_neg (by omega)]
    · rw [if_neg (by simp only; omega), dif_pos (by omega)]
      congr 2
      apply Fin.ext
      simp only
      rw [Nat.mod_eq_of_lt (by omega)]; omega
  · rw [ext0_out _ (by omega), ext0_out _ (by omega)]

theorem secondDerivative_eq (f : Fin m × Fin n → ℝ) (i : Fin m × Fin n) :
    (secondDerivative f).dxx i = Spec.curvX (Spec.ext0 f) ((i.1 : ℕ) : ℤ) ((i.2 : ℕ) : ℤ) ∧
    (secondDerivative f).dyy i = Spec.curvY (Spec.ext0 f) ((i.1 : ℕ) : ℤ) ((i.2 : ℕ) : ℤ) ∧
    (secondDerivative f).dxy i = -Spec.mixed (Spec.ext0 f) ((i.1 : ℕ) : ℤ) ((i.2 : ℕ) : ℤ) := by
  have h1 := i.1.isLt
  have h2 := i.2.isLt
  unfold secondDerivative Spec.curvX Spec.curvY Spec.mixed
  simp only
  rw [← ext0_in f i, ← ext0_in (shiftRight f) i, ← ext0_in (shiftLeft f) i, ← ext0_in (shiftUp f) i,
    ← ext0_in (shiftDown f) i, ← ext0_in (shiftRight (shiftUp f)) i, ← ext0_in (shiftLeft (shiftDown f)) i,
    ← ext0_in (shiftUp (shiftLeft f)) i, ← ext0_in (shiftDown (shiftRight f)) i,
    ext0_shiftRight (shiftUp f) _ _ (by omega), ext0_shiftLeft (shiftDown f) _ _ (by omega),
    ext0_shiftUp (shiftLeft f) _ _ (by omega), ext0_shiftDown (shiftRight f) _ _ (by omega),
    ext0_shiftRight f _ _ (by omega), ext0_shiftLeft f _ _ (by omega), ext0_shiftUp f _ _ (by omega),
    ext0_shiftDown f _ _ (by omega), ext0_shiftUp f _ _ (by omega), ext0_shiftDown f _ _ (by omega),
    ext0_shiftLeft f _ _ (by omega), ext0_shiftRight f _ _ (by omega)]
  refine ⟨by ring, by ring, by ring⟩

/-! ### the 3×3 neighbourhood -/

theorem pySlice_local (n i : ℕ) (hi : i < n) (h0 : 1 ≤ i) :
    pySlice n ((i : ℤ) - 1) ((i : ℤ) + 2) = (i - 1, if i + 1 < n then 3 else 2) := by
  unfold pySlice
  simp only
  rw [if_neg (by omega), if_neg (by omega)]
  have e1 : min (((i : ℤ) - 1).toNat) n = i - 1 := by omega
  have e2 : min (((i : ℤ) + 2).toNat) n = if i + 1 < n then i + 2 else i + 1 := by
    split_ifs <;> omega
  rw [e1, e2]
  congr 1
  split_ifs <;> omega

theorem pySlice_zero (n : ℕ) (hn : 0 < n) :
    (pySlice n (((0 : ℕ) : ℤ) - 1) (((0 : ℕ) : ℤ) + 2)).2 < 2 := by
  have e : pySlice n (((0 : ℕ) : ℤ) - 1) (((0 : ℕ) : ℤ) + 2) = pySlice n (-1) 2 := by norm_num
  rw [e]
  unfold pySlice
  simp only
  rw [if_neg (by omega), if_pos (by omega)]
  omega

/-- slope along x at a peak which is not in the first column: central difference, backward in the last -/
noncomputable def Spec.slopeX (n : ℕ) (E : ℤ → ℤ → ℝ) (y x : ℤ) : ℝ :=
  if x + 1 < n then (E y (x + 1) - E y (x - 1)) / 2 else E y x - E y (x - 1)

/-- slope along y -/
noncomputable def Spec.slopeY (m : ℕ) (E : ℤ → ℤ → ℝ) (y x : ℤ) : ℝ :=
  if y + 1 < m then (E (y + 1) x - E (y - 1) x) / 2 else E y x - E (y - 1) x

/-- the derivatives that the Taylor step uses, all finite-difference quotients of the map around the peak -/
theorem local_derivs (c : Fin m × Fin n → ℝ) (loc : Fin m × Fin n) (hy : 1 ≤ (loc.1 : ℕ))
    (hx : 1 ≤ (loc.2 : ℕ)) :
    ∃ d1y d1x, npGradient (localValues c loc.1 loc.2) = .ok (d1y, d1x) ∧
      at11 d1x = .ok (Spec.slopeX n (Spec.ext0 c) ((loc.1 : ℕ) : ℤ) ((loc.2 : ℕ) : ℤ)) ∧
      at11 d1y = .ok (Spec.slopeY m (Spec.ext0 c) ((loc.1 : ℕ) : ℤ) ((loc.2 : ℕ) : ℤ)) ∧
      at11 (secondDerivative (localValues c loc.1 loc.2)).dxx
        = .ok (Spec.curvX (Spec.ext0 c) ((loc.1 : ℕ) : ℤ) ((loc.2 : ℕ) : ℤ)) ∧
      at11 (secondDerivative (localValues c loc.1 loc.2)).dyy
        = .ok (Spec.curvY (Spec.ext0 c) ((loc.1 : ℕ) : ℤ) ((loc.2 : ℕ) : ℤ)) ∧
      at11 (secondDerivative (localValues c loc.1 loc.2)).dxy
        = .ok (-Spec.mixed (Spec.ext0 c) ((loc.1 : ℕ) : ℤ) ((loc.2 : ℕ) : ℤ)) := by
  have sy := pySlice_local m loc.1 loc.1.isLt hy
  have sx := pySlice_local n loc.2 loc.2.isLt hx
  have ly := loc.1.isLt
  have lx := loc.2.isLt
  -- the local array, extended by 0, is the map around the peak, extended by 0
  have hloc : ∀ a b : ℤ, -1 ≤ a → a ≤ 1 → -1 ≤ b → b ≤ 1 →
      Spec.ext0 (localValues c loc.1 loc.2) (1 + a) (1 + b)
        = Spec.ext0 c (((loc.1 : ℕ) : ℤ) + a) (((loc.2 : ℕ) : ℤ) + b) := by
    intro a b ha1 ha2 hb1 hb2
    have hiff : ((0 ≤ 1 + a ∧ 1 + a < ((pySlice m (((loc.1 : ℕ) : ℤ) - 1) (((loc.1 : ℕ) : ℤ) + 2)).2 : ℕ)) ∧
        (0 ≤ 1 + b ∧ 1 + b < ((pySlice n (((loc.2 : ℕ) : ℤ) - 1) (((loc.2 : ℕ) : ℤ) + 2)).2 : ℕ))) ↔
        ((0 ≤ ((loc.1 : ℕ) : ℤ) + a ∧ ((loc.1 : ℕ) : ℤ) + a < m) ∧
          (0 ≤ ((loc.2 : ℕ) : ℤ) + b ∧ ((loc.2 : ℕ) : ℤ) + b < n)) := by
      rw [sy, sx]
      simp only
      split_ifs <;> push_cast <;> omega
    unfold Spec.ext0
    by_cases h : ((0 ≤ ((loc.1 : ℕ) : ℤ) + a ∧ ((loc.1 : ℕ) : ℤ) + a < m) ∧
          (0 ≤ ((loc.2 : ℕ) : ℤ) + b ∧ ((loc.2 : ℕ) : ℤ) + b < n))
    · rw [dif_pos h, dif_pos (hiff.2 h)]
      unfold localValues
      congr 2
      · apply Fin.ext
        simp only [sy]; omega
      · apply Fin.ext
        simp only [sx]; omega
    · rw [dif_neg h, dif_neg (fun hc => h (hiff.1 hc))]
  have h11 : 1 < (pySlice m (((loc.1 : ℕ) : ℤ) - 1) (((loc.1 : ℕ) : ℤ) + 2)).2 ∧
      1 < (pySlice n (((loc.2 : ℕ) : ℤ) - 1) (((loc.2 : ℕ) : ℤ) + 2)).2 := by
    rw [sy, sx]; simp only; split_ifs <;> omega
  have h1a : ∀ a : ℤ, -1 ≤ a → a ≤ 1 → Spec.ext0 (localValues c loc.1 loc.2) (1 + a) 1
        = Spec.ext0 c (((loc.1 : ℕ) : ℤ) + a) ((loc.2 : ℕ) : ℤ) := by
    intro a h1 h2
    have := hloc a 0 h1 h2 (by omega) (by omega)
    simpa using this
  have h1b : ∀ b : ℤ, -1 ≤ b → b ≤ 1 → Spec.ext0 (localValues c loc.1 loc.2) 1 (1 + b)
        = Spec.ext0 c ((loc.1 : ℕ) : ℤ) (((loc.2 : ℕ) : ℤ) + b) := by
    intro b h1 h2
    have := hloc 0 b (by omega) (by omega) h1 h2
    simpa using this
  have h100 : Spec.ext0 (localValues c loc.1 loc.2) 1 1
        = Spec.ext0 c ((loc.1 : ℕ) : ℤ) ((loc.2 : ℕ) : ℤ) := by
    have := h1b 0 (by omega) (by omega)
    simpa using this
  obtain ⟨e1, e2, e3⟩ := secondDerivative_eq (localValues c loc.1 loc.2) (⟨1, h11.1⟩, ⟨1, h11.2⟩)
  simp only [Nat.cast_one] at e1 e2 e3
  -- neighbours inside the local array
  have nb : ∀ (a b : ℤ) (r : Fin _) (s : Fin _), ((r : ℕ) : ℤ) = 1 + a → ((s : ℕ) : ℤ) = 1 + b →
      -1 ≤ a → a ≤ 1 → -1 ≤ b → b ≤ 1 →
      localValues c loc.1 loc.2 (r, s) = Spec.ext0 c (((loc.1 : ℕ) : ℤ) + a) (((loc.2 : ℕ) : ℤ) + b) := by
    intro a b r s hr hs h1 h2 h3 h4
    rw [← hloc a b h1 h2 h3 h4]
    exact (ext0_eq _ (r, s) hr.symm hs.symm).symm
  refine ⟨_, _, by unfold npGradient; rw [dif_pos ⟨h11.1, h11.2⟩], ?_, ?_, ?_, ?_, ?_⟩
  · unfold at11
    rw [dif_pos h11]
    congr 1
    unfold gradient1 Spec.slopeX
    simp only
    rw [if_neg one_ne_zero]
    by_cases hc : (loc.2 : ℕ) + 1 < n
    · have hl : (1 + 1 < (pySlice n (((loc.2 : ℕ) : ℤ) - 1) (((loc.2 : ℕ) : ℤ) + 2)).2) := by
        rw [sx]; simp only [hc, if_true]; omega
      rw [dif_pos hl, if_pos (by omega)]
      rw [nb 0 1 _ _ (by simp) (by simp) (by omega) (by omega) (by omega) (by omega),
        nb 0 (-1) _ _ (by simp) (by simp) (by omega) (by omega) (by omega) (by omega)]
      rw [add_zero]; rfl
    · have hl : ¬ (1 + 1 < (pySlice n (((loc.2 : ℕ) : ℤ) - 1) (((loc.2 : ℕ) : ℤ) + 2)).2) := by
        rw [sx]; simp only [hc, if_false]; omega
      rw [dif_neg hl, if_neg (by omega)]
      rw [nb 0 0 _ _ (by simp) (by simp) (by omega) (by omega) (by omega) (by omega),
        nb 0 (-1) _ _ (by simp) (by simp) (by omega) (by omega) (by omega) (by omega)]
      rw [add_zero, add_zero]; rfl
  · unfold at11
    rw [dif_pos h11]
    congr 1
    unfold gradient1 Spec.slopeY
    simp only
    rw [if_neg one_ne_zero]
    by_cases hc : (loc.1 : ℕ) + 1 < m
    · have hl : (1 + 1 < (pySlice m (((loc.1 : ℕ) : ℤ) - 1) (((loc.1 : ℕ) : ℤ) + 2)).2) := by
        rw [sy]; simp only [hc, if_true]; omega
      rw [dif_pos hl, if_pos (by omega)]
      rw [nb 1 0 _ _ (by simp) (by simp) (by omega) (by omega) (by omega) (by omega),
        nb (-1) 0 _ _ (by simp) (by simp) (by omega) (by omega) (by omega) (by omega)]
      rw [add_zero]; rfl
    · have hl : ¬ (1 + 1 < (pySlice m (((loc.1 : ℕ) : ℤ) - 1) (((loc.1 : ℕ) : ℤ) + 2)).2) := by
        rw [sy]; simp only [hc, if_false]; omega
      rw [dif_neg hl, if_neg (by omega)]
      rw [nb 0 0 _ _ (by simp) (by simp) (by omega) (by omega) (by omega) (by omega),
        nb (-1) 0 _ _ (by simp) (by simp) (by omega) (by omega) (by omega) (by omega)]
      rw [add_zero, add_zero]; rfl
  · unfold at11
    rw [dif_pos h11, e1]
    unfold Spec.curvX
    rw [h1b 1 (by omega) (by omega), show (1 : ℤ) - 1 = 1 + -1 by ring, h1b (-1) (by omega) (by omega), h100]
    rfl
  · unfold at11
    rw [dif_pos h11, e2]
    unfold Spec.curvY
    rw [h1a 1 (by omega) (by omega), show (1 : ℤ) - 1 = 1 + -1 by ring, h1a (-1) (by omega) (by omega), h100]
    rfl
  · unfold at11
    rw [dif_pos h11, e3]
    unfold Spec.mixed
    rw [show (1 : ℤ) - 1 = 1 + -1 by ring, hloc 1 1 (by omega) (by omega) (by omega) (by omega),
      hloc (-1) (-1) (by omega) (by omega) (by omega) (by omega),
      hloc 1 (-1) (by omega) (by omega) (by omega) (by omega),
      hloc (-1) 1 (by omega) (by omega) (by omega) (by omega)]
    rfl

end

/-! ### the whole function -/

section
variable {ny nx : ℕ} [NeZero ny] [NeZero nx]

/-- the correlation map of `cross_correlation_shifts` -/
noncomputable def Spec.ccMap (a b : Fin ny × Fin nx → ℝ) : Fin ny × Fin nx → ℝ := fun i =>
  Spec.xcorr a b i / ((ny * nx : ℕ) : ℝ)

theorem ccShifts_eq (cfg : FFTConfig) (agpy : Agpy ny nx) (im1 im2 : Fin ny × Fin nx → Pix)
    (e1 e2 : Option (Fin ny × Fin nx → Pix)) (mo : Option ℕ) (g re zm ah : Bool) (h : Spec.fits ah ny nx) :
    crossCorrelationShifts cfg agpy im1 im2 e1 e2 mo g re zm ah
      = ccFromMap cfg ah agpy (prep zm im1) (prep zm im2) (Spec.ccMap (prep zm im1) (prep zm im2))
          e1 e2 mo g re := by
  unfold crossCorrelationShifts
  rw [dif_pos ⟨rfl, rfl⟩]
  unfold ccShiftsBody
  have e := correlate2d_nan0 cfg ah h (Np.nanToNum (if zm then subPix im1 (nanMean im1) else im1))
    (Np.nanToNum (if zm then subPix im2 (nanMean im2) else im2))
  simp only [Fin.cast_eq_self, Prod.mk.eta, e, bind, Except.bind, finiteVals_realArr, finiteVals_nanToNum]
  rw [prep_def, prep_def]
  rfl

theorem errCorr_ok (cfg : FFTConfig) (ah : Bool) (h : Spec.fits ah ny nx) (a b : Fin ny × Fin nx → ℝ)
    (e1 e2 : Option (Fin ny × Fin nx → Pix)) : ∃ m, errCorr cfg ah a b e1 e2 = .ok m := by
  unfold errCorr
  simp only [correlate2d_nan0 cfg ah h, bind, Except.bind, pure, Except.pure]
  exact ⟨_, rfl⟩

/-- `ccFromMap` without Gaussian fit for a peak which is not in the first row or column -/
theorem ccFromMap_eq (cfg : FFTConfig) (ah : Bool) (hf : Spec.fits ah ny nx) (agpy : Agpy ny nx)
    (a b c : Fin ny × Fin nx → ℝ)
    (e1 e2 : Option (Fin ny × Fin nx → Pix)) (re : Bool)
    (h0 : c (Np.argmax c) ≠ 0) (hy : 1 ≤ ((Np.argmax c).1 : ℕ)) (hx : 1 ≤ ((Np.argmax c).2 : ℕ))
    (y x : ℤ) (hY : y = (((Np.argmax c).1 : ℕ) : ℤ)) (hX : x = (((Np.argmax c).2 : ℕ) : ℤ))
    (X Y M fx fy : ℝ) (eX : X = Spec.curvX (Spec.ext0 c) y x) (eY : Y = Spec.curvY (Spec.ext0 c) y x)
    (eM : M = Spec.mixed (Spec.ext0 c) y x) (efx : fx = Spec.slopeX nx (Spec.ext0 c) y x)
    (efy : fy = Spec.slopeY ny (Spec.ext0 c) y x) :
    ccFromMap cfg ah agpy a b c e1 e2 none false re =
      (let shifts := [Fl.negAdd ((x : ℝ) - ccCentre nx) (Fl.div (X * fx + M * fy) (M ^ 2 - X * Y)),
          Fl.negAdd ((y : ℝ) - ccCentre ny) (Fl.div (Y * fy + M * fx) (M ^ 2 - X * Y))]
       if re then
        let norm := 1 / ((∑ i, a i ^ 2) / ((ny * nx : ℕ) : ℝ)) / ((∑ i, b i ^ 2) / ((ny * nx : ℕ) : ℝ))
        match zuckerError ((ny * nx : ℕ) : ℝ) Y norm (c (Np.argmax c) * norm) with
        | .nan => .error .valueError
        | ex => .ok (shifts ++ [ex, zuckerError ((ny * nx : ℕ) : ℝ) X norm (c (Np.argmax c) * norm)])
       else .ok shifts) := by
  obtain ⟨d1y, d1x, g0, g1, g2, g3, g4, g5⟩ := local_derivs c (Np.argmax c) hy hx
  rw [hY, hX] at eX eY eM efx efy
  rw [← efx] at g1
  rw [← efy] at g2
  rw [← eX] at g3
  rw [← eY] at g4
  rw [← eM] at g5
  obtain ⟨m, hm⟩ := errCorr_ok cfg ah hf a b e1 e2
  have r1 : Y * X = X * Y := mul_comm _ _
  have r2 : X * fx - fy * -M = X * fx + M * fy := by ring
  have r3 : Y * fy - fx * -M = Y * fy + M * fx := by ring
  have r4 : (-M) ^ 2 = M ^ 2 := by ring
  have hX' : (((Np.argmax c).2 : ℕ) : ℝ) = (x : ℝ) := by rw [hX, Int.cast_natCast]
  have hY' : (((Np.argmax c).1 : ℕ) : ℝ) = (y : ℝ) := by rw [hY, Int.cast_natCast]
  unfold ccFromMap
  cases re with
  | false =>
    simp only [h0, if_false, Option.isSome_none, Bool.false_eq_true, bind, Except.bind, pure, Except.pure,
      g0, g1, g2, g3, g4, g5, r1, r2, r3, r4, hX', hY']
  | true =>
    simp only [h0, if_false, Option.isSome_none, Bool.false_eq_true, bind, Except.bind, pure, Except.pure,
      g0, g1, g2, g3, g4, g5, r1, r2, r3, r4, hX', hY', hm, Except.map, if_true]
    split <;> simp_all

end

end ImgReg
