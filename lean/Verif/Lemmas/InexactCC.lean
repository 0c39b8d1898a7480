import Verif.Model.InexactCC
import Verif.Lemmas.InexactChi2
import Verif.Lemmas.CrossCorr
import Verif.Props.CrossCorr

/-! Lemmas for `cross_correlation_shifts` in inexact arithmetic. -/

open Finset

namespace ImgReg

section
variable {m n : ℕ}

/-- the local array, extended by 0, is the map around the peak, extended by 0 -/
theorem ext0_local (c : Fin m × Fin n → ℝ) (loc : Fin m × Fin n) (hy : 1 ≤ (loc.1 : ℕ)) (hx : 1 ≤ (loc.2 : ℕ)) (a b : ℤ)
    (ha1 : -1 ≤ a) (ha2 : a ≤ 1) (hb1 : -1 ≤ b) (hb2 : b ≤ 1) :
    Spec.ext0 (localValues c loc.1 loc.2) (1 + a) (1 + b) = Spec.ext0 c (((loc.1 : ℕ) : ℤ) + a) (((loc.2 : ℕ) : ℤ) + b) := by
  have sy := pySlice_local m loc.1 loc.1.isLt hy
  have sx := pySlice_local n loc.2 loc.2.isLt hx
  have ly := loc.1.isLt
  have lx := loc.2.isLt
  have hiff : ((0 ≤ 1 + a ∧ 1 + a < ((pySlice m (((loc.1 : ℕ) : ℤ) - 1) (((loc.1 : ℕ) : ℤ) + 2)).2 : ℕ)) ∧
      (0 ≤ 1 + b ∧ 1 + b < ((pySlice n (((loc.2 : ℕ) : ℤ) - 1) (((loc.2 : ℕ) : ℤ) + 2)).2 : ℕ))) ↔
      ((0 ≤ ((loc.1 : ℕ) : ℤ) + a ∧ ((loc.1 : ℕ) : ℤ) + a < m) ∧
        (0 ≤ ((loc.2 : ℕ) : ℤ) + b ∧ ((loc.2 : ℕ) : ℤ) + b < n)) := by
    rw [sy, sx]
    simp only
    split_ifs <;> push_cast <;> omega
  unfold Spec.ext0
  by_cases h : ((0 ≤ ((loc.1 : ℕ) : ℤ) + a ∧ ((loc.1 : ℕ) : ℤ) + a < m) ∧
        (0 ≤ ((loc.2 : ℕ) : ℤ) + b ∧ ((loc.2 : ℕ) : ℤ) + b < n))
  · rw [dif_pos h, dif_pos (hiff.2 h)]
    unfold localValues
    congr 2
    · apply Fin.ext
      simp only [sy]; omega
    · apply Fin.ext
      simp only [sx]; omega
  · rw [dif_neg h, dif_neg (fun hc => h (hiff.1 hc))]

/-- the computed derivatives of the map `E` at `(y, x)`; `M` has the opposite sign of the mixed derivative -/
noncomputable def localFitA (A : Chi2Arith) (ny nx : ℕ) (E : ℤ → ℤ → ℝ) (y x : ℤ) : Spec.LocalFit where
  X := A.sub (A.addR (E y (x - 1)) (E y (x + 1))) (2 * E y x)
  Y := A.sub (A.addR (E (y + 1) x) (E (y - 1) x)) (2 * E y x)
  M := 0.25 * A.sub (A.sub (A.addR (E (y + 1) (x - 1)) (E (y - 1) (x + 1))) (E (y + 1) (x + 1))) (E (y - 1) (x - 1))
  fx := if x + 1 < nx then A.sub (E y (x + 1)) (E y (x - 1)) / 2 else A.sub (E y x) (E y (x - 1))
  fy := if y + 1 < ny then A.sub (E (y + 1) x) (E (y - 1) x) / 2 else A.sub (E y x) (E (y - 1) x)

theorem secondDerivativeA_eq (A : Chi2Arith) (f : Fin m × Fin n → ℝ) (i : Fin m × Fin n) :
    (secondDerivativeA A f).dxx i = (localFitA A m n (Spec.ext0 f) ((i.1 : ℕ) : ℤ) ((i.2 : ℕ) : ℤ)).X ∧
    (secondDerivativeA A f).dyy i = (localFitA A m n (Spec.ext0 f) ((i.1 : ℕ) : ℤ) ((i.2 : ℕ) : ℤ)).Y ∧
    (secondDerivativeA A f).dxy i = (localFitA A m n (Spec.ext0 f) ((i.1 : ℕ) : ℤ) ((i.2 : ℕ) : ℤ)).M := by
  have h1 := i.1.isLt
  have h2 := i.2.isLt
  unfold secondDerivativeA localFitA
  simp only
  rw [← ext0_in f i, ← ext0_in (shiftRight f) i, ← ext0_in (shiftLeft f) i, ← ext0_in (shiftUp f) i,
    ← ext0_in (shiftDown f) i, ← ext0_in (shiftRight (shiftUp f)) i, ← ext0_in (shiftLeft (shiftDown f)) i,
    ← ext0_in (shiftUp (shiftLeft f)) i, ← ext0_in (shiftDown (shiftRight f)) i,
    ext0_shiftRight (shiftUp f) _ _ (by omega), ext0_shiftLeft (shiftDown f) _ _ (by omega),
    ext0_shiftUp (shiftLeft f) _ _ (by omega), ext0_shiftDown (shiftRight f) _ _ (by omega),
    ext0_shiftRight f _ _ (by omega), ext0_shiftLeft f _ _ (by omega), ext0_shiftUp f _ _ (by omega),
    ext0_shiftDown f _ _ (by omega), ext0_shiftUp f _ _ (by omega), ext0_shiftDown f _ _ (by omega),
    ext0_shiftLeft f _ _ (by omega), ext0_shiftRight f _ _ (by omega)]
  refine ⟨rfl, rfl, rfl⟩

theorem local_derivsA (A : Chi2Arith) (c : Fin m × Fin n → ℝ) (loc : Fin m × Fin n) (hy : 1 ≤ (loc.1 : ℕ)) (hx : 1 ≤ (loc.2 : ℕ))
    (q : Spec.LocalFit) (hq : q = localFitA A m n (Spec.ext0 c) ((loc.1 : ℕ) : ℤ) ((loc.2 : ℕ) : ℤ)) :
    ∃ d1y d1x, npGradientA A (localValues c loc.1 loc.2) = .ok (d1y, d1x) ∧ at11 d1x = .ok q.fx ∧ at11 d1y = .ok q.fy ∧
      at11 (secondDerivativeA A (localValues c loc.1 loc.2)).dxx = .ok q.X ∧
      at11 (secondDerivativeA A (localValues c loc.1 loc.2)).dyy = .ok q.Y ∧
      at11 (secondDerivativeA A (localValues c loc.1 loc.2)).dxy = .ok q.M := by
  subst hq
  have sy := pySlice_local m loc.1 loc.1.isLt hy
  have sx := pySlice_local n loc.2 loc.2.isLt hx
  have ly := loc.1.isLt
  have lx := loc.2.isLt
  have hloc := ext0_local c loc hy hx
  have h11 : 1 < (pySlice m (((loc.1 : ℕ) : ℤ) - 1) (((loc.1 : ℕ) : ℤ) + 2)).2 ∧
      1 < (pySlice n (((loc.2 : ℕ) : ℤ) - 1) (((loc.2 : ℕ) : ℤ) + 2)).2 := by
    rw [sy, sx]; simp only; split_ifs <;> omega
  have h1a : ∀ a : ℤ, -1 ≤ a → a ≤ 1 → Spec.ext0 (localValues c loc.1 loc.2) (1 + a) 1
        = Spec.ext0 c (((loc.1 : ℕ) : ℤ) + a) ((loc.2 : ℕ) : ℤ) := by
    intro a h1 h2
    have := hloc a 0 h1 h2 (by omega) (by omega)
    simpa using this
  have h1b : ∀ b : ℤ, -1 ≤ b → b ≤ 1 → Spec.ext0 (localValues c loc.1 loc.2) 1 (1 + b)
        = Spec.ext0 c ((loc.1 : ℕ) : ℤ) (((loc.2 : ℕ) : ℤ) + b) := by
    intro b h1 h2
    have := hloc 0 b (by omega) (by omega) h1 h2
    simpa using this
  have h100 : Spec.ext0 (localValues c loc.1 loc.2) 1 1
        = Spec.ext0 c ((loc.1 : ℕ) : ℤ) ((loc.2 : ℕ) : ℤ) := by
    have := h1b 0 (by omega) (by omega)
    simpa using this
  obtain ⟨e1, e2, e3⟩ := secondDerivativeA_eq A (localValues c loc.1 loc.2) (⟨1, h11.1⟩, ⟨1, h11.2⟩)
  simp only [Nat.cast_one] at e1 e2 e3
  have nb : ∀ (a b : ℤ) (r : Fin _) (s : Fin _), ((r : ℕ) : ℤ) = 1 + a → ((s : ℕ) : ℤ) = 1 + b →
      -1 ≤ a → a ≤ 1 → -1 ≤ b → b ≤ 1 →
      localValues c loc.1 loc.2 (r, s) = Spec.ext0 c (((loc.1 : ℕ) : ℤ) + a) (((loc.2 : ℕ) : ℤ) + b) := by
    intro a b r s hr hs h1 h2 h3 h4
    rw [← hloc a b h1 h2 h3 h4]
    exact (ext0_eq _ (r, s) hr.symm hs.symm).symm
  refine ⟨_, _, by unfold npGradientA; rw [dif_pos ⟨h11.1, h11.2⟩], ?_, ?_, ?_, ?_, ?_⟩
  · unfold at11
    rw [dif_pos h11]
    congr 1
    unfold gradient1A localFitA
    simp only
    rw [if_neg one_ne_zero]
    by_cases hc : (loc.2 : ℕ) + 1 < n
    · have hl : (1 + 1 < (pySlice n (((loc.2 : ℕ) : ℤ) - 1) (((loc.2 : ℕ) : ℤ) + 2)).2) := by
        rw [sx]; simp only [hc, if_true]; omega
      rw [dif_pos hl, if_pos (by omega)]
      rw [nb 0 1 _ _ (by simp) (by simp) (by omega) (by omega) (by omega) (by omega),
        nb 0 (-1) _ _ (by simp) (by simp) (by omega) (by omega) (by omega) (by omega)]
      rw [add_zero]; rfl
    · have hl : ¬ (1 + 1 < (pySlice n (((loc.2 : ℕ) : ℤ) - 1) (((loc.2 : ℕ) : ℤ) + 2)).2) := by
        rw [sx]; simp only [hc, if_false]; omega
      rw [dif_neg hl, if_neg (by omega)]
      rw [nb 0 0 _ _ (by simp) (by simp) (by omega) (by omega) (by omega) (by omega),
        nb 0 (-1) _ _ (by simp) (by simp) (by omega) (by omega) (by omega) (by omega)]
      rw [add_zero, add_zero]; rfl
  · unfold at11
    rw [dif_pos h11]
    congr 1
    unfold gradient1A localFitA
    simp only
    rw [if_neg one_ne_zero]
    by_cases hc : (loc.1 : ℕ) + 1 < m
    · have hl : (1 + 1 < (pySlice m (((loc.1 : ℕ) : ℤ) - 1) (((loc.1 : ℕ) : ℤ) + 2)).2) := by
        rw [sy]; simp only [hc, if_true]; omega
      rw [dif_pos hl, if_pos (by omega)]
      rw [nb 1 0 _ _ (by simp) (by simp) (by omega) (by omega) (by omega) (by omega),
        nb (-1) 0 _ _ (by simp) (by simp) (by omega) (by omega) (by omega) (by omega)]
      rw [add_zero]; rfl
    · have hl : ¬ (1 + 1 < (pySlice m (((loc.1 : ℕ) : ℤ) - 1) (((loc.1 : ℕ) : ℤ) + 2)).2) := by
        rw [sy]; simp only [hc, if_false]; omega
      rw [dif_neg hl, if_neg (by omega)]
      rw [nb 0 0 _ _ (by simp) (by simp) (by omega) (by omega) (by omega) (by omega),
        nb (-1) 0 _ _ (by simp) (by simp) (by omega) (by omega) (by omega) (by omega)]
      rw [add_zero, add_zero]; rfl
  · unfold at11
    rw [dif_pos h11, e1]
    unfold localFitA
    simp only
    rw [h1b 1 (by omega) (by omega), show (1 : ℤ) - 1 = 1 + -1 by ring, h1b (-1) (by omega) (by omega), h100]
    rfl
  · unfold at11
    rw [dif_pos h11, e2]
    unfold localFitA
    simp only
    rw [h1a 1 (by omega) (by omega), show (1 : ℤ) - 1 = 1 + -1 by ring, h1a (-1) (by omega) (by omega), h100]
    rfl
  · unfold at11
    rw [dif_pos h11, e3]
    unfold localFitA
    simp only
    rw [show (1 : ℤ) - 1 = 1 + -1 by ring, hloc 1 1 (by omega) (by omega) (by omega) (by omega),
      hloc (-1) (-1) (by omega) (by omega) (by omega) (by omega),
      hloc 1 (-1) (by omega) (by omega) (by omega) (by omega),
      hloc (-1) 1 (by omega) (by omega) (by omega) (by omega)]
    rfl

end

section
variable {ny nx : ℕ} [NeZero ny] [NeZero nx]

theorem ccFitA_eq (A : Chi2Arith) (c : Fin ny × Fin nx → ℝ) (h0 : c (Np.argmax c) ≠ 0) (hy : 1 ≤ ((Np.argmax c).1 : ℕ))
    (hx : 1 ≤ ((Np.argmax c).2 : ℕ)) (q : Spec.LocalFit)
    (hq : q = localFitA A ny nx (Spec.ext0 c) (((Np.argmax c).1 : ℕ) : ℤ) (((Np.argmax c).2 : ℕ) : ℤ)) :
    ccFitA A c = .ok
      [negAddA A ((((Np.argmax c).2 : ℕ) : ℝ) - ccCentre nx)
        (divFlA A (A.sub (A.mulR q.X q.fx) (A.mulR q.fy q.M)) (A.sub (A.mulR q.M q.M) (A.mulR q.Y q.X))),
       negAddA A ((((Np.argmax c).1 : ℕ) : ℝ) - ccCentre ny)
        (divFlA A (A.sub (A.mulR q.Y q.fy) (A.mulR q.fx q.M)) (A.sub (A.mulR q.M q.M) (A.mulR q.Y q.X)))] := by
  obtain ⟨d1y, d1x, g0, g1, g2, g3, g4, g5⟩ := local_derivsA A c (Np.argmax c) hy hx q hq
  unfold ccFitA
  simp only [h0, if_false, bind, Except.bind, g0, g1, g2, g3, g4, g5]

theorem ccFitA_zero (A : Chi2Arith) (c : Fin ny × Fin nx → ℝ) (h0 : c (Np.argmax c) = 0) : ccFitA A c = .ok [.fin 0, .fin 0] := by
  unfold ccFitA
  simp only [h0, if_true]

theorem ccFitA_edge (A : Chi2Arith) (c : Fin ny × Fin nx → ℝ) (h0 : c (Np.argmax c) ≠ 0)
    (h : ((Np.argmax c).1 : ℕ) = 0 ∨ ((Np.argmax c).2 : ℕ) = 0) : ccFitA A c = .error .valueError := by
  have hg : npGradientA A (localValues c (Np.argmax c).1 (Np.argmax c).2) = .error .valueError := by
    unfold npGradientA
    rw [dif_neg]
    rintro ⟨h1, h2⟩
    rcases h with h | h
    · rw [h] at h1
      have := pySlice_zero ny (Nat.pos_of_ne_zero (NeZero.ne ny)); omega
    · rw [h] at h2
      have := pySlice_zero nx (Nat.pos_of_ne_zero (NeZero.ne nx)); omega
  unfold ccFitA
  simp only [h0, if_false, bind, Except.bind, hg]

end

section
variable {A : Chi2Arith} {δ : ℝ} (hA : Spec.Chi2Accurate A δ)
include hA

theorem Near.addA {x' x y' y B' B C' C : ℝ} (h : Near x' x B' B) (k : Near y' y C' C) :
    Near (A.addR x' y') (x + y) ((1 + δ) * (B' + C')) (B + C) := (h.add k).step hA.nonneg (hA.addR _ _)

omit hA in
theorem Near.neg {x' x B' B : ℝ} (h : Near x' x B' B) : Near (-x') (-x) B' B :=
  ⟨by rw [abs_neg]; exact h.le', by rw [abs_neg]; exact h.le, by
    rw [show -x' - -x = -(x' - x) by ring, abs_neg]; exact h.dist⟩

omit hA in
theorem Near.scale {x' x B' B : ℝ} (s : ℝ) (hs : 0 ≤ s) (h : Near x' x B' B) : Near (s * x') (s * x) (s * B') (s * B) := by
  refine ⟨?_, ?_, ?_⟩
  · rw [abs_mul, abs_of_nonneg hs]; exact mul_le_mul_of_nonneg_left h.le' hs
  · rw [abs_mul, abs_of_nonneg hs]; exact mul_le_mul_of_nonneg_left h.le hs
  · rw [← mul_sub, abs_mul, abs_of_nonneg hs, ← mul_sub]; exact mul_le_mul_of_nonneg_left h.dist hs

theorem Near.subA {x' x y' y B' B C' C : ℝ} (h : Near x' x B' B) (k : Near y' y C' C) :
    Near (A.sub x' y') (x - y) ((1 + δ) * (B' + C')) (B + C) := by
  have := (h.add k.neg).step hA.nonneg (y := A.sub x' y') (by rw [← sub_eq_add_neg]; exact hA.base.sub _ _)
  rwa [← sub_eq_add_neg] at this

theorem Near.mulA {x' x y' y B' B C' C : ℝ} (h : Near x' x B' B) (k : Near y' y C' C) :
    Near (A.mulR x' y') (x * y) ((1 + δ) * (B' * C')) (B * C) := (h.mul k).step hA.nonneg (hA.mulR _ _)

omit hA in
theorem ext0_near {m n : ℕ} {c' c : Fin m × Fin n → ℝ} {V' V : ℝ} (hV : 0 ≤ V) (hVV : V ≤ V') (h : ∀ i, Near (c' i) (c i) V' V) (y x : ℤ) :
    Near (Spec.ext0 c' y x) (Spec.ext0 c y x) V' V := by
  unfold Spec.ext0
  split_ifs
  · exact h _
  · exact ⟨by rw [abs_zero]; linarith, by rw [abs_zero]; exact hV, by rw [sub_zero, abs_zero]; linarith⟩

/-- the computed derivatives of a computed map -/
theorem localFitA_near {m n : ℕ} {c' c : Fin m × Fin n → ℝ} {V' V : ℝ} (hV : 0 ≤ V) (hVV : V ≤ V') (h : ∀ i, Near (c' i) (c i) V' V)
    (loc : Fin m × Fin n) (q' q : Spec.LocalFit)
    (hq' : q' = localFitA A m n (Spec.ext0 c') ((loc.1 : ℕ) : ℤ) ((loc.2 : ℕ) : ℤ)) (hq : q = Spec.localFit c loc) :
    Near q'.X q.X ((1 + δ) ^ 2 * (4 * V')) (4 * V) ∧ Near q'.Y q.Y ((1 + δ) ^ 2 * (4 * V')) (4 * V) ∧
      Near q'.M (-q.M) ((1 + δ) ^ 3 * V') V ∧ Near q'.fx q.fx ((1 + δ) * (2 * V')) (2 * V) ∧
      Near q'.fy q.fy ((1 + δ) * (2 * V')) (2 * V) := by
  have h0 := hA.nonneg
  have hE := ext0_near hV hVV h
  have hV' : 0 ≤ V' := hV.trans hVV
  subst hq' hq
  unfold localFitA Spec.localFit Spec.curvX Spec.curvY Spec.slopeX Spec.slopeY Spec.mixed
  simp only
  generalize ((loc.1 : ℕ) : ℤ) = y
  generalize ((loc.2 : ℕ) : ℤ) = x
  have two := fun y x => (hE y x).scale 2 (by norm_num)
  have g1 : 1 ≤ (1 + δ) := by linarith
  have hδV : 0 ≤ δ * V' := mul_nonneg h0 hV'
  have hδδV : 0 ≤ δ * δ * V' := mul_nonneg (mul_nonneg h0 h0) hV'
  have hδδδV : 0 ≤ δ * δ * δ * V' := mul_nonneg (mul_nonneg (mul_nonneg h0 h0) h0) hV'
  refine ⟨?_, ?_, ?_, ?_, ?_⟩
  · have := (((hE y (x - 1)).addA hA (hE y (x + 1))).subA hA (two y x)).mono (C' := (1 + δ) ^ 2 * (4 * V')) (by nlinarith)
    rw [show Spec.ext0 c y (x + 1) + Spec.ext0 c y (x - 1) = Spec.ext0 c y (x - 1) + Spec.ext0 c y (x + 1) by ring,
      show 4 * V = V + V + 2 * V by ring]
    exact this
  · have := (((hE (y + 1) x).addA hA (hE (y - 1) x)).subA hA (two y x)).mono (C' := (1 + δ) ^ 2 * (4 * V')) (by nlinarith)
    rw [show 4 * V = V + V + 2 * V by ring]
    exact this
  · have := ((((((hE (y + 1) (x - 1)).addA hA (hE (y - 1) (x + 1))).subA hA (hE (y + 1) (x + 1))).subA hA (hE (y - 1) (x - 1)))).scale
      0.25 (by norm_num)).mono (C' := (1 + δ) ^ 3 * V') (by norm_num; nlinarith)
    have e : V = 0.25 * (V + V + V + V) := by norm_num; ring
    have e2 : -((Spec.ext0 c (y + 1) (x + 1) + Spec.ext0 c (y - 1) (x - 1) - Spec.ext0 c (y + 1) (x - 1) - Spec.ext0 c (y - 1) (x + 1)) / 4)
        = 0.25 * (Spec.ext0 c (y + 1) (x - 1) + Spec.ext0 c (y - 1) (x + 1) - Spec.ext0 c (y + 1) (x + 1) - Spec.ext0 c (y - 1) (x - 1)) := by
      norm_num; ring
    rw [e2]
    rw [← e] at this
    exact this
  · split_ifs
    · have := ((hE y (x + 1)).subA hA (hE y (x - 1))).scale (1 / 2) (by norm_num)
      have hd := this.dist
      have hb := this.le_bound
      refine ⟨?_, ?_, ?_⟩
      · have := this.le'; rw [div_eq_inv_mul]; norm_num at this ⊢; nlinarith
      · have := this.le; rw [div_eq_inv_mul]; norm_num at this ⊢; nlinarith
      · rw [div_eq_inv_mul, div_eq_inv_mul]; norm_num at hd ⊢; nlinarith
    · have := (hE y x).subA hA (hE y (x - 1))
      rwa [← two_mul, ← two_mul] at this
  · split_ifs
    · have := ((hE (y + 1) x).subA hA (hE (y - 1) x)).scale (1 / 2) (by norm_num)
      have hd := this.dist
      refine ⟨?_, ?_, ?_⟩
      · have := this.le'; rw [div_eq_inv_mul]; norm_num at this ⊢; nlinarith
      · have := this.le; rw [div_eq_inv_mul]; norm_num at this ⊢; nlinarith
      · rw [div_eq_inv_mul, div_eq_inv_mul]; norm_num at hd ⊢; nlinarith
    · have := (hE y x).subA hA (hE (y - 1) x)
      rwa [← two_mul, ← two_mul] at this

/-- numerators and denominator of the correction -/
theorem numden_near {V' V : ℝ} (hV : 0 ≤ V) (hVV : V ≤ V') (q' q : Spec.LocalFit)
    (h : Near q'.X q.X ((1 + δ) ^ 2 * (4 * V')) (4 * V) ∧ Near q'.Y q.Y ((1 + δ) ^ 2 * (4 * V')) (4 * V) ∧
      Near q'.M (-q.M) ((1 + δ) ^ 3 * V') V ∧ Near q'.fx q.fx ((1 + δ) * (2 * V')) (2 * V) ∧
      Near q'.fy q.fy ((1 + δ) * (2 * V')) (2 * V)) :
    |A.sub (A.mulR q'.M q'.M) (A.mulR q'.Y q'.X) - (q.M ^ 2 - q.X * q.Y)| ≤ 17 * ((1 + δ) ^ 8 * V' ^ 2 - V ^ 2) ∧
      |A.sub (A.mulR q'.X q'.fx) (A.mulR q'.fy q'.M) - (q.X * q.fx + q.M * q.fy)| ≤ 17 * ((1 + δ) ^ 8 * V' ^ 2 - V ^ 2) ∧
      |A.sub (A.mulR q'.Y q'.fy) (A.mulR q'.fx q'.M) - (q.Y * q.fy + q.M * q.fx)| ≤ 17 * ((1 + δ) ^ 8 * V' ^ 2 - V ^ 2) := by
  obtain ⟨hX, hY, hM, hfx, hfy⟩ := h
  have h0 := hA.nonneg
  have g1 : 1 ≤ (1 + δ) := by linarith
  have hV' : 0 ≤ V' ^ 2 := sq_nonneg _
  have hm : ∀ {a b : ℕ}, a ≤ b → (1 + δ) ^ a * V' ^ 2 ≤ (1 + δ) ^ b * V' ^ 2 := fun hab =>
    mul_le_mul_of_nonneg_right (pow_le_pow_right₀ g1 hab) hV'
  have hge : V ^ 2 ≤ (1 + δ) ^ 6 * V' ^ 2 := by
    have h1 : V ^ 2 ≤ V' ^ 2 := pow_le_pow_left₀ hV hVV 2
    have h2 := hm (Nat.zero_le 6)
    rw [pow_zero, one_mul] at h2
    linarith
  refine ⟨?_, ?_, ?_⟩
  · have := ((hM.mulA hA hM).subA hA (hY.mulA hA hX)).dist
    rw [show -q.M * -q.M - q.Y * q.X = q.M ^ 2 - q.X * q.Y by ring] at this
    refine this.trans ?_
    have h1 := hm (show 6 ≤ 8 by norm_num)
    have e : (1 + δ) * ((1 + δ) * ((1 + δ) ^ 3 * V' * ((1 + δ) ^ 3 * V')) + (1 + δ) * ((1 + δ) ^ 2 * (4 * V') * ((1 + δ) ^ 2 * (4 * V'))))
        = (1 + δ) ^ 8 * V' ^ 2 + 16 * ((1 + δ) ^ 6 * V' ^ 2) := by ring
    rw [e]; nlinarith
  · have := ((hX.mulA hA hfx).subA hA (hfy.mulA hA hM)).dist
    rw [show q.X * q.fx - q.fy * -q.M = q.X * q.fx + q.M * q.fy by ring] at this
    refine this.trans ?_
    have h1 := hm (show 6 ≤ 8 by norm_num)
    have h2 := hm (show 5 ≤ 6 by norm_num)
    have e : (1 + δ) * ((1 + δ) * ((1 + δ) ^ 2 * (4 * V') * ((1 + δ) * (2 * V'))) + (1 + δ) * ((1 + δ) * (2 * V') * ((1 + δ) ^ 3 * V')))
        = 8 * ((1 + δ) ^ 5 * V' ^ 2) + 2 * ((1 + δ) ^ 6 * V' ^ 2) := by ring
    rw [e]; nlinarith
  · have := ((hY.mulA hA hfy).subA hA (hfx.mulA hA hM)).dist
    rw [show q.Y * q.fy - q.fx * -q.M = q.Y * q.fy + q.M * q.fx by ring] at this
    refine this.trans ?_
    have h1 := hm (show 6 ≤ 8 by norm_num)
    have h2 := hm (show 5 ≤ 6 by norm_num)
    have e : (1 + δ) * ((1 + δ) * ((1 + δ) ^ 2 * (4 * V') * ((1 + δ) * (2 * V'))) + (1 + δ) * ((1 + δ) * (2 * V') * ((1 + δ) ^ 3 * V')))
        = 8 * ((1 + δ) ^ 5 * V' ^ 2) + 2 * ((1 + δ) ^ 6 * V' ^ 2) := by ring
    rw [e]; nlinarith

/-- the quotient and its addition to the integer part -/
theorem quot_near {N' D' N D ν k : ℝ} (hD : |D' - D| ≤ ν) (hN : |N' - N| ≤ ν) (hν : ν < |D|) :
    D' ≠ 0 ∧ |-A.addR k (A.divR N' D') - -(k + N / D)|
      ≤ (1 + δ) * ((1 + δ) * (ν * (1 + |N / D|) / (|D| - ν)) + δ * |N / D|) + δ * |k + N / D| := by
  have h0 := hA.nonneg
  have hν0 : 0 ≤ ν := (abs_nonneg _).trans hD
  have hDpos : 0 < |D| := hν0.trans_lt hν
  have hD0 : D ≠ 0 := abs_pos.1 hDpos
  have hDl : |D| - ν ≤ |D'| := by
    have := abs_sub_abs_le_abs_sub D D'
    rw [abs_sub_comm] at this
    linarith
  have hD'pos : 0 < |D'| := by linarith
  have hD' : D' ≠ 0 := abs_pos.1 hD'pos
  refine ⟨hD', ?_⟩
  have hq : |N' / D' - N / D| ≤ ν * (1 + |N / D|) / (|D| - ν) := by
    have e : N' / D' - N / D = ((N' - N) - (N / D) * (D' - D)) / D' := by field_simp; ring
    rw [e, abs_div]
    refine div_le_div₀ ?_ ?_ (by linarith) hDl
    · exact mul_nonneg hν0 (by positivity)
    · refine (abs_sub _ _).trans ?_
      rw [abs_mul]
      have := mul_le_mul_of_nonneg_left hD (abs_nonneg (N / D))
      linarith
  set τ := ν * (1 + |N / D|) / (|D| - ν)
  have hs := hA.divR N' D' hD'
  have hs2 : |N' / D'| ≤ |N / D| + τ := by
    have := abs_add_le (N' / D' - N / D) (N / D)
    rw [sub_add_cancel] at this
    linarith
  set s := A.divR N' D'
  have h3 : |s - N / D| ≤ (1 + δ) * τ + δ * |N / D| := by
    have := abs_add_le (s - N' / D') (N' / D' - N / D)
    rw [sub_add_sub_cancel] at this
    have := mul_le_mul_of_nonneg_left hs2 h0
    linarith
  have h4 := hA.addR k s
  have h5 : |k + s| ≤ |k + N / D| + ((1 + δ) * τ + δ * |N / D|) := by
    have := abs_add_le (k + N / D) (s - N / D)
    rw [show k + N / D + (s - N / D) = k + s by ring] at this
    linarith
  have h6 := mul_le_mul_of_nonneg_left h5 h0
  have h7 := abs_add_le (A.addR k s - (k + s)) (s - N / D)
  rw [show -A.addR k s - -(k + N / D) = -((A.addR k s - (k + s)) + (s - N / D)) by ring, abs_neg]
  linarith

/-- every entry of the map -/
theorem ccMapA_near {ny nx : ℕ} [NeZero ny] [NeZero nx] (im1 im2 : Fin ny × Fin nx → Pix) (zm : Bool) (i : Fin ny × Fin nx) :
    Near (ccMapA A im1 im2 zm i) (Spec.ccMap (prep zm im1) (prep zm im2) i)
      ((1 + δ) ^ 7 * (Spec.prepNorm' δ zm im1 * Spec.prepNorm' δ zm im2) / ((ny * nx : ℕ) : ℝ))
      (Spec.prepNorm zm im1 * Spec.prepNorm zm im2 / ((ny * nx : ℕ) : ℝ)) := by
  have p1 := masked_near hA.base zm .none im1
  have p2 := masked_near hA.base zm .none im2
  have c := corrA_near hA p1 p2 i
  have hN : (0 : ℝ) < ((ny * nx : ℕ) : ℝ) := size_pos
  have c2 := c.scale (((ny * nx : ℕ) : ℝ)⁻¹) (by positivity)
  rw [inv_mul_eq_div, inv_mul_eq_div, inv_mul_eq_div, inv_mul_eq_div] at c2
  have c3 := c2.step hA.nonneg (hA.divR _ _ hN.ne')
  rw [show (1 + δ) * ((1 + δ) ^ 6 * (Spec.prepNorm' δ zm im1 * Spec.prepNorm' δ zm im2) / ((ny * nx : ℕ) : ℝ))
    = (1 + δ) ^ 7 * (Spec.prepNorm' δ zm im1 * Spec.prepNorm' δ zm im2) / ((ny * nx : ℕ) : ℝ) by ring] at c3
  exact c3

end

end ImgReg
