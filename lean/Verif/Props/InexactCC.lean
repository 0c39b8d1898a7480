import Verif.Lemmas.InexactCC
import Verif.Props.CrossCorrNoise
import Verif.Props.InexactChi2

/-!
# C123: `cross_correlation_shifts` in inexact arithmetic
-/

open Finset

namespace ImgReg

section
variable {ny nx : ℕ} [NeZero ny] [NeZero nx]

/-- how far every computed correlation (before the division by the number of pixels) can be from the exact one -/
noncomputable def Spec.corrErr (δ : ℝ) (zm : Bool) (im1 im2 : Fin ny × Fin nx → Pix) : ℝ :=
  (1 + δ) ^ 7 * (Spec.prepNorm' δ zm im1 * Spec.prepNorm' δ zm im2) - Spec.prepNorm zm im1 * Spec.prepNorm zm im2

/-- how far the computed numerators and denominator of the correction can be from the exact ones -/
noncomputable def Spec.fitErr (δ : ℝ) (zm : Bool) (im1 im2 : Fin ny × Fin nx → Pix) : ℝ :=
  17 * ((1 + δ) ^ 22 * (Spec.prepNorm' δ zm im1 * Spec.prepNorm' δ zm im2) ^ 2 - (Spec.prepNorm zm im1 * Spec.prepNorm zm im2) ^ 2)
    / ((ny * nx : ℕ) : ℝ) ^ 2

/-- the resulting error of a shift `r` whose correction is `s`, when the denominator of the correction is `D` and known up to `ν` -/
noncomputable def Spec.ccShiftErr (δ ν D s r : ℝ) : ℝ :=
  (1 + δ) * ((1 + δ) * (ν * (1 + |s|) / (|D| - ν)) + δ * |s|) + δ * |r|

theorem ccMapA_dist {A : Chi2Arith} {δ : ℝ} (hA : Spec.Chi2Accurate A δ) (im1 im2 : Fin ny × Fin nx → Pix) (zm : Bool) (i : Fin ny × Fin nx) :
    |ccMapA A im1 im2 zm i - Spec.xcorr (prep zm im1) (prep zm im2) i / ((ny * nx : ℕ) : ℝ)|
      ≤ Spec.corrErr δ zm im1 im2 / ((ny * nx : ℕ) : ℝ) := by
  have := (ccMapA_near hA im1 im2 zm i).dist
  rwa [← sub_div] at this

/-- where the computed map has its peak -/
theorem ccMapA_argmax {A : Chi2Arith} {δ : ℝ} (hA : Spec.Chi2Accurate A δ) (im1 im2 : Fin ny × Fin nx → Pix) (zm : Bool)
    (loc : Fin ny × Fin nx)
    (hclear : ∀ j, j ≠ loc → Spec.xcorr (prep zm im1) (prep zm im2) j + 2 * Spec.corrErr δ zm im1 im2
      < Spec.xcorr (prep zm im1) (prep zm im2) loc)
    (h0 : Spec.corrErr δ zm im1 im2 < |Spec.xcorr (prep zm im1) (prep zm im2) loc|) :
    Np.argmax (ccMapA A im1 im2 zm) = loc ∧ ccMapA A im1 im2 zm loc ≠ 0 := by
  have hN := size_pos (ny := ny) (nx := nx)
  have hd := ccMapA_dist hA im1 im2 zm
  generalize Spec.xcorr (prep zm im1) (prep zm im2) = c at *
  generalize Spec.corrErr δ zm im1 im2 = η at *
  constructor
  · refine Np.argmax_eq_of_unique fun j hj => ?_
    have h1 := abs_le.1 (hd j)
    have h2 := abs_le.1 (hd loc)
    have h3 := div_lt_div_of_pos_right (hclear j hj) hN
    rw [add_div, mul_div_assoc] at h3
    linarith
  · intro hc
    have h2 := hd loc
    rw [hc, zero_sub, abs_neg, abs_div, abs_of_pos hN] at h2
    have h3 := div_lt_div_of_pos_right h0 hN
    linarith

/-- C123: accuracy of `cross_correlation_shifts` in floating point. Suppose the exact correlation (the sum of products at every lag) has a
peak at `loc`, not in the first row or column, which exceeds all other values by more than twice the error bound of the
correlation, and is itself larger than it in size; and that the determinant `M² - X·Y` of the derivatives at the peak exceeds its error
bound `fitErr`. Then both the exact function and the computed one return two finite numbers, which differ by at most `ccShiftErr`. -/
theorem C123_accuracy (A : Chi2Arith) (δ : ℝ) (hA : Spec.Chi2Accurate A δ) (cfg : FFTConfig) (agpy : Agpy ny nx)
    (im1 im2 : Fin ny × Fin nx → Pix) (e1 e2 : Option (Fin ny × Fin nx → Pix)) (zm : Bool) (loc : Fin ny × Fin nx)
    (hclear : ∀ j, j ≠ loc → Spec.xcorr (prep zm im1) (prep zm im2) j + 2 * Spec.corrErr δ zm im1 im2
      < Spec.xcorr (prep zm im1) (prep zm im2) loc)
    (h0 : Spec.corrErr δ zm im1 im2 < |Spec.xcorr (prep zm im1) (prep zm im2) loc|) (hy : loc.1 ≠ 0) (hx : loc.2 ≠ 0)
    (q : Spec.LocalFit) (hq : q = Spec.localFit (Spec.ccMap (prep zm im1) (prep zm im2)) loc)
    (hdet : Spec.fitErr δ zm im1 im2 < |q.M ^ 2 - q.X * q.Y|) :
    ∃ rx ry rx' ry' : ℝ, crossCorrelationShifts cfg agpy im1 im2 e1 e2 none false false zm true = .ok [.fin rx, .fin ry] ∧
      ccShiftsA A im1 im2 zm = .ok [.fin rx', .fin ry'] ∧
      |rx' - rx| ≤ Spec.ccShiftErr δ (Spec.fitErr δ zm im1 im2) (q.M ^ 2 - q.X * q.Y) (Spec.ccRef nx - ((loc.2 : ℕ) : ℝ) - rx) rx ∧
      |ry' - ry| ≤ Spec.ccShiftErr δ (Spec.fitErr δ zm im1 im2) (q.M ^ 2 - q.X * q.Y) (Spec.ccRef ny - ((loc.1 : ℕ) : ℝ) - ry) ry := by
  have hδ := hA.nonneg
  have hN := size_pos (ny := ny) (nx := nx)
  obtain ⟨ha, hv⟩ := ccMapA_argmax hA im1 im2 zm loc hclear h0
  have hη : 0 ≤ Spec.corrErr δ zm im1 im2 := by
    have := (abs_nonneg _).trans (ccMapA_dist hA im1 im2 zm loc)
    by_contra hc
    have := div_neg_of_neg_of_pos (not_le.1 hc) hN
    linarith
  have vy : (loc.1 : ℕ) ≠ 0 := fun h => hy (Fin.ext h)
  have vx : (loc.2 : ℕ) ≠ 0 := fun h => hx (Fin.ext h)
  have hmax : Np.IsFirstMax (Spec.xcorr (prep zm im1) (prep zm im2)) loc := by
    have h := Np.argmax_spec (Spec.xcorr (prep zm im1) (prep zm im2))
    rwa [Np.argmax_eq_of_unique (i := loc) fun j hj => by have := hclear j hj; linarith] at h
  have hne : Spec.xcorr (prep zm im1) (prep zm im2) loc ≠ 0 := abs_pos.1 (hη.trans_lt h0)
  have hD0 : q.M ^ 2 - q.X * q.Y ≠ 0 := by
    have h2 : 0 ≤ Spec.fitErr δ zm im1 im2 := by
      unfold Spec.fitErr
      refine div_nonneg (mul_nonneg (by norm_num) (sub_nonneg.2 ?_)) (sq_nonneg _)
      have p1 := prepNorm_le hδ zm im1
      have p2 := prepNorm_le hδ zm im2
      have p3 := mul_le_mul p1 p2 (prepNorm_nonneg zm im2) (prepNorm'_nonneg hδ zm im1)
      have p4 := pow_le_pow_left₀ (mul_nonneg (prepNorm_nonneg zm im1) (prepNorm_nonneg zm im2)) p3 2
      refine p4.trans (le_mul_of_one_le_left (sq_nonneg _) (one_le_pow₀ (by linarith)))
    exact abs_pos.1 (h2.trans_lt hdet)
  have hform := C51_formula cfg agpy im1 im2 e1 e2 zm true (.inl rfl) loc hmax hne hy hx q hq
  rw [if_neg hD0] at hform
  obtain ⟨q', hq'⟩ : ∃ q', q' = localFitA A ny nx (Spec.ext0 (ccMapA A im1 im2 zm)) ((loc.1 : ℕ) : ℤ) ((loc.2 : ℕ) : ℤ) := ⟨_, rfl⟩
  have hfit := ccFitA_eq A (ccMapA A im1 im2 zm) (by rw [ha]; exact hv) (by rw [ha]; omega) (by rw [ha]; omega) q' (by rw [ha]; exact hq')
  rw [ha, ccCentre_eq, ccCentre_eq] at hfit
  set P' := (1 + δ) ^ 7 * (Spec.prepNorm' δ zm im1 * Spec.prepNorm' δ zm im2) with hP'
  set P := Spec.prepNorm zm im1 * Spec.prepNorm zm im2 with hP
  have near := ccMapA_near hA im1 im2 zm
  have hV : 0 ≤ P / ((ny * nx : ℕ) : ℝ) := (near loc).nonneg
  have hVV : P / ((ny * nx : ℕ) : ℝ) ≤ P' / ((ny * nx : ℕ) : ℝ) := (near loc).le_bound
  obtain ⟨k1, k2, k3⟩ := numden_near hA hV hVV q' q (localFitA_near hA hV hVV near loc q' q hq' hq)
  have eν : 17 * ((1 + δ) ^ 8 * (P' / ((ny * nx : ℕ) : ℝ)) ^ 2 - (P / ((ny * nx : ℕ) : ℝ)) ^ 2) = Spec.fitErr δ zm im1 im2 := by
    unfold Spec.fitErr
    rw [hP', hP]; field_simp
  rw [eν] at k1 k2 k3
  obtain ⟨n1, b1⟩ := quot_near hA (k := ((loc.2 : ℕ) : ℝ) - Spec.ccRef nx) k1 k2 hdet
  obtain ⟨n2, b2⟩ := quot_near hA (k := ((loc.1 : ℕ) : ℝ) - Spec.ccRef ny) k1 k3 hdet
  unfold divFlA at hfit
  rw [if_neg n1, if_neg n1] at hfit
  have hcomp : ccShiftsA A im1 im2 zm = _ := hfit
  simp only [negAddA] at hcomp
  refine ⟨_, _, _, _, hform, hcomp, ?_, ?_⟩
  · unfold Spec.ccShiftErr
    generalize (q.X * q.fx + q.M * q.fy) / (q.M ^ 2 - q.X * q.Y) = s at b1 ⊢
    rw [show -(((loc.2 : ℕ) : ℝ) - Spec.ccRef nx + s) = Spec.ccRef nx - ((loc.2 : ℕ) : ℝ) - s by ring,
      show ((loc.2 : ℕ) : ℝ) - Spec.ccRef nx + s = -(Spec.ccRef nx - ((loc.2 : ℕ) : ℝ) - s) by ring, abs_neg (Spec.ccRef nx - _ - s)] at b1
    rw [sub_sub_cancel]
    exact b1
  · unfold Spec.ccShiftErr
    generalize (q.Y * q.fy + q.M * q.fx) / (q.M ^ 2 - q.X * q.Y) = s at b2 ⊢
    rw [show -(((loc.1 : ℕ) : ℝ) - Spec.ccRef ny + s) = Spec.ccRef ny - ((loc.1 : ℕ) : ℝ) - s by ring,
      show ((loc.1 : ℕ) : ℝ) - Spec.ccRef ny + s = -(Spec.ccRef ny - ((loc.1 : ℕ) : ℝ) - s) by ring, abs_neg (Spec.ccRef ny - _ - s)] at b2
    rw [sub_sub_cancel]
    exact b2

/-- C123: a clear peak in the first row or column is an error in floating point as well. -/
theorem C123_first_row_or_column (A : Chi2Arith) (δ : ℝ) (hA : Spec.Chi2Accurate A δ)
    (im1 im2 : Fin ny × Fin nx → Pix) (zm : Bool) (loc : Fin ny × Fin nx)
    (hclear : ∀ j, j ≠ loc → Spec.xcorr (prep zm im1) (prep zm im2) j + 2 * Spec.corrErr δ zm im1 im2
      < Spec.xcorr (prep zm im1) (prep zm im2) loc)
    (h0 : Spec.corrErr δ zm im1 im2 < |Spec.xcorr (prep zm im1) (prep zm im2) loc|) (hyx : loc.1 = 0 ∨ loc.2 = 0) :
    ccShiftsA A im1 im2 zm = .error .valueError := by
  obtain ⟨ha, hv⟩ := ccMapA_argmax hA im1 im2 zm loc hclear h0
  refine ccFitA_edge A _ (by rw [ha]; exact hv) ?_
  rw [ha]
  rcases hyx with h | h <;> rw [h]
  · exact Or.inl rfl
  · exact Or.inr rfl

/-- C123: an image without signal (all its pixels 0 or NaN, `zeromean=False`) gives exactly `0, 0` in floating point as well. -/
theorem C123_no_signal (A : Chi2Arith) (δ : ℝ) (hA : Spec.Chi2Accurate A δ) (im1 im2 : Fin ny × Fin nx → Pix)
    (h : (∀ p, im1 p = none ∨ im1 p = some 0) ∨ (∀ p, im2 p = none ∨ im2 p = some 0)) :
    ccShiftsA A im1 im2 false = .ok [.fin 0, .fin 0] := by
  have hz : ∀ im : Fin ny × Fin nx → Pix, (∀ p, im p = none ∨ im p = some 0) → Spec.prepNorm' δ false im = 0 := by
    intro im h
    unfold Spec.prepNorm' Spec.prepNorm
    rw [if_neg (by decide)]
    rw [Finset.sum_eq_zero, Real.sqrt_zero]
    intro p _
    rcases h p with h | h <;> simp [prep_def, Spec.nan0, h]
  have hP : Spec.prepNorm' δ false im1 * Spec.prepNorm' δ false im2 = 0 := by
    rcases h with h | h <;> rw [hz _ h]
    · exact zero_mul _
    · exact mul_zero _
  refine ccFitA_zero A _ ?_
  have := (ccMapA_near hA im1 im2 false (Np.argmax (ccMapA A im1 im2 false))).le'
  rw [hP, mul_zero, zero_div] at this
  exact abs_nonpos_iff.1 this

/-- C123: with error-free operations the inexact model is the exact one. -/
theorem C123_exact_arithmetic (A : Chi2Arith) (hA : Spec.Chi2Accurate A 0) (cfg : FFTConfig) (agpy : Agpy ny nx)
    (im1 im2 : Fin ny × Fin nx → Pix) (e1 e2 : Option (Fin ny × Fin nx → Pix)) (zm : Bool) :
    ccShiftsA A im1 im2 zm = crossCorrelationShifts cfg agpy im1 im2 e1 e2 none false false zm true := by
  have hN := size_pos (ny := ny) (nx := nx)
  have hmap : ccMapA A im1 im2 zm = Spec.ccMap (prep zm im1) (prep zm im2) := by
    funext i
    have h := ccMapA_dist hA im1 im2 zm i
    have e : Spec.corrErr 0 zm im1 im2 = 0 := by
      unfold Spec.corrErr Spec.prepNorm'
      cases zm <;> simp
    rw [e, zero_div] at h
    exact sub_eq_zero.1 (abs_nonpos_iff.1 h)
  have hs : ∀ x y, A.sub x y = x - y := fun x y => by
    have := hA.base.sub x y; rw [zero_mul] at this; exact sub_eq_zero.1 (abs_nonpos_iff.1 this)
  have hm : ∀ x y, A.mulR x y = x * y := fun x y => by
    have := hA.mulR x y; rw [zero_mul] at this; exact sub_eq_zero.1 (abs_nonpos_iff.1 this)
  have had : ∀ x y, A.addR x y = x + y := fun x y => by
    have := hA.addR x y; rw [zero_mul] at this; exact sub_eq_zero.1 (abs_nonpos_iff.1 this)
  have hdv : ∀ x y, y ≠ 0 → A.divR x y = x / y := fun x y h => by
    have := hA.divR x y h; rw [zero_mul] at this; exact sub_eq_zero.1 (abs_nonpos_iff.1 this)
  have hdf : ∀ x y, divFlA A x y = Fl.div x y := fun x y => by
    unfold divFlA Fl.div
    split_ifs with h <;> try rfl
    rw [hdv x y h]
  have hna : ∀ k s, negAddA A k s = Fl.negAdd k s := fun k s => by
    cases s <;> simp only [negAddA, Fl.negAdd, had]
  rw [ccShifts_eq _ _ _ _ _ _ _ _ _ _ _ (.inl rfl)]
  unfold ccShiftsA
  rw [hmap]
  generalize Spec.ccMap (prep zm im1) (prep zm im2) = c
  have hsd : ∀ {m n : ℕ} (f : Fin m × Fin n → ℝ), secondDerivativeA A f = secondDerivative f := fun f => by
    unfold secondDerivativeA secondDerivative
    simp only [hs, had]
  have hg1 : ∀ {m : ℕ} (f : Fin m → ℝ) (h : 2 ≤ m), gradient1A A f h = gradient1 f h := fun f h => by
    unfold gradient1A gradient1
    simp only [hs]
  have hgr : ∀ {m n : ℕ} (f : Fin m × Fin n → ℝ), npGradientA A f = npGradient f := fun f => by
    unfold npGradientA npGradient
    simp only [hg1]
  have hsq : ∀ x : ℝ, x * x = x ^ 2 := fun x => (sq x).symm
  unfold ccFitA ccFromMap
  simp only [hsd, hgr, hdf, hna, hs, hm, Option.isSome_none, Bool.false_eq_true, if_false, bind, Except.bind, pure, Except.pure, hsq]

/-- C123: the displacement of a rolled image in floating point. Let `im2` be `im1` rolled by `(dy, dx)` (the peak not on the border of the
map), `P` and `P'` the exact and the bounded computed norm of the prepared image, and `D(s, t)` the squared distance between
`im1` and `im1` moved by `(s, t)`. If every `D(s, t)` other than for multiples of the image size exceeds `4·((1+δ)⁷P'² - P²)` and
`E = 17·((1+δ)²²P'⁴ - P⁴)` is less than `Δ = D(0,1)·D(1,0) - T²` with `T = |D(1,-1) - D(1,1)|/4`, the computed shifts differ from `dx`, `dy` (plus
half a pixel along axes of odd size) by at most `(1+δ)²·E/(Δ - E)` plus a rounding error `δ` of the answer itself. -/
theorem C123_roll (A : Chi2Arith) (δ : ℝ) (hA : Spec.Chi2Accurate A δ) (im1 : Fin ny × Fin nx → ℝ) (dy dx : ℤ)
    (hy1 : dy + 1 ≤ ((ny - 1) / 2 : ℕ)) (hy2 : ((ny - 1) / 2 : ℕ) + 2 ≤ ny + dy)
    (hx1 : dx + 1 ≤ ((nx - 1) / 2 : ℕ)) (hx2 : ((nx - 1) / 2 : ℕ) + 2 ≤ nx + dx) (zm : Bool)
    (P P' : ℝ) (hP : P = Spec.prepNorm zm (realArr im1)) (hP' : P' = Spec.prepNorm' δ zm (realArr im1))
    (hmargin : ∀ s t : ℤ, ¬ ((ny : ℤ) ∣ s ∧ (nx : ℤ) ∣ t) → 4 * ((1 + δ) ^ 7 * P' ^ 2 - P ^ 2) < Spec.selfDist im1 s t)
    (T E Δ : ℝ) (hT : T = |Spec.selfDist im1 1 (-1) - Spec.selfDist im1 1 1| / 4)
    (hE : E = 17 * ((1 + δ) ^ 22 * P' ^ 4 - P ^ 4)) (hΔ : Δ = Spec.selfDist im1 0 1 * Spec.selfDist im1 1 0 - T ^ 2) (hlt : E < Δ)
    (rx ry : ℝ) (hrx : rx = dx + if nx % 2 = 1 then 1 / 2 else 0) (hry : ry = dy + if ny % 2 = 1 then 1 / 2 else 0) :
    ∃ rx' ry' : ℝ, ccShiftsA A (realArr im1) (realArr (Spec.roll2 dy dx im1)) zm = .ok [.fin rx', .fin ry'] ∧
      |rx' - rx| ≤ (1 + δ) ^ 2 * (E / (Δ - E)) + δ * |rx| ∧ |ry' - ry| ≤ (1 + δ) ^ 2 * (E / (Δ - E)) + δ * |ry| := by
  have hδ := hA.nonneg
  have hN := size_pos (ny := ny) (nx := nx)
  obtain ⟨a, hadef⟩ : ∃ a, a = prep zm (realArr im1) := ⟨_, rfl⟩
  have hb : prep zm (realArr (Spec.roll2 dy dx im1)) = Spec.roll2 dy dx a := by rw [prep_roll, hadef]
  have hnorm : ∀ z, Spec.prepNorm z (realArr (Spec.roll2 dy dx im1)) = Spec.prepNorm z (realArr im1) := by
    intro z
    unfold Spec.prepNorm
    rw [prep_roll]
    congr 1
    exact Spec.roll2_sum dy dx fun p => prep z (realArr im1) p ^ 2
  have hnorm' : Spec.prepNorm' δ zm (realArr (Spec.roll2 dy dx im1)) = P' := by
    rw [hP']; unfold Spec.prepNorm'; rw [hnorm, hnorm]
  have hce : Spec.corrErr δ zm (realArr im1) (realArr (Spec.roll2 dy dx im1)) = (1 + δ) ^ 7 * P' ^ 2 - P ^ 2 := by
    unfold Spec.corrErr; rw [hnorm', hnorm, ← hP, ← hP']; ring
  have hfe : Spec.fitErr δ zm (realArr im1) (realArr (Spec.roll2 dy dx im1)) = E / ((ny * nx : ℕ) : ℝ) ^ 2 := by
    unfold Spec.fitErr; rw [hnorm', hnorm, ← hP, ← hP', hE]; ring
  have hη : 0 ≤ (1 + δ) ^ 7 * P' ^ 2 - P ^ 2 := by
    have p1 : P ≤ P' := by rw [hP, hP']; exact prepNorm_le hδ zm _
    have p2 := pow_le_pow_left₀ (by rw [hP]; exact prepNorm_nonneg zm _) p1 2
    have p3 : P' ^ 2 ≤ (1 + δ) ^ 7 * P' ^ 2 := le_mul_of_one_le_left (sq_nonneg _) (one_le_pow₀ (by linarith))
    linarith
  have hsd : ∀ s t, ∑ p, (a p - a (Spec.move s t p)) ^ 2 = Spec.selfDist im1 s t := by
    intro s t
    unfold Spec.selfDist
    refine Finset.sum_congr rfl fun p _ => ?_
    rw [hadef, prep_real]; ring
  have hap : Spec.aperiodic im1 := by
    intro s t h
    by_contra hc
    have := hmargin s t hc
    have e : Spec.selfDist im1 s t = 0 := Finset.sum_eq_zero fun p _ => by rw [h p, sub_self]; norm_num
    linarith
  let loc : Fin ny × Fin nx := (⟨((Spec.zeroLag ny : ℤ) - dy).toNat, by unfold Spec.zeroLag; omega⟩,
    ⟨((Spec.zeroLag nx : ℤ) - dx).toNat, by unfold Spec.zeroLag; omega⟩)
  have ly : ((loc.1 : ℕ) : ℤ) = Spec.zeroLag ny - dy := by
    simp only [loc]; rw [Int.toNat_of_nonneg]; unfold Spec.zeroLag; omega
  have lx : ((loc.2 : ℕ) : ℤ) = Spec.zeroLag nx - dx := by
    simp only [loc]; rw [Int.toNat_of_nonneg]; unfold Spec.zeroLag; omega
  generalize loc = loc at ly lx
  have zy : Spec.zeroLag ny = (ny - 1) / 2 := rfl
  have zx : Spec.zeroLag nx = (nx - 1) / 2 := rfl
  have b1 : 1 ≤ (loc.1 : ℕ) := by omega
  have b2 : (loc.1 : ℕ) + 2 ≤ ny := by omega
  have b3 : 1 ≤ (loc.2 : ℕ) := by omega
  have b4 : (loc.2 : ℕ) + 2 ≤ nx := by omega
  have hx0 : Spec.xcorr a (Spec.roll2 dy dx a) loc = Spec.autocorr a 0 0 := by
    rw [xcorr_roll, ly, lx]
    congr 1 <;> ring
  have m10 := hmargin 1 0 (by
    rintro ⟨h, -⟩
    have := Int.le_of_dvd (by norm_num) h
    omega)
  have hclear : ∀ j, j ≠ loc → Spec.xcorr a (Spec.roll2 dy dx a) j + 2 * ((1 + δ) ^ 7 * P' ^ 2 - P ^ 2)
      < Spec.xcorr a (Spec.roll2 dy dx a) loc := by
    intro j hj
    rw [hx0, xcorr_roll]
    have hnd : ¬ ((ny : ℤ) ∣ (Spec.zeroLag ny : ℤ) - ((j.1 : ℕ) : ℤ) - dy ∧ (nx : ℤ) ∣ (Spec.zeroLag nx : ℤ) - ((j.2 : ℕ) : ℤ) - dx) := by
      rintro ⟨h1, h2⟩
      apply hj
      have key : ∀ (n : ℕ) [NeZero n] (i l : Fin n) (d : ℤ), ((l : ℕ) : ℤ) = Spec.zeroLag n - d →
          (n : ℤ) ∣ (Spec.zeroLag n : ℤ) - ((i : ℕ) : ℤ) - d → i = l := by
        intro n _ i l d hl hd
        apply Fin.eq_of_modEq
        refine Int.modEq_iff_dvd.2 ?_
        rw [hl, show (Spec.zeroLag n : ℤ) - d - ((i : ℕ) : ℤ) = Spec.zeroLag n - ((i : ℕ) : ℤ) - d by ring]
        exact hd
      exact Prod.ext (key ny _ _ _ ly h1) (key nx _ _ _ lx h2)
    have h1 := hmargin _ _ hnd
    rw [← hsd, sq_dist] at h1
    linarith
  have hpos : (1 + δ) ^ 7 * P' ^ 2 - P ^ 2 < |Spec.xcorr a (Spec.roll2 dy dx a) loc| := by
    rw [hx0]
    refine lt_of_lt_of_le ?_ (le_abs_self _)
    have h1 := m10
    rw [← hsd, sq_dist] at h1
    have h4 : -Spec.autocorr a 0 0 ≤ Spec.autocorr a 1 0 := by
      have : ∑ p, (a p + a (Spec.move 1 0 p)) ^ 2 = 2 * (Spec.autocorr a 0 0 + Spec.autocorr a 1 0) := by
        have hs := Spec.sum_move 1 0 fun p => a p ^ 2
        unfold Spec.autocorr
        simp only [move_zero]
        rw [← Finset.sum_add_distrib, Finset.mul_sum]
        have : ∑ p, (a p + a (Spec.move 1 0 p)) ^ 2 = ∑ p, a p ^ 2 + ∑ p, a (Spec.move 1 0 p) ^ 2 + ∑ p, 2 * (a p * a (Spec.move 1 0 p)) := by
          rw [← Finset.sum_add_distrib, ← Finset.sum_add_distrib]
          exact Finset.sum_congr rfl fun p _ => by ring
        rw [this, hs, ← Finset.sum_add_distrib, ← Finset.sum_add_distrib]
        exact Finset.sum_congr rfl fun p _ => by ring
      have hn : 0 ≤ ∑ p, (a p + a (Spec.move 1 0 p)) ^ 2 := Finset.sum_nonneg fun p _ => sq_nonneg _
      linarith
    linarith
  have hfit := roll_localFit a dy dx loc ly lx b1 b2 b3 b4
  have d01 := (sq_dist a 0 1).symm.trans (hsd 0 1)
  have d10 := (sq_dist a 1 0).symm.trans (hsd 1 0)
  have d11 := (sq_dist a 1 1).symm.trans (hsd 1 1)
  have d1n := (sq_dist a 1 (-1)).symm.trans (hsd 1 (-1))
  obtain ⟨q, hq⟩ : ∃ q, q = Spec.localFit (Spec.ccMap a (Spec.roll2 dy dx a)) loc := ⟨_, rfl⟩
  have hT' : ((Spec.autocorr a 1 1 - Spec.autocorr a 1 (-1)) / 2) ^ 2 = T ^ 2 := by
    rw [hT, ← d1n, ← d11, div_pow, div_pow, sq_abs]; ring
  have hD : q.M ^ 2 - q.X * q.Y = -(Δ / ((ny * nx : ℕ) : ℝ) ^ 2) := by
    rw [hq, hfit, hΔ, ← hT', ← d01, ← d10]
    simp only
    ring
  have hE0 : 0 ≤ E := by
    rw [hE]
    have p1 : P ≤ P' := by rw [hP, hP']; exact prepNorm_le hδ zm _
    have p2 := pow_le_pow_left₀ (by rw [hP]; exact prepNorm_nonneg zm _) p1 4
    have p3 : P' ^ 4 ≤ (1 + δ) ^ 22 * P' ^ 4 := le_mul_of_one_le_left (by positivity) (one_le_pow₀ (by linarith))
    linarith
  have habs : |q.M ^ 2 - q.X * q.Y| = Δ / ((ny * nx : ℕ) : ℝ) ^ 2 := by
    rw [hD, abs_neg, abs_of_nonneg (div_nonneg (by linarith) (sq_nonneg _))]
  obtain ⟨r1, r2, r1', r2', k0, k1, k2, k3⟩ := C123_accuracy A δ hA ⟨false, false, 1⟩ none (realArr im1) (realArr (Spec.roll2 dy dx im1)) none none zm
    loc (by rw [hce, hb, ← hadef]; exact hclear) (by rw [hce, hb, ← hadef]; exact hpos)
    (fun h => by rw [h] at b1; exact absurd b1 (by simp)) (fun h => by rw [h] at b3; exact absurd b3 (by simp)) q
    (by rw [hb, ← hadef]; exact hq) (by rw [hfe, habs]; exact div_lt_div_of_pos_right hlt (by positivity))
  rw [C50_roll ⟨false, false, 1⟩ none im1 hap dy dx hy1 hy2 hx1 hx2 none none zm true (.inl rfl)] at k0
  simp only [Except.ok.injEq, List.cons.injEq, Fl.fin.injEq, and_true] at k0
  obtain ⟨g1, g2⟩ := k0
  rw [← hrx] at g1
  rw [← hry] at g2
  subst g1 g2
  have c1 : ((loc.2 : ℕ) : ℝ) = (Spec.zeroLag nx : ℝ) - dx := by exact_mod_cast lx
  have c2 : ((loc.1 : ℕ) : ℝ) = (Spec.zeroLag ny : ℝ) - dy := by exact_mod_cast ly
  have s1 : Spec.ccRef nx - ((loc.2 : ℕ) : ℝ) - rx = 0 := by rw [c1, hrx]; unfold Spec.ccRef; ring
  have s2 : Spec.ccRef ny - ((loc.1 : ℕ) : ℝ) - ry = 0 := by rw [c2, hry]; unfold Spec.ccRef; ring
  have hq2 : E / ((ny * nx : ℕ) : ℝ) ^ 2 / (Δ / ((ny * nx : ℕ) : ℝ) ^ 2 - E / ((ny * nx : ℕ) : ℝ) ^ 2) = E / (Δ - E) := by
    rw [← sub_div, div_div_div_cancel_right₀ (by positivity)]
  have hres : ∀ r, Spec.ccShiftErr δ (E / ((ny * nx : ℕ) : ℝ) ^ 2) (q.M ^ 2 - q.X * q.Y) 0 r = (1 + δ) ^ 2 * (E / (Δ - E)) + δ * |r| := by
    intro r
    unfold Spec.ccShiftErr
    rw [habs, abs_zero, add_zero, mul_one, hq2]; ring
  rw [hfe, s1, hres] at k2
  rw [hfe, s2, hres] at k3
  exact ⟨_, _, k1, k2, k3⟩

/-- a single bright pixel in a 5×5 image, moved by `(1, -1)`, with arithmetic that is always off by 1/1000 -/
example : ∃ rx' ry' : ℝ, ccShiftsA (Chi2Arith.biased (1 / 1000))
      (realArr fun p : Fin 5 × Fin 5 => if p = ((2 : Fin 5), (3 : Fin 5)) then (1 : ℝ) else 0)
      (realArr (Spec.roll2 1 (-1) fun p : Fin 5 × Fin 5 => if p = ((2 : Fin 5), (3 : Fin 5)) then (1 : ℝ) else 0)) false
        = .ok [.fin rx', .fin ry'] ∧ |rx' - (-1 / 2)| ≤ 1 / 5 ∧ |ry' - 3 / 2| ≤ 1 / 5 := by
  set a : Fin 5 × Fin 5 → ℝ := fun p => if p = ((2 : Fin 5), (3 : Fin 5)) then (1 : ℝ) else 0 with ha
  have hP : Spec.prepNorm false (realArr a) = 1 := by
    unfold Spec.prepNorm
    have : ∑ p, prep false (realArr a) p ^ 2 = 1 := by rw [prep_real]; simp [ha]
    rw [this, Real.sqrt_one]
  have hP' : Spec.prepNorm' (1 / 1000) false (realArr a) = 1 := by
    unfold Spec.prepNorm'; rw [if_neg (by decide)]; exact hP
  have hs : ∀ s t : ℤ, ¬ (((5 : ℕ) : ℤ) ∣ s ∧ ((5 : ℕ) : ℤ) ∣ t) → Spec.selfDist a s t = 2 := fun s t h => selfDist_point _ s t h
  obtain ⟨rx', ry', h, h1, h2⟩ := C123_roll (Chi2Arith.biased (1 / 1000)) (1 / 1000) (Chi2Arith.biased_accurate _ (by norm_num) (by norm_num)) a 1 (-1)
    (by norm_num) (by norm_num) (by norm_num) (by norm_num) false 1 1 hP.symm hP'.symm
    (fun s t h => by rw [hs s t h]; norm_num) _ _ _ rfl rfl rfl
    (by rw [hs 0 1 (by decide), hs 1 0 (by decide), hs 1 1 (by decide), hs 1 (-1) (by decide)]; norm_num) _ _ rfl rfl
  rw [hs 0 1 (by decide), hs 1 0 (by decide), hs 1 1 (by decide), hs 1 (-1) (by decide)] at h1 h2
  refine ⟨rx', ry', h, ?_, ?_⟩
  · norm_num at h1 ⊢
    rw [abs_le] at h1 ⊢
    constructor <;> linarith
  · norm_num at h2 ⊢
    rw [abs_le] at h2 ⊢
    constructor <;> linarith

end

end ImgReg
