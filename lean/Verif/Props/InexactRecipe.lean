import Verif.Props.InexactNoise
import Verif.Props.InexactShift
import Verif.Props.Recipe

/-!
# The README recipe in floating point (C132)

`xoff, yoff = chi2_shift(im1, im2, ...)`, then `shift2d(im2, -xoff, -yoff)`, both computed with rounding errors.
-/

open Complex Finset

namespace ImgReg

section
variable {ny nx : ℕ} [NeZero ny] [NeZero nx]

omit [NeZero ny] [NeZero nx] in
theorem norm2_rArr (x : Fin ny × Fin nx → ℝ) : Spec.norm2 (Spec.vals (rArr x)) = Real.sqrt (∑ p, x p ^ 2) := by
  unfold Spec.norm2 Spec.vals rArr
  simp

/-- what the second step adds to the residual: the rounding of the two shifts handed to `shift2d`, and that of `shift2d` itself -/
theorem corrected_near (S : ShiftArith) (δ : ℝ) (hS : Spec.ShiftAccurate S δ) (im2 : Fin ny × Fin nx → ℝ) (dx dy xs ys ex ey : ℝ)
    (hx : |dx - -xs| ≤ ex) (hy : |dy - -ys| ≤ ey) (ra : Bool) :
    ∃ corrected : Fin ny × Fin nx → ℝ, shift2dA S (rArr im2) (-dx) (-dy) 0 ra true = .real (realArr corrected) ∧
      Real.sqrt (∑ p, (corrected p - (cshift ys xs im2 p).re) ^ 2)
        ≤ (Real.pi * (ey + ex) + Spec.shift2dErr δ dx dy 0) * Real.sqrt (∑ p, im2 p ^ 2) := by
  obtain ⟨r', r, h1, h2, h3⟩ := C112_shift2d_real S δ hS ⟨false, true, 1⟩ (rArr im2) (-dx) (-dy) 0 ra
  refine ⟨r', h1, ?_⟩
  have hr : r = fun p => (cshift (-dy) (-dx) im2 p).re := by
    rw [shift2d_real] at h2
    have := NdOut.real.inj h2
    funext p
    exact (Option.some.inj (congrFun this p)).symm
  have k := (l2_re_le _ _).trans (cshift_lipschitz im2 (-dy) (-dx) ys xs)
  have e1 : |-dy - ys| = |dy - -ys| := by rw [← abs_neg]; congr 1; ring
  have e2 : |-dx - xs| = |dx - -xs| := by rw [← abs_neg]; congr 1; ring
  rw [e1, e2] at k
  have k2 : Real.sqrt (∑ p, ((cshift (-dy) (-dx) im2 p).re - (cshift ys xs im2 p).re) ^ 2)
      ≤ Real.pi * (ey + ex) * Real.sqrt (∑ p, im2 p ^ 2) :=
    k.trans (mul_le_mul_of_nonneg_right (mul_le_mul_of_nonneg_left (add_le_add hy hx) Real.pi_pos.le) (Real.sqrt_nonneg _))
  rw [norm2_rArr, hr] at h3
  unfold Spec.shift2dErr at h3 ⊢
  rw [abs_neg, abs_neg] at h3
  have t := r2_add (fun p => r' p - (cshift (-dy) (-dx) im2 p).re) (fun p => (cshift (-dy) (-dx) im2 p).re - (cshift ys xs im2 p).re)
  simp only [sub_add_sub_cancel] at t
  unfold r2 at t
  linarith

/-- C132: for any two real images, whatever the rounding errors: the image corrected by the computed shift is as close to `im1` as `im2` moved to any
point of the zoomed grid, up to `|s|·sqrt(2·zoomErr)` for the search and `(π·(reportErr_y + reportErr_x) + shift2dErr)·‖im2‖` for the correction. -/
theorem C132_corrected_residual (A : Chi2Arith) (Z : ZoomArith) (S : ShiftArith) (δ : ℝ) (hA : Spec.Chi2Accurate A δ) (hZ : Spec.ZoomAccurate Z δ)
    (hS : Spec.ShiftAccurate S δ) (cfg : FFTConfig) (st : Stats) (hst : Spec.validStats st) (im1 im2 : Fin ny × Fin nx → ℝ)
    (err : ErrArg ny nx) (s : ℝ) (hs0 : s ≠ 0) (herr : Spec.isScalarErr err s) (us : UsFactor) (nf : ℝ) (mas : ℕ) (mns : ℝ)
    (hus : Spec.validUs ny mas us) (ra : Bool) :
    ∃ c : Fin ny × Fin nx → ℝ, chi2nMap cfg (realArr im1) (realArr im2) err false false false true = .ok (.only c) ∧
    ∃ (q : Fin ny × Fin nx) (u dx dy : ℝ) (s1 s2 : ℕ) (corrected : Fin ny × Fin nx → ℝ), (s1, s2) = Spec.gridSize ny nx mas us ∧
      Spec.nearFactor δ (Spec.chi2Err δ false (realArr im1) (realArr im2) err) c (mAuto st mns nf) mas us u ∧
      chi2ShiftA A Z st (realArr im1) (realArr im2) err us false nf false false mas mns = .ok [.num dx, .num dy] ∧
      shift2dA S (rArr im2) (-dx) (-dy) 0 ra true = .real (realArr corrected) ∧
      ∀ i : Fin s1 × Fin s2, ∃ y : Fin ny × Fin nx → ℂ,
        shift2d cfg (rArr im2) (Spec.gridShift nx q.2 u s2 i.2) (Spec.gridShift ny q.1 u s1 i.1) 0 false false = .cplx (cArr y) ∧
        Real.sqrt (∑ p, (corrected p - im1 p) ^ 2) ≤ Real.sqrt (∑ p, ‖(im1 p : ℂ) - y p‖ ^ 2)
          + |s| * Real.sqrt (2 * Spec.zoomErr δ (Spec.chi2Err δ false (realArr im1) (realArr im2) err) c q u s1 s2)
          + (Real.pi * (Spec.reportErr δ ny q.1 u s1 + Spec.reportErr δ nx q.2 u s2) + Spec.shift2dErr δ dx dy 0)
            * Real.sqrt (∑ p, im2 p ^ 2) := by
  obtain ⟨c, hc, q, u, dx, dy, xs, ys, s1, s2, hg, hf, hr, hx, hy, hopt⟩ :=
    C114_fits_near_optimal A Z δ hA hZ cfg st hst im1 im2 err s hs0 herr us nf mas mns hus
  obtain ⟨corrected, h1, h2⟩ := corrected_near S δ hS im2 dx dy xs ys _ _ hx hy ra
  refine ⟨c, hc, q, u, dx, dy, s1, s2, corrected, hg, hf, hr, h1, fun i => ?_⟩
  obtain ⟨y0, y, hy0, hyi, hle⟩ := hopt i
  refine ⟨y, hyi, ?_⟩
  have e0 := shift2d_cplx hy0
  subst e0
  have s2' : 0 < s ^ 2 := by positivity
  have hT : 0 ≤ Spec.chi2Err δ false (realArr im1) (realArr im2) err := by
    obtain ⟨c', -, h⟩ := C113_map_error A δ hA cfg (realArr im1) (realArr im2) err (fun s' e => by
      subst e
      rcases herr with h | ⟨h, -⟩
      exact hs0) false
    exact (abs_nonneg _).trans (h (0, 0))
  have hE : 0 ≤ Spec.zoomErr δ (Spec.chi2Err δ false (realArr im1) (realArr im2) err) c q u s1 s2 :=
    hT.trans (zoomErr_ge hZ.nonneg hT c q u s1 s2)
  generalize Spec.zoomErr δ (Spec.chi2Err δ false (realArr im1) (realArr im2) err) c q u s1 s2 = E at hle hE ⊢
  rw [← Finset.sum_div, ← Finset.sum_div, ← sub_le_iff_le_add', ← sub_div, div_le_iff₀ s2', sub_le_iff_le_add'] at hle
  have k1 := (Real.sqrt_le_sqrt hle).trans (sqrt_add_le_add (Finset.sum_nonneg fun p _ => by positivity) (by positivity))
  rw [Real.sqrt_mul (by positivity), Real.sqrt_sq_eq_abs] at k1
  have k2 : Real.sqrt (∑ p, ((cshift ys xs im2 p).re - im1 p) ^ 2) ≤ Real.sqrt (∑ p, ‖(im1 p : ℂ) - cshift ys xs im2 p‖ ^ 2) := by
    refine Real.sqrt_le_sqrt (Finset.sum_le_sum fun p _ => ?_)
    rw [← sq_abs]
    refine pow_le_pow_left₀ (abs_nonneg _) ?_ 2
    have := Complex.abs_re_le_norm ((im1 p : ℂ) - cshift ys xs im2 p)
    rw [Complex.sub_re, Complex.ofReal_re, abs_sub_comm] at this
    exact this
  have t := r2_add (fun p => corrected p - (cshift ys xs im2 p).re) (fun p => (cshift ys xs im2 p).re - im1 p)
  simp only [sub_add_sub_cancel] at t
  unfold r2 at t
  linarith

/-- C132: whole pixels. If `im2` is `im1` rolled by whole pixels plus noise, and the conditions of `C114_recovers_roll` hold, the computed correction
of `im2` is `im1` plus the noise rolled back, up to `(π·(reportErr_y + reportErr_x) + shift2dErr)·‖im2‖` (root of the sum of squares). -/
theorem C132_recovers_roll (A : Chi2Arith) (Z : ZoomArith) (S : ShiftArith) (δ : ℝ) (hA : Spec.Chi2Accurate A δ) (hZ : Spec.ZoomAccurate Z δ)
    (hS : Spec.ShiftAccurate S δ) (st : Stats) (hst : Spec.validStats st)
    (im1 noise : Fin ny × Fin nx → ℝ) (dy dx : ℤ) (hny : 2 ≤ ny) (ly : -(ny : ℤ) ≤ 2 * dy) (uy : 2 * dy < ny) (lx : -(nx : ℤ) ≤ 2 * dx)
    (ux : 2 * dx < nx) (err : ErrArg ny nx) (σ : Fin ny × Fin nx → ℝ) (hσ : ∀ p, σ p ≠ 0)
    (he : (∃ s, Spec.isScalarErr err s ∧ ∀ p, σ p = s) ∨ err = .image (realArr σ)) (cfg : FFTConfig) (c : Fin ny × Fin nx → ℝ)
    (im2 : Fin ny × Fin nx → ℝ) (him : im2 = fun p => Spec.roll2 dy dx im1 p + noise p)
    (hc : chi2nMap cfg (realArr im1) (realArr im2) err false false false true = .ok (.only c))
    (q : Fin ny × Fin nx) (hq : q = (Spec.wrap ny (((ny - 1) / 2 : ℕ) - dy), Spec.wrap nx (((nx - 1) / 2 : ℕ) - dx)))
    (hnoise : ∀ ey ex : ℤ, ¬ (ey ≡ dy [ZMOD ny] ∧ ex ≡ dx [ZMOD nx]) →
      4 * ∑ p, noise p ^ 2 / σ p ^ 2 + 4 * Spec.zoomErr δ (Spec.chi2Err δ false (realArr im1) (realArr im2) err) c q 1 ny nx
        < ∑ p, (Spec.roll2 ey ex im1 p - Spec.roll2 dy dx im1 p) ^ 2 / σ p ^ 2) (nf : ℝ) (mas : ℕ) (mns : ℝ) (ra : Bool) :
    ∃ (x y : ℝ) (corrected : Fin ny × Fin nx → ℝ),
      chi2ShiftA A Z st (realArr im1) (realArr im2) err (.int 1) false nf false false mas mns = .ok [.num x, .num y] ∧
      |x - dx| ≤ Spec.reportErr δ nx q.2 1 nx ∧ |y - dy| ≤ Spec.reportErr δ ny q.1 1 ny ∧
      shift2dA S (rArr im2) (-x) (-y) 0 ra true = .real (realArr corrected) ∧
      Real.sqrt (∑ p, (corrected p - (im1 p + Spec.roll2 (-dy) (-dx) noise p)) ^ 2)
        ≤ (Real.pi * (Spec.reportErr δ ny q.1 1 ny + Spec.reportErr δ nx q.2 1 nx) + Spec.shift2dErr δ x y 0)
          * Real.sqrt (∑ p, im2 p ^ 2) := by
  subst him
  obtain ⟨x, y, h1, hx, hy⟩ := C114_recovers_roll A Z δ hA hZ st hst im1 noise dy dx hny ly uy lx ux err σ hσ he cfg c hc q hq hnoise nf mas mns
  obtain ⟨corrected, h2, h3⟩ := corrected_near S δ hS (fun p => Spec.roll2 dy dx im1 p + noise p) x y (-dx) (-dy)
    (Spec.reportErr δ nx q.2 1 nx) (Spec.reportErr δ ny q.1 1 ny) (by rw [neg_neg]; exact hx) (by rw [neg_neg]; exact hy) ra
  refine ⟨x, y, corrected, h1, hx, hy, h2, le_trans (le_of_eq ?_) h3⟩
  congr 1
  refine Finset.sum_congr rfl fun p _ => ?_
  have e := cshift_int (-dy) (-dx) (fun p => Spec.roll2 dy dx im1 p + noise p) p
  push_cast at e
  rw [e, Complex.ofReal_re]
  have e2 : Spec.roll2 (-dy) (-dx) (fun p => Spec.roll2 dy dx im1 p + noise p) p = im1 p + Spec.roll2 (-dy) (-dx) noise p := by
    have := congrFun (roll2_back (Int.ModEq.refl dy) (Int.ModEq.refl dx) im1) p
    unfold Spec.roll2 at this ⊢
    dsimp only at this ⊢
    rw [this]
  rw [e2]

omit [NeZero ny] [NeZero nx] in
theorem reportErr_tendsto {n : ℕ} (q : Fin n) (u : ℝ) (s : ℕ) : Continuous fun δ => Spec.reportErr δ n q u s := by
  unfold Spec.reportErr
  fun_prop

/-- C132: with a good enough arithmetic the README recipe works.  Let `im2` be `im1` rolled by whole pixels (by at most half an image) plus noise below
the level of C96.  For every tolerance `ε > 0` there is an accuracy `δ₀ > 0` such that in every arithmetic accurate to `δ₀` or better
`chi2_shift(im1, im2, upsample_factor=1)` returns the two shifts up to `ε`, and `shift2d(im2, -xoff, -yoff)` is `im1` plus the noise rolled back, up to
`ε` in every pixel. -/
theorem C132_eventually (im1 noise : Fin ny × Fin nx → ℝ) (dy dx : ℤ) (hny : 2 ≤ ny) (ly : -(ny : ℤ) ≤ 2 * dy) (uy : 2 * dy < ny)
    (lx : -(nx : ℤ) ≤ 2 * dx) (ux : 2 * dx < nx) (err : ErrArg ny nx) (σ : Fin ny × Fin nx → ℝ) (hσ : ∀ p, σ p ≠ 0)
    (he : (∃ s, Spec.isScalarErr err s ∧ ∀ p, σ p = s) ∨ err = .image (realArr σ))
    (im2 : Fin ny × Fin nx → ℝ) (him : im2 = fun p => Spec.roll2 dy dx im1 p + noise p)
    (hnoise : ∀ ey ex : ℤ, ¬ (ey ≡ dy [ZMOD ny] ∧ ex ≡ dx [ZMOD nx]) →
      4 * ∑ p, noise p ^ 2 / σ p ^ 2 < ∑ p, (Spec.roll2 ey ex im1 p - Spec.roll2 dy dx im1 p) ^ 2 / σ p ^ 2)
    (ε : ℝ) (hε : 0 < ε) :
    ∃ δ₀ > 0, ∀ (A : Chi2Arith) (Z : ZoomArith) (S : ShiftArith) (δ : ℝ), δ ≤ δ₀ → Spec.Chi2Accurate A δ → Spec.ZoomAccurate Z δ →
      Spec.ShiftAccurate S δ → ∀ (st : Stats), Spec.validStats st → ∀ (nf : ℝ) (mas : ℕ) (mns : ℝ) (ra : Bool),
      ∃ (x y : ℝ) (corrected : Fin ny × Fin nx → ℝ),
        chi2ShiftA A Z st (realArr im1) (realArr im2) err (.int 1) false nf false false mas mns = .ok [.num x, .num y] ∧
        |x - dx| ≤ ε ∧ |y - dy| ≤ ε ∧
        shift2dA S (rArr im2) (-x) (-y) 0 ra true = .real (realArr corrected) ∧
        ∀ p, |corrected p - (im1 p + Spec.roll2 (-dy) (-dx) noise p)| ≤ ε := by
  classical
  have cfg : FFTConfig := ⟨false, true, 1⟩
  obtain ⟨m, hm, -⟩ := chi2nMapBody_chi2 cfg (realArr im1) (realArr im2) err false true (.inl rfl)
  have hc : chi2nMap cfg (realArr im1) (realArr im2) err false false false true = .ok (.only m.chi2) := by
    rw [chi2nMap_same, hm]; rfl
  generalize m.chi2 = c at hc
  obtain ⟨q, hq⟩ : ∃ q : Fin ny × Fin nx,
    q = (Spec.wrap ny (((ny - 1) / 2 : ℕ) - dy), Spec.wrap nx (((nx - 1) / 2 : ℕ) - dx)) := ⟨_, rfl⟩
  -- the gap between the noise and the nearest other displacement
  set G : Fin ny × Fin nx → ℝ := fun e => ∑ p, (Spec.roll2 ((e.1 : ℕ) : ℤ) ((e.2 : ℕ) : ℤ) im1 p - Spec.roll2 dy dx im1 p) ^ 2 / σ p ^ 2
    - 4 * ∑ p, noise p ^ 2 / σ p ^ 2 with hG
  obtain ⟨g, hg0, hg⟩ : ∃ g > 0, ∀ e : Fin ny × Fin nx, ¬ ((((e.1 : ℕ) : ℤ) ≡ dy [ZMOD ny]) ∧ ((e.2 : ℕ) : ℤ) ≡ dx [ZMOD nx]) → g ≤ G e := by
    rcases (Finset.univ.filter fun e : Fin ny × Fin nx => ¬ ((((e.1 : ℕ) : ℤ) ≡ dy [ZMOD ny]) ∧ ((e.2 : ℕ) : ℤ) ≡ dx [ZMOD nx])).eq_empty_or_nonempty
      with h | h
    · refine ⟨1, one_pos, fun e he => ?_⟩
      have : e ∈ (∅ : Finset (Fin ny × Fin nx)) := by rw [← h]; simpa using he
      simp at this
    · obtain ⟨e0, h0, h1⟩ := Finset.exists_min_image _ G h
      refine ⟨G e0, ?_, fun e he => h1 e (by simpa using he)⟩
      have := hnoise e0.1 e0.2 (by simpa using h0)
      simp only [hG]
      linarith
  have hgap : ∀ ey ex : ℤ, ¬ (ey ≡ dy [ZMOD ny] ∧ ex ≡ dx [ZMOD nx]) →
      4 * ∑ p, noise p ^ 2 / σ p ^ 2 + g ≤ ∑ p, (Spec.roll2 ey ex im1 p - Spec.roll2 dy dx im1 p) ^ 2 / σ p ^ 2 := by
    intro ey ex hne
    have m1 := Spec.wrap_modEq ny ey
    have m2 := Spec.wrap_modEq nx ex
    have := hg (Spec.wrap ny ey, Spec.wrap nx ex) (fun h => hne ⟨m1.symm.trans h.1, m2.symm.trans h.2⟩)
    simp only [hG] at this
    rw [roll2_congr m1 m2] at this
    linarith
  -- the three error terms are continuous and vanish at 0
  set φ : ℝ → ℝ := fun δ => 4 * Spec.zoomErr δ (Spec.chi2Err δ false (realArr im1) (realArr im2) err) c q 1 ny nx with hφ
  have hcφ : ContinuousAt φ 0 := by
    have h1 : ContinuousAt (fun δ : ℝ => Spec.chi2Err δ false (realArr im1) (realArr im2) err) 0 := by
      unfold Spec.chi2Err Spec.prepNorm'
      simp only [Bool.false_eq_true, if_false]
      refine ContinuousAt.sub (ContinuousAt.mul (ContinuousAt.div₀ (by fun_prop) (by fun_prop) (by norm_num)) continuousAt_const) continuousAt_const
    simp only [hφ]
    unfold Spec.zoomErr Spec.interp2Err Spec.kernelErr
    refine ContinuousAt.mul continuousAt_const (ContinuousAt.sub (ContinuousAt.mul (by fun_prop) (ContinuousAt.add continuousAt_const
      (ContinuousAt.mul continuousAt_const h1))) continuousAt_const)
  have hφ0 : φ 0 < g := by
    have : φ 0 = 0 := by
      simp only [hφ]
      unfold Spec.zoomErr Spec.chi2Err Spec.prepNorm' Spec.interp2Err Spec.kernelErr
      simp
    rw [this]
    exact hg0
  set ψ : ℝ → ℝ := fun δ => Spec.reportErr δ ny q.1 1 ny + Spec.reportErr δ nx q.2 1 nx with hψ
  have hcψ : ContinuousAt ψ 0 := ((reportErr_tendsto _ _ _).add (reportErr_tendsto _ _ _)).continuousAt
  have hψ0 : ψ 0 = 0 := by simp [hψ, Spec.reportErr]
  set χ : ℝ → ℝ := fun δ => (Real.pi * ψ δ + Spec.shift2dErr δ (|(dx : ℝ)| + 1) (|(dy : ℝ)| + 1) 0) * Real.sqrt (∑ p, im2 p ^ 2) with hχ
  have hcχ : ContinuousAt χ 0 := by
    simp only [hχ]
    refine ContinuousAt.mul (ContinuousAt.add (ContinuousAt.mul continuousAt_const hcψ) ?_) continuousAt_const
    unfold Spec.shift2dErr Spec.shiftErr Spec.kernelErr
    fun_prop
  have hχ0 : χ 0 < ε := by
    have : χ 0 = 0 := by
      simp only [hχ, hψ0]
      unfold Spec.shift2dErr Spec.shiftErr Spec.kernelErr
      simp
    rw [this]
    exact hε
  have hψ1 : ψ 0 < min ε 1 := by rw [hψ0]; exact lt_min hε one_pos
  obtain ⟨δ₀, h0, hball⟩ := Metric.eventually_nhds_iff.1 (((hcφ.eventually_lt continuousAt_const hφ0).and
    (hcχ.eventually_lt continuousAt_const hχ0)).and (hcψ.eventually_lt continuousAt_const hψ1))
  refine ⟨δ₀ / 2, by linarith, fun A Z S δ hδ hA hZ hS st hst nf mas mns ra => ?_⟩
  have hn := hZ.nonneg
  obtain ⟨⟨b1, b2⟩, b3⟩ := hball (y := δ) (by rw [Real.dist_eq, sub_zero, abs_of_nonneg hn]; linarith)
  obtain ⟨x, y, corrected, r1, r2', r3, r4, r5⟩ := C132_recovers_roll A Z S δ hA hZ hS st hst im1 noise dy dx hny ly uy lx ux err σ hσ he cfg c im2
    him hc q hq (fun ey ex h => lt_of_lt_of_le (by linarith) (hgap ey ex h)) nf mas mns ra
  have p1 := (abs_nonneg _).trans r2'
  have p2 := (abs_nonneg _).trans r3
  have b3a := b3.trans_le (min_le_left _ _)
  have b3b := b3.trans_le (min_le_right _ _)
  simp only [hψ] at b3a b3b
  refine ⟨x, y, corrected, r1, by linarith, by linarith, r4, fun p => ?_⟩
  have hp := abs_le_r2 (fun p => corrected p - (im1 p + Spec.roll2 (-dy) (-dx) noise p)) p
  refine hp.trans (le_trans r5 (le_trans ?_ b2.le))
  simp only [hχ, hψ]
  refine mul_le_mul_of_nonneg_right (add_le_add le_rfl ?_) (Real.sqrt_nonneg _)
  have hx1 : |x| ≤ |(dx : ℝ)| + 1 := by
    have := abs_add_le (x - dx) (dx : ℝ)
    rw [sub_add_cancel] at this
    linarith
  have hy1 : |y| ≤ |(dy : ℝ)| + 1 := by
    have := abs_add_le (y - dy) (dy : ℝ)
    rw [sub_add_cancel] at this
    linarith
  unfold Spec.shift2dErr Spec.shiftErr Spec.kernelErr
  rw [abs_of_nonneg (by positivity : (0 : ℝ) ≤ |(dx : ℝ)| + 1), abs_of_nonneg (by positivity : (0 : ℝ) ≤ |(dy : ℝ)| + 1)]
  have k1 : (1 : ℝ) ≤ (1 + δ) ^ 6 := one_le_pow₀ (by linarith)
  have k2 : (0 : ℝ) ≤ (1 + δ) ^ 3 := by positivity
  have k3 := mul_le_mul_of_nonneg_left (add_le_add hx1 hy1) Real.pi_pos.le
  have k4 := mul_le_mul_of_nonneg_left (add_le_add k3 (le_refl |(0 : ℝ)|)) (by linarith : (0 : ℝ) ≤ (1 + δ) ^ 6 - 1)
  have k5 := mul_le_mul_of_nonneg_left k4 k2
  nlinarith [k5]

end

/-! ### The hypotheses can be met -/

theorem case_apart (ey ex : ℤ) (hne : ¬ (ey ≡ 0 [ZMOD (2 : ℕ)] ∧ ex ≡ 1 [ZMOD (3 : ℕ)])) :
    ∑ p, (Spec.roll2 ey ex caseImage p - Spec.roll2 0 1 caseImage p) ^ 2 / (1 : ℝ) ^ 2 = 2 := by
  have hdiff : (Spec.wrap 2 ey, Spec.wrap 3 ex) ≠ ((Spec.wrap 2 0, Spec.wrap 3 1) : Fin 2 × Fin 3) := by
    intro h
    rw [Prod.mk.injEq] at h
    refine hne ⟨?_, ?_⟩
    · have := (Spec.wrap_modEq 2 ey).symm
      rw [h.1] at this
      exact this.trans (Spec.wrap_modEq 2 0)
    · have := (Spec.wrap_modEq 3 ex).symm
      rw [h.2] at this
      exact this.trans (Spec.wrap_modEq 3 1)
  rw [case_roll, case_roll, case_dist, if_neg hdiff]

/-- Every operation off by one part in a hundred thousand: a 2 × 3 image with one bright pixel, moved one column to the right.  The corrected image
is the original one up to 0.02 per pixel. -/
example (st : Stats) (hst : Spec.validStats st) (nf : ℝ) (mas : ℕ) (mns : ℝ) :
    ∃ (x y : ℝ) (corrected : Fin 2 × Fin 3 → ℝ),
      chi2ShiftA (Chi2Arith.biased (1 / 10 ^ 5)) (ZoomArith.biased (1 / 10 ^ 5)) st (realArr caseImage)
        (realArr fun p => Spec.roll2 0 1 caseImage p + 0) .none (.int 1) false nf false false mas mns = .ok [.num x, .num y] ∧
      shift2dA (ShiftArith.biased (1 / 10 ^ 5)) (rArr fun p => Spec.roll2 0 1 caseImage p + 0) (-x) (-y) 0 false true = .real (realArr corrected) ∧
      ∀ p, |corrected p - caseImage p| ≤ 1 / 50 := by
  have cfg : FFTConfig := ⟨false, false, 1⟩
  obtain ⟨c, hc, hceq, hT, hz, r2', r3'⟩ := case_facts cfg
  have hw2 : Spec.wrap 2 (((2 - 1) / 2 : ℕ) - 0) = (0 : Fin 2) := by decide
  have hw3 : Spec.wrap 3 (((3 - 1) / 2 : ℕ) - 1) = (0 : Fin 3) := by decide
  have hrep : ∀ (n : ℕ) [NeZero n] (q : Fin n), Spec.zoomReach (Spec.zoomCentre n q) 1 n = 1 → Spec.zeroLag n ≤ 1 →
      Spec.reportErr (1 / 10 ^ 5) n q 1 n ≤ 1 / 10 ^ 3 := by
    intro n _ q h1 h2
    unfold Spec.reportErr
    rw [h1]
    have : ((Spec.zeroLag n : ℕ) : ℝ) ≤ 1 := by exact_mod_cast h2
    have h3 : ((1 + 1 / 10 ^ 5 : ℝ) ^ 4 - 1) * (1 + (Spec.zeroLag n : ℕ)) ≤ ((1 + 1 / 10 ^ 5 : ℝ) ^ 4 - 1) * 2 :=
      mul_le_mul_of_nonneg_left (by linarith) (by norm_num)
    exact h3.trans (by norm_num)
  obtain ⟨x, y, corrected, h1, h2, h3, h4, h5⟩ := C132_recovers_roll (Chi2Arith.biased (1 / 10 ^ 5)) (ZoomArith.biased (1 / 10 ^ 5))
    (ShiftArith.biased (1 / 10 ^ 5)) (1 / 10 ^ 5)
    (Chi2Arith.biased_accurate _ (by norm_num) (by norm_num)) (ZoomArith.biased_accurate _ (by norm_num))
    (ShiftArith.biased_accurate _ (by norm_num)) st hst caseImage (fun _ => 0) 0 1
    (by norm_num) (by norm_num) (by norm_num) (by norm_num) (by norm_num) .none (fun _ => 1) (fun _ => one_ne_zero)
    (.inl ⟨1, rfl, fun _ => rfl⟩) cfg c _ rfl hc ((0 : Fin 2), (0 : Fin 3)) (by rw [hw2, hw3]) (by
      intro ey ex hne
      rw [case_apart ey ex hne]
      have h : (0 : ℝ) ^ 2 / 1 ^ 2 = 0 := by norm_num
      simp only [h, Finset.sum_const_zero]
      linarith) nf mas mns false
  refine ⟨x, y, corrected, h1, h4, fun p => ?_⟩
  have hp := (abs_le_r2 _ p).trans h5
  have hx1 := h2.trans (hrep 3 _ r3' (by decide))
  have hy1 := h3.trans (hrep 2 _ r2' (by decide))
  have e0 : Spec.roll2 (-0) (-1) (fun _ : Fin 2 × Fin 3 => (0 : ℝ)) p = 0 := rfl
  simp only [e0, add_zero] at hp
  refine hp.trans ?_
  have hnorm : Real.sqrt (∑ p : Fin 2 × Fin 3, Spec.roll2 0 1 caseImage p ^ 2) = 1 := by
    rw [case_roll]
    simp
  rw [hnorm, mul_one]
  push_cast at hx1 hy1
  have hxa : |x| ≤ 2 := by
    have := abs_add_le (x - 1) 1
    rw [sub_add_cancel, abs_one] at this
    linarith
  have hya : |y| ≤ 1 := by
    rw [sub_zero] at hy1
    linarith
  have hpi := Real.pi_le_four
  have k1 : Real.pi * (Spec.reportErr (1 / 10 ^ 5) 2 (0 : Fin 2) 1 2 + Spec.reportErr (1 / 10 ^ 5) 3 (0 : Fin 3) 1 3) ≤ 4 * (2 / 10 ^ 3) := by
    have a := hrep 2 (0 : Fin 2) r2' (by decide)
    have b := hrep 3 (0 : Fin 3) r3' (by decide)
    refine mul_le_mul hpi (by linarith) ?_ (by norm_num)
    have := (abs_nonneg _).trans h2
    have := (abs_nonneg _).trans h3
    linarith
  have k2 : Spec.shift2dErr (1 / 10 ^ 5) x y 0 ≤ 1 / 100 := by
    unfold Spec.shift2dErr Spec.shiftErr Spec.kernelErr
    have a : Real.pi * (|x| + |y|) + |(0 : ℝ)| ≤ 12 := by
      rw [abs_zero]
      nlinarith [Real.pi_pos, abs_nonneg x, abs_nonneg y]
    have b : ((1 + 1 / 10 ^ 5 : ℝ) ^ 6 - 1) * (Real.pi * (|x| + |y|) + |(0 : ℝ)|) ≤ ((1 + 1 / 10 ^ 5 : ℝ) ^ 6 - 1) * 12 :=
      mul_le_mul_of_nonneg_left a (by norm_num)
    have b' := mul_le_mul_of_nonneg_left b (by norm_num : (0 : ℝ) ≤ (1 + 1 / 10 ^ 5) ^ 3)
    norm_num at b' ⊢
    linarith
  linarith

/-- and `C132_eventually` applies to the same images -/
example (ε : ℝ) (hε : 0 < ε) := C132_eventually (ny := 2) (nx := 3) caseImage (fun _ => 0) 0 1 (by norm_num) (by norm_num) (by norm_num)
  (by norm_num) (by norm_num) .none (fun _ => 1) (fun _ => one_ne_zero) (.inl ⟨1, rfl, fun _ => rfl⟩) _ rfl (by
    intro ey ex hne
    rw [case_apart ey ex hne]
    norm_num) ε hε

end ImgReg
