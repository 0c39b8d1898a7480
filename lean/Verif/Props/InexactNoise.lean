import Verif.Props.InexactZoomCases
import Verif.Props.Noise

/-!
# `chi2_shift` with noise and rounding errors together (C124)
-/

open Complex Finset

namespace ImgReg

theorem sqrt_add_le_add {x y : ℝ} (hx : 0 ≤ x) (hy : 0 ≤ y) : Real.sqrt (x + y) ≤ Real.sqrt x + Real.sqrt y := by
  rw [Real.sqrt_le_iff]
  refine ⟨by positivity, ?_⟩
  have h1 := Real.sq_sqrt hx
  have h2 := Real.sq_sqrt hy
  have h3 := mul_nonneg (Real.sqrt_nonneg x) (Real.sqrt_nonneg y)
  nlinarith

section
variable {ny nx : ℕ} [NeZero ny] [NeZero nx]

/-- `near_best_core` when the residual is smallest only up to `E` -/
theorem near_best_slack (zm : Bool) (im1 im2 : Fin ny × Fin nx → ℝ) (s : ℝ) (hs : s ≠ 0) (E : ℝ) (hE : 0 ≤ E) (dy dx ry rx gy gx : ℝ)
    (h : Spec.resid (prep zm (realArr im1)) (prep zm (realArr im2)) s (-ry) (-rx)
      ≤ Spec.resid (prep zm (realArr im1)) (prep zm (realArr im2)) s (-gy) (-gx) + E) :
    l2 (fun p => cshift ry rx im1 p - cshift dy dx im1 p)
      ≤ l2 (fun p => cshift gy gx im1 p - cshift dy dx im1 p) + 2 * l2 (fun p => (im2 p : ℂ) - cshift dy dx im1 p)
        + |s| * Real.sqrt E := by
  have s2 : 0 < s ^ 2 := by positivity
  unfold Spec.resid at h
  rw [← Finset.sum_div, ← Finset.sum_div, ← sub_le_iff_le_add', ← sub_div, div_le_iff₀ s2, sub_le_iff_le_add', resid_swap_real, resid_swap_real,
    prep_real, prep_real] at h
  simp only [cshift_sub_const] at h
  generalize hm1 : (if zm = true then Spec.mean im1 else 0) = m1 at h
  generalize hm2 : (if zm = true then Spec.mean im2 else 0) = m2 at h
  have hl : l2 (fun p => cshift ry rx im1 p - m1 - ((im2 p - m2 : ℝ) : ℂ))
      ≤ l2 (fun p => cshift gy gx im1 p - m1 - ((im2 p - m2 : ℝ) : ℂ)) + |s| * Real.sqrt E := by
    have h1 := Real.sqrt_le_sqrt h
    have h2 := sqrt_add_le_add (x := ∑ p, ‖cshift gy gx im1 p - m1 - ((im2 p - m2 : ℝ) : ℂ)‖ ^ 2) (y := E * s ^ 2)
      (Finset.sum_nonneg fun _ _ => by positivity) (by positivity)
    have h3 : Real.sqrt (E * s ^ 2) = |s| * Real.sqrt E := by
      rw [Real.sqrt_mul hE, Real.sqrt_sq_eq_abs, mul_comm]
    rw [h3] at h2
    exact h1.trans h2
  have hN : l2 (fun p => ((im2 p : ℂ) - cshift dy dx im1 p) - ((m2 - m1 : ℝ) : ℂ)) ≤ l2 (fun p => (im2 p : ℂ) - cshift dy dx im1 p) := by
    cases zm with
    | false =>
      simp only [Bool.false_eq_true, if_false] at hm1 hm2
      subst hm1 hm2
      simp
    | true =>
      simp only [if_true] at hm1 hm2
      apply l2_sub_mean
      have h := sum_filt (fun k => ex (-(freq2 dx dy k))) (fun i : Fin ny × Fin nx => (im1 i : ℂ))
      rw [freq2_zero, neg_zero, ex_zero, mul_one] at h
      rw [Finset.sum_sub_distrib]
      have e : ∑ p, cshift dy dx im1 p = ∑ p, (im1 p : ℂ) := h
      rw [e, ← hm1, ← hm2]
      have c0 : (Fintype.card (Fin ny × Fin nx) : ℝ) ≠ 0 := by
        exact_mod_cast Fintype.card_ne_zero
      unfold Spec.mean
      rw [← sub_div]
      norm_cast
      simp only [Fintype.card_prod, Fintype.card_fin] at c0 ⊢
      push_cast at c0 ⊢
      rw [mul_div_cancel₀ _ c0]
  have a1 := l2_add (fun p => cshift ry rx im1 p - m1 - ((im2 p - m2 : ℝ) : ℂ))
    (fun p => ((im2 p : ℂ) - cshift dy dx im1 p) - ((m2 - m1 : ℝ) : ℂ))
  have a2 := l2_add (fun p => cshift gy gx im1 p - cshift dy dx im1 p)
    (fun p => -(((im2 p : ℂ) - cshift dy dx im1 p) - ((m2 - m1 : ℝ) : ℂ)))
  rw [l2_neg] at a2
  have e1 : (fun p => cshift ry rx im1 p - m1 - ((im2 p - m2 : ℝ) : ℂ) + (((im2 p : ℂ) - cshift dy dx im1 p) - ((m2 - m1 : ℝ) : ℂ)))
      = fun p => cshift ry rx im1 p - cshift dy dx im1 p := by
    funext p; push_cast; ring
  have e2 : (fun p => cshift gy gx im1 p - cshift dy dx im1 p + -(((im2 p : ℂ) - cshift dy dx im1 p) - ((m2 - m1 : ℝ) : ℂ)))
      = fun p => cshift gy gx im1 p - m1 - ((im2 p - m2 : ℝ) : ℂ) := by
    funext p; push_cast; ring
  rw [e1] at a1
  rw [e2] at a2
  linarith

/-- images that are close have shifts that are close modulo the image size -/
theorem position_of_l2 (im1 : Fin ny × Fin nx → ℝ) (hy : 2 ≤ ny) (hx : 2 ≤ nx) (ty tx dy dx R : ℝ)
    (h : l2 (fun p => cshift ty tx im1 p - cshift dy dx im1 p) ≤ R) :
    (∃ z : ℤ, 4 * ‖dft (fun p => (im1 p : ℂ)) (1, 0)‖ * |ty - dy - z * ny| ≤ ny * Real.sqrt ((ny : ℝ) * nx) * R) ∧
    ∃ z : ℤ, 4 * ‖dft (fun p => (im1 p : ℂ)) (0, 1)‖ * |tx - dx - z * nx| ≤ nx * Real.sqrt ((ny : ℝ) * nx) * R := by
  have fin : ∀ (n : ℕ) [NeZero n] (F x : ℝ), 0 ≤ F → 2 * F * |Real.sin (Real.pi * (x / n))| ≤ Real.sqrt ((ny : ℝ) * nx) * R →
      ∃ z : ℤ, 4 * F * |x - z * n| ≤ n * Real.sqrt ((ny : ℝ) * nx) * R := by
    intro n _ F x hF h
    obtain ⟨z, hz⟩ := exists_near_multiple n x
    refine ⟨z, ?_⟩
    have hn : (0 : ℝ) ≤ n := Nat.cast_nonneg n
    calc 4 * F * |x - z * n| = 2 * F * (|x - z * n| * 2) := by ring
      _ ≤ 2 * F * (n * |Real.sin (Real.pi * (x / n))|) := mul_le_mul_of_nonneg_left hz (by positivity)
      _ = n * (2 * F * |Real.sin (Real.pi * (x / n))|) := by ring
      _ ≤ n * (Real.sqrt ((ny : ℝ) * nx) * R) := mul_le_mul_of_nonneg_left h hn
      _ = _ := by ring
  have h4 := mul_le_mul_of_nonneg_left h (Real.sqrt_nonneg ((ny : ℝ) * nx))
  constructor
  · apply fin ny _ _ (norm_nonneg _)
    have h5 := sin_le_l2 im1 ty tx dy dx (1, 0)
    simp only [Np.fftfreq_zero, mul_zero, add_zero] at h5
    rw [abs_sin_fftfreq_one ny hy] at h5
    exact h5.trans h4
  · apply fin nx _ _ (norm_nonneg _)
    have h5 := sin_le_l2 im1 ty tx dy dx (0, 1)
    simp only [Np.fftfreq_zero, mul_zero, zero_add] at h5
    rw [abs_sin_fftfreq_one nx hx] at h5
    exact h5.trans h4

/-- C124: how far from the truth the answer computed in floating point can be, with noise. For any two real images, any displacement
`(dx, dy)`, with `noise = im2 - shift2d(im1, dx, dy)`, and for every point `g` of the zoomed grid: the error of a computed shift
(up to whole image sizes) is at most
`n/(4·|F|)·sqrt(ny·nx)·(π·(|gy - dy| + |gx - dx|)·‖im1‖ + 2·‖noise‖ + |s|·sqrt(2·zoomErr)) + reportErr`, `F` the lowest Fourier coefficient
of `im1` along the axis. -/
theorem C124_position (A : Chi2Arith) (Z : ZoomArith) (δ : ℝ) (hA : Spec.Chi2Accurate A δ) (hZ : Spec.ZoomAccurate Z δ)
    (cfg : FFTConfig) (st : Stats) (hst : Spec.validStats st) (im1 im2 : Fin ny × Fin nx → ℝ) (hy : 2 ≤ ny) (hx : 2 ≤ nx) (dy dx : ℝ)
    (o : Fin ny × Fin nx → ℂ) (ho : shift2d cfg (rArr im1) dx dy 0 false false = .cplx (cArr o))
    (err : ErrArg ny nx) (s : ℝ) (hs0 : s ≠ 0) (herr : Spec.isScalarErr err s)
    (us : UsFactor) (zm : Bool) (nf : ℝ) (mas : ℕ) (mns : ℝ) (hus : Spec.validUs ny mas us) :
    ∃ c : Fin ny × Fin nx → ℝ, chi2nMap cfg (realArr im1) (realArr im2) err zm false false true = .ok (.only c) ∧
    ∃ (q : Fin ny × Fin nx) (u rx ry : ℝ) (s1 s2 : ℕ), (s1, s2) = Spec.gridSize ny nx mas us ∧
      Spec.nearFactor δ (Spec.chi2Err δ zm (realArr im1) (realArr im2) err) c (mAuto st mns nf) mas us u ∧
      chi2ShiftA A Z st (realArr im1) (realArr im2) err us zm nf false false mas mns = .ok [.num rx, .num ry] ∧
      ∀ g : Fin s1 × Fin s2, ∀ R, R = Real.pi * (|-Spec.gridShift ny q.1 u s1 g.1 - dy| + |-Spec.gridShift nx q.2 u s2 g.2 - dx|)
            * Real.sqrt (∑ p, im1 p ^ 2) + 2 * Real.sqrt (∑ p, ‖(im2 p : ℂ) - o p‖ ^ 2)
            + |s| * Real.sqrt (2 * Spec.zoomErr δ (Spec.chi2Err δ zm (realArr im1) (realArr im2) err) c q u s1 s2) →
        (∃ z : ℤ, 4 * ‖dft (fun p => (im1 p : ℂ)) (1, 0)‖ * |ry - dy - z * ny| ≤ ny * Real.sqrt ((ny : ℝ) * nx) * R
          + 4 * ‖dft (fun p => (im1 p : ℂ)) (1, 0)‖ * Spec.reportErr δ ny q.1 u s1) ∧
        ∃ z : ℤ, 4 * ‖dft (fun p => (im1 p : ℂ)) (0, 1)‖ * |rx - dx - z * nx| ≤ nx * Real.sqrt ((ny : ℝ) * nx) * R
          + 4 * ‖dft (fun p => (im1 p : ℂ)) (0, 1)‖ * Spec.reportErr δ nx q.2 u s2 := by
  have hs : ∀ t, err = .scalar t → t ≠ 0 := by
    rintro t rfl
    have : s = t := herr
    rwa [← this]
  obtain ⟨c, h1, h2⟩ := C113_map_error A δ hA cfg (realArr im1) (realArr im2) err hs zm
  obtain ⟨q, s1, s2, i1, i2, hq, hg, u, xv, yv, ups, hu, hnf, -, hyv, hxv, hz, er, her, hres⟩ :=
    chi2ShiftA_core hA hZ st hst (realArr im1) (realArr im2) err us zm nf mas mns hus c _ h2
  have hc : c = fun i => Spec.chi2 (prep zm (realArr im1)) (prep zm (realArr im2)) (fun _ => s) (Spec.lag ny i.1) (Spec.lag nx i.2) := by
    obtain ⟨m, e1, e2⟩ := chi2nMapBody_chi2 cfg (realArr im1) (realArr im2) err zm true (.inl rfl)
    have e3 : chi2nMap cfg (realArr im1) (realArr im2) err zm false false true = .ok (.only m.chi2) := by rw [chi2nMap_same, e1]; rfl
    have e4 : c = m.chi2 := by
      have := h1.symm.trans e3
      simpa using this
    funext i
    rw [e4, e2, scalarErr_errOf herr, scalarErr_maskOf herr, scalarErr_maskOf herr]
  have hval : ∀ i : Fin s1 × Fin s2, (interp2C (fun i => (c i : ℂ)) (Spec.gridShift ny q.1 u s1 i.1 + (Spec.zeroLag ny : ℕ))
      (Spec.gridShift nx q.2 u s2 i.2 + (Spec.zeroLag nx : ℕ))).re
      = Spec.resid (prep zm (realArr im1)) (prep zm (realArr im2)) s (Spec.gridShift ny q.1 u s1 i.1) (Spec.gridShift nx q.2 u s2 i.2) := by
    intro i
    have e : (fun i => (c i : ℂ)) = fun i => ((Spec.chi2 (prep zm (realArr im1)) (prep zm (realArr im2)) (fun _ => s)
        (Spec.lag ny i.1) (Spec.lag nx i.2) : ℝ) : ℂ) := by rw [hc]
    rw [e, interp2C_chi2, add_sub_cancel_right, add_sub_cancel_right]
  simp only [hval] at hz
  refine ⟨c, h1, q, u, -xv (Np.argmin ups).2, -yv (Np.argmin ups).1, s1, s2, hg, hnf, (hres false false).trans rfl, fun g R hR => ?_⟩
  have hE := (abs_nonneg _).trans (hz g)
  have k1 := near_best_slack zm im1 im2 s hs0 _ (mul_nonneg zero_le_two hE) dy dx
    (-Spec.gridShift ny q.1 u s1 (Np.argmin ups).1) (-Spec.gridShift nx q.2 u s2 (Np.argmin ups).2)
    (-Spec.gridShift ny q.1 u s1 g.1) (-Spec.gridShift nx q.2 u s2 g.2)
    (by rw [neg_neg, neg_neg, neg_neg, neg_neg]; exact argmin_near hz g)
  have k2 := cshift_lipschitz im1 (-Spec.gridShift ny q.1 u s1 g.1) (-Spec.gridShift nx q.2 u s2 g.2) dy dx
  rw [shift2d_cplx ho] at hR
  obtain ⟨⟨z1, p1⟩, z2, p2⟩ := position_of_l2 im1 hy hx (-Spec.gridShift ny q.1 u s1 (Np.argmin ups).1)
    (-Spec.gridShift nx q.2 u s2 (Np.argmin ups).2) dy dx R (by
      unfold l2 at k1 k2 ⊢
      rw [hR]
      linarith)
  have fin : ∀ F v g d B W : ℝ, 0 ≤ F → |v - g| ≤ W → 4 * F * |-g - d| ≤ B → 4 * F * |-v - d| ≤ B + 4 * F * W := by
    intro F v g d B W hF h1 h2
    have h3 : |-v - d| ≤ |-g - d| + W := by
      have e : -v - d = (-g - d) + -(v - g) := by ring
      have := abs_add_le (-g - d) (-(v - g))
      rw [← e, abs_neg] at this
      linarith
    nlinarith [mul_le_mul_of_nonneg_left h3 hF]
  refine ⟨⟨z1, ?_⟩, z2, ?_⟩
  · rw [sub_sub] at p1 ⊢
    exact fin _ _ _ _ _ _ (norm_nonneg _) (hyv _) p1
  · rw [sub_sub] at p2 ⊢
    exact fin _ _ _ _ _ _ (norm_nonneg _) (hxv _) p2

/-! ### whole-pixel displacements -/

theorem zoomErr_ge {δ T : ℝ} (h0 : 0 ≤ δ) (hT : 0 ≤ T) (c : Fin ny × Fin nx → ℝ) (q : Fin ny × Fin nx) (u : ℝ) (s1 s2 : ℕ) :
    T ≤ Spec.zoomErr δ T c q u s1 s2 := by
  unfold Spec.zoomErr
  have k1 := kernelErr_nonneg h0 7 (zoomReach_nonneg (Spec.zoomCentre ny q.1) u s1)
  have k2 := kernelErr_nonneg h0 7 (zoomReach_nonneg (Spec.zoomCentre nx q.2) u s2)
  have e : 0 ≤ Spec.interp2Err δ 7 (Spec.zoomReach (Spec.zoomCentre ny q.1) u s1) (Spec.zoomReach (Spec.zoomCentre nx q.2) u s2) := by
    unfold Spec.interp2Err
    have a1 : 1 ≤ (1 + δ) ^ 3 := one_le_pow₀ (by linarith)
    have a2 := one_le_mul_of_one_le_of_one_le a1 (by linarith : 1 ≤ 1 + Spec.kernelErr δ 7 (Real.pi * Spec.zoomReach (Spec.zoomCentre ny q.1) u s1))
    have a3 := one_le_mul_of_one_le_of_one_le a2 (by linarith : 1 ≤ 1 + Spec.kernelErr δ 7 (Real.pi * Spec.zoomReach (Spec.zoomCentre nx q.2) u s2))
    linarith
  have n1 : 1 ≤ Real.sqrt ((ny : ℝ) * nx) := by
    rw [Real.one_le_sqrt]
    have h1 : (1 : ℝ) ≤ ny := by exact_mod_cast Nat.pos_of_ne_zero (NeZero.ne ny)
    have h2 : (1 : ℝ) ≤ nx := by exact_mod_cast Nat.pos_of_ne_zero (NeZero.ne nx)
    nlinarith
  have c0 := Real.sqrt_nonneg (∑ i, c i ^ 2)
  have t1 := mul_le_mul_of_nonneg_right n1 hT
  have t2 := mul_nonneg e (add_nonneg c0 (mul_nonneg (Real.sqrt_nonneg ((ny : ℝ) * nx)) hT))
  linarith

/-- the rounding error of a shift reported with `upsample_factor=1` is a few units in the last place of the image size -/
theorem reportErr_le {δ : ℝ} (h0 : 0 ≤ δ) (n : ℕ) [NeZero n] (q : Fin n) : Spec.reportErr δ n q 1 n ≤ ((1 + δ) ^ 4 - 1) * (2 * n) := by
  unfold Spec.reportErr
  have a1 : 1 ≤ (1 + δ) ^ 4 := one_le_pow₀ (by linarith)
  refine mul_le_mul_of_nonneg_left ?_ (by linarith)
  unfold Spec.zoomReach Spec.zoomCentre
  have hn : (1 : ℝ) ≤ n := by exact_mod_cast Nat.pos_of_ne_zero (NeZero.ne n)
  have hq : ((q : ℕ) : ℝ) + 1 ≤ n := by exact_mod_cast q.isLt
  have q0 : (0 : ℝ) ≤ ((q : ℕ) : ℝ) := Nat.cast_nonneg _
  have z0 : (0 : ℝ) ≤ ((Spec.zeroLag n : ℕ) : ℝ) := Nat.cast_nonneg _
  have z1 : 2 * ((Spec.zeroLag n : ℕ) : ℝ) ≤ n - 1 := by
    have : 2 * Spec.zeroLag n + 1 ≤ n := by have := Nat.pos_of_ne_zero (NeZero.ne n); unfold Spec.zeroLag; omega
    have : 2 * ((Spec.zeroLag n : ℕ) : ℝ) + 1 ≤ n := by exact_mod_cast this
    linarith
  have h1 : |((n : ℝ) - 1) / 2 + (((q : ℕ) : ℝ) - ((Spec.zeroLag n : ℕ) : ℝ))| = ((n : ℝ) - 1) / 2 + (((q : ℕ) : ℝ) - ((Spec.zeroLag n : ℕ) : ℝ)) :=
    abs_of_nonneg (by linarith)
  have h2 : |((n : ℝ) - 1) / 1 / 2| = ((n : ℝ) - 1) / 2 := by rw [div_one]; exact abs_of_nonneg (by linarith)
  rw [h1, h2]
  linarith

/-- C124: if the exact map is below all its other pixels at `q` by more than `2·zoomErr`, `chi2_shift` with `upsample_factor=1` computes the shift
pixel `q` stands for, up to rounding of the two reported numbers. -/
theorem C124_whole_pixel (A : Chi2Arith) (Z : ZoomArith) (δ : ℝ) (hA : Spec.Chi2Accurate A δ) (hZ : Spec.ZoomAccurate Z δ) (cfg : FFTConfig)
    (st : Stats) (hst : Spec.validStats st) (im1 im2 : Fin ny × Fin nx → Pix) (hy : 2 ≤ ny) (err : ErrArg ny nx)
    (hs : ∀ s, err = .scalar s → s ≠ 0) (zm : Bool) (nf : ℝ) (mas : ℕ) (mns : ℝ)
    (c : Fin ny × Fin nx → ℝ) (hc : chi2nMap cfg im1 im2 err zm false false true = .ok (.only c)) (q : Fin ny × Fin nx)
    (hq : ∀ i, i ≠ q → c q + 2 * Spec.zoomErr δ (Spec.chi2Err δ zm im1 im2 err) c q 1 ny nx < c i) :
    ∃ rx ry, chi2ShiftA A Z st im1 im2 err (.int 1) zm nf false false mas mns = .ok [.num rx, .num ry] ∧
      |rx - ((((nx - 1) / 2 : ℕ) : ℝ) - ((q.2 : ℕ) : ℝ))| ≤ ((1 + δ) ^ 4 - 1) * (2 * nx) ∧
      |ry - ((((ny - 1) / 2 : ℕ) : ℝ) - ((q.1 : ℕ) : ℝ))| ≤ ((1 + δ) ^ 4 - 1) * (2 * ny) := by
  have h2 : ∀ i, |chi2MapA A im1 im2 err zm i - c i| ≤ Spec.chi2Err δ zm im1 im2 err := by
    obtain ⟨c', e1, e2⟩ := C113_map_error A δ hA cfg im1 im2 err hs zm
    have e : c = c' := by
      have := hc.symm.trans e1
      simpa using this
    rw [e]; exact e2
  have hT := (abs_nonneg _).trans (h2 q)
  have hge := zoomErr_ge hZ.nonneg hT c q 1 ny nx
  have a1 := (C113_same_pixel A δ hA cfg im1 im2 err hs zm c hc q (fun i hi => by have := hq i hi; linarith)).1
  obtain ⟨q', s1, s2, i1, i2, hq', hg, u, xv, yv, ups, hu, hnf, -, hyv, hxv, hz, er, her, hres⟩ :=
    chi2ShiftA_core hA hZ st hst im1 im2 err (.int 1) zm nf mas mns Nat.one_pos c _ h2
  rw [a1] at hq'
  subst hq'
  have hgs : Spec.gridSize ny nx mas (.int 1) = (ny, nx) := by
    simp only [Spec.gridSize]
    rw [if_neg (by omega)]
  rw [hgs] at hg
  obtain ⟨rfl, rfl⟩ := Prod.mk.inj hg
  have hu1 : u = 1 := by
    have : u = ((1 : ℕ) : ℝ) := hnf
    rw [this]; norm_num
  subst hu1
  have hgz : ∀ (n : ℕ) [NeZero n] (a i : Fin n), Spec.gridShift n a 1 n i
      = ((((a : ℕ) : ℤ) + ((i : ℕ) : ℤ) - 2 * (Spec.zeroLag n : ℤ) : ℤ) : ℝ) := by
    intro n _ a i
    unfold Spec.gridShift
    rw [halfPix_eq]; push_cast; ring
  have hval : ∀ i : Fin s1 × Fin s2, (interp2C (fun i => (c i : ℂ)) (Spec.gridShift s1 q'.1 1 s1 i.1 + (Spec.zeroLag s1 : ℕ))
      (Spec.gridShift s2 q'.2 1 s2 i.2 + (Spec.zeroLag s2 : ℕ))).re
      = c (Spec.wrap s1 (((q'.1 : ℕ) : ℤ) + ((i.1 : ℕ) : ℤ) - (Spec.zeroLag s1 : ℤ)),
        Spec.wrap s2 (((q'.2 : ℕ) : ℤ) + ((i.2 : ℕ) : ℤ) - (Spec.zeroLag s2 : ℤ))) := by
    intro i
    rw [hgz, hgz]
    have e : ∀ (n : ℕ) (a i : ℤ), (((a + i - 2 * (Spec.zeroLag n : ℤ) : ℤ)) : ℝ) + ((Spec.zeroLag n : ℕ) : ℝ)
        = ((a + i - (Spec.zeroLag n : ℤ) : ℤ) : ℝ) := by
      intro n a i; push_cast; ring
    rw [e, e, interp2C_int, Complex.ofReal_re]
  simp only [hval] at hz
  have zl : ∀ n : ℕ, [NeZero n] → Spec.zeroLag n < n := by
    intro n _
    have := Nat.pos_of_ne_zero (NeZero.ne n)
    unfold Spec.zeroLag; omega
  have hmin : Np.argmin ups = (⟨Spec.zeroLag s1, zl s1⟩, ⟨Spec.zeroLag s2, zl s2⟩) := by
    apply Np.argmin_eq_of_unique
    intro j hj
    have p1 := abs_le.1 (hz j)
    have p2 := abs_le.1 (hz (⟨Spec.zeroLag s1, zl s1⟩, ⟨Spec.zeroLag s2, zl s2⟩))
    simp only [add_sub_cancel_right, Spec.wrap_val] at p2
    have hne : (Spec.wrap s1 (((q'.1 : ℕ) : ℤ) + ((j.1 : ℕ) : ℤ) - (Spec.zeroLag s1 : ℤ)),
        Spec.wrap s2 (((q'.2 : ℕ) : ℤ) + ((j.2 : ℕ) : ℤ) - (Spec.zeroLag s2 : ℤ))) ≠ q' := by
      intro hw
      apply hj
      have back : ∀ (n : ℕ) [NeZero n] (a i : Fin n), Spec.wrap n (((a : ℕ) : ℤ) + ((i : ℕ) : ℤ) - (Spec.zeroLag n : ℤ)) = a →
          i = ⟨Spec.zeroLag n, zl n⟩ := by
        intro n _ a i hwr
        rw [Spec.wrap_eq_iff] at hwr
        have h2 := (hwr.sub (Int.ModEq.refl ((a : ℕ) : ℤ))).add (Int.ModEq.refl (Spec.zeroLag n : ℤ))
        have e1 : ((a : ℕ) : ℤ) + ((i : ℕ) : ℤ) - (Spec.zeroLag n : ℤ) - ((a : ℕ) : ℤ) + (Spec.zeroLag n : ℤ) = ((i : ℕ) : ℤ) := by ring
        have e2 : ((a : ℕ) : ℤ) - ((a : ℕ) : ℤ) + (Spec.zeroLag n : ℤ) = (((⟨Spec.zeroLag n, zl n⟩ : Fin n) : ℕ) : ℤ) := by simp
        rw [e1, e2] at h2
        exact Fin.eq_of_modEq h2
      exact Prod.ext (back s1 q'.1 j.1 (congrArg Prod.fst hw)) (back s2 q'.2 j.2 (congrArg Prod.snd hw))
    have := hq _ hne
    linarith [p1.1, p1.2, p2.1, p2.2]
  have fin : ∀ (n : ℕ) [NeZero n] (a : Fin n) (v : ℝ), |v - Spec.gridShift n a 1 n ⟨Spec.zeroLag n, zl n⟩| ≤ Spec.reportErr δ n a 1 n →
      |-v - ((((n - 1) / 2 : ℕ) : ℝ) - ((a : ℕ) : ℝ))| ≤ ((1 + δ) ^ 4 - 1) * (2 * n) := by
    intro n _ a v h
    refine le_trans (le_of_eq ?_) (h.trans (reportErr_le hZ.nonneg n a))
    rw [hgz, ← abs_neg]
    congr 1
    have : (((n - 1) / 2 : ℕ) : ℝ) = ((Spec.zeroLag n : ℕ) : ℝ) := rfl
    rw [this]; push_cast; ring
  refine ⟨_, _, (hres false false).trans rfl, ?_, ?_⟩
  · rw [hmin]; exact fin s2 _ _ (hxv _)
  · rw [hmin]; exact fin s1 _ _ (hyv _)

end

/-- `C124_whole_pixel` applies to a 2 × 3 image with one bright pixel moved one column to the right, with operations that are all off by one
part in a hundred thousand. -/
example (cfg : FFTConfig) (st : Stats) (hst : Spec.validStats st) (nf : ℝ) (mas : ℕ) (mns : ℝ) :
    ∃ x y, chi2ShiftA (Chi2Arith.biased (1 / 10 ^ 5)) (ZoomArith.biased (1 / 10 ^ 5)) st
      (realArr caseImage) (realArr fun p => Spec.roll2 0 1 caseImage p + 0)
      .none (.int 1) false nf false false mas mns = .ok [.num x, .num y] ∧ |x - 1| ≤ 1 / 10 ^ 3 ∧ |y| ≤ 1 / 10 ^ 3 := by
  obtain ⟨c, hc, hceq, hT, hz, -, -⟩ := case_facts cfg
  obtain ⟨x, y, h1, h2, h3⟩ := C124_whole_pixel (Chi2Arith.biased (1 / 10 ^ 5)) (ZoomArith.biased (1 / 10 ^ 5)) (1 / 10 ^ 5)
    (Chi2Arith.biased_accurate _ (by norm_num) (by norm_num)) (ZoomArith.biased_accurate _ (by norm_num)) cfg st hst
    (realArr caseImage) (realArr fun p => Spec.roll2 0 1 caseImage p + 0) (by norm_num) .none (fun s h => by cases h) false nf mas mns c hc
    ((0 : Fin 2), (0 : Fin 3)) (fun i hi => by
      rw [hceq, hceq i, if_pos rfl, if_neg hi]
      linarith)
  refine ⟨x, y, h1, ?_, ?_⟩
  · have e : ((((3 - 1) / 2 : ℕ) : ℝ) - (((0 : Fin 3) : ℕ) : ℝ)) = 1 := by norm_num
    simp only [e] at h2
    exact h2.trans (by norm_num)
  · have e : ((((2 - 1) / 2 : ℕ) : ℝ) - (((0 : Fin 2) : ℕ) : ℝ)) = 0 := by norm_num
    simp only [e, sub_zero] at h3
    exact h3.trans (by norm_num)

/-- `C124_position` applies to the same operations, the true displacement being half a column and the second image arbitrary. -/
example (cfg : FFTConfig) (st : Stats) (hst : Spec.validStats st) (im2 : Fin 2 × Fin 3 → ℝ) :
    ∃ rx ry B : ℝ, ∃ z : ℤ, chi2ShiftA (Chi2Arith.biased (1 / 10 ^ 5)) (ZoomArith.biased (1 / 10 ^ 5)) st
      (realArr caseImage) (realArr im2) (.scalar 2) (.int 4) true 2 false false 512 5 = .ok [.num rx, .num ry] ∧
      4 * ‖dft (fun p => (caseImage p : ℂ)) (0, 1)‖ * |rx - 1 / 2 - z * (3 : ℕ)| ≤ B := by
  obtain ⟨c, hc, q, u, rx, ry, s1, s2, hg, -, h1, h2⟩ := C124_position (Chi2Arith.biased (1 / 10 ^ 5)) (ZoomArith.biased (1 / 10 ^ 5)) (1 / 10 ^ 5)
    (Chi2Arith.biased_accurate _ (by norm_num) (by norm_num)) (ZoomArith.biased_accurate _ (by norm_num)) cfg st hst
    caseImage im2 (by norm_num) (by norm_num) 0 (1 / 2) (cshift 0 (1 / 2) caseImage) (by
      rw [shift2d_eq, denan_rArr]
      simp only [shiftKernel_zero]
      rw [shiftReturn_cplx]; rfl) (.scalar 2) 2 two_ne_zero rfl (.int 4) true 2 512 5 (by show 0 < 4; norm_num)
  have hg' : Spec.gridSize 2 3 512 (.int 4) = (8, 8) := by simp [Spec.gridSize]
  rw [hg'] at hg
  obtain ⟨rfl, rfl⟩ := Prod.mk.inj hg
  obtain ⟨-, z, hz⟩ := h2 (0, 0) _ rfl
  exact ⟨rx, ry, _, z, h1, hz⟩

end ImgReg
