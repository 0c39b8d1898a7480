import Verif.Props.RandomNoise
import Verif.Props.RegisterNoise
import Verif.Props.RegisterAccuracy
import Verif.Props.CrossCorrNoise
import Verif.Lemmas.Inexact

/-!
# Random noise: `register_images` and the sub-pixel answers (C127)
-/

open Complex Finset MeasureTheory
open scoped ComplexConjugate

namespace ImgReg

namespace Spec

/-- sum of squares of the sum of `a` rolled by `(ey, ex)` and by `(dy, dx)`; zero only if one roll is the negative of the other -/
noncomputable def anticontrast {ny nx : ℕ} [NeZero ny] [NeZero nx] (a : Fin ny × Fin nx → ℝ) (dy dx ey ex : ℤ) : ℝ :=
  ∑ p, (roll2 ey ex a p + roll2 dy dx a p) ^ 2

end Spec

section
variable {ny nx : ℕ} [NeZero ny] [NeZero nx]

/-- `register_images` with `usfac=1` returns the displacement whose correlation with the second image is the largest in modulus -/
theorem register_clear_peak (cfg : FFTConfig) (im1 noise : Fin ny × Fin nx → ℝ) (dy dx : ℤ) (zm : Bool)
    (a : Fin ny × Fin nx → ℝ) (ha : ∀ p, a p = im1 p - if zm then Spec.mean im1 else 0)
    (dx' dy' : ℤ) (mx : dx' ≡ dx [ZMOD nx]) (lx : -(nx : ℤ) ≤ 2 * dx') (rx : 2 * dx' < nx)
    (my : dy' ≡ dy [ZMOD ny]) (ly : -(ny : ℤ) ≤ 2 * dy') (ry : 2 * dy' < ny)
    (hpk : ∀ e ∈ Spec.others ny nx dy dx,
      |∑ p, Spec.roll2 (e.1 : ℕ) (e.2 : ℕ) a p * (Spec.roll2 dy dx a p + noise p)|
        < |∑ p, Spec.roll2 dy dx a p * (Spec.roll2 dy dx a p + noise p)|) :
    registerImages cfg (realArr im1) (realArr fun p => Spec.roll2 dy dx im1 p + noise p) 1 false false zm none
      = .ok [.num dx', .num dy'] := by
  rw [← roll2_congr my mx, registerImages_same]
  rw [← roll2_congr my mx] at hpk
  have hap : prep zm (realArr im1) = a := by rw [prep_real]; funext p; rw [ha]
  have hb : prep zm (realArr fun p => Spec.roll2 dy' dx' im1 p + noise p)
      = fun p => Spec.roll2 dy' dx' a p + (noise p - if zm then Spec.mean noise else 0) := by
    rw [prep_real]
    funext p
    have e : Spec.mean (fun p => Spec.roll2 dy' dx' im1 p + noise p) = Spec.mean im1 + Spec.mean noise := by
      unfold Spec.mean
      rw [Finset.sum_add_distrib, Spec.roll2_sum, add_div]
    have e2 : Spec.roll2 dy' dx' a p = Spec.roll2 dy' dx' im1 p - if zm then Spec.mean im1 else 0 := by
      unfold Spec.roll2; rw [ha]
    rw [e, e2]
    split_ifs <;> ring
  set b : Fin ny × Fin nx → ℝ := fun p => Spec.roll2 dy' dx' a p + (noise p - if zm then Spec.mean noise else 0) with hbdef
  -- the mean of the noise drops out
  have ha0 : zm = true → ∑ p, a p = 0 := by
    intro h
    simp only [ha, h, if_true]
    rw [Finset.sum_sub_distrib, Finset.sum_const, Finset.card_univ, nsmul_eq_mul, Spec.mean, Fintype.card_prod, Fintype.card_fin,
      Fintype.card_fin]
    have c0 : (ny : ℝ) * nx ≠ 0 := by have := NeZero.ne ny; have := NeZero.ne nx; positivity
    push_cast
    rw [mul_div_cancel₀ _ c0, sub_self]
  have hdrop : ∀ ey ex : ℤ, ∑ p, Spec.roll2 ey ex a p * b p = ∑ p, Spec.roll2 ey ex a p * (Spec.roll2 dy' dx' a p + noise p) := by
    intro ey ex
    rw [← sub_eq_zero, ← Finset.sum_sub_distrib]
    have : ∀ p, Spec.roll2 ey ex a p * b p - Spec.roll2 ey ex a p * (Spec.roll2 dy' dx' a p + noise p)
        = Spec.roll2 ey ex a p * -(if zm then Spec.mean noise else 0) := by
      intro p; rw [hbdef]; ring
    simp only [this]
    rw [← Finset.sum_mul, Spec.roll2_sum]
    cases zm with
    | false => simp
    | true => rw [ha0 rfl, zero_mul]
  -- the correlation at whole-pixel displacements
  have hcc : ∀ j k : ℤ, Spec.cc a b j k = ((∑ p, Spec.roll2 (-j) (-k) a p * b p : ℝ) : ℂ) := by
    intro j k
    unfold Spec.cc
    have : ∀ p, (a p : ℂ) * conj (cshift j k b p) = ((a p * Spec.roll2 j k b p : ℝ) : ℂ) := by
      intro p
      rw [cshift_int, Complex.conj_ofReal]; push_cast; ring
    simp only [this]
    rw [← Complex.ofReal_sum]
    congr 1
    rw [← Spec.roll2_sum j k (fun p => Spec.roll2 (-j) (-k) a p * b p)]
    refine Finset.sum_congr rfl fun p _ => ?_
    have h1 : Spec.roll2 j k (fun p => Spec.roll2 (-j) (-k) a p * b p) p = Spec.roll2 j k (Spec.roll2 (-j) (-k) a) p * Spec.roll2 j k b p := rfl
    rw [h1]
    congr 1
    rw [roll2_at, roll2_at, neg_neg, neg_neg, move_move, add_neg_cancel, add_neg_cancel, move_zero]
  obtain ⟨fit, hfit, hr, hc⟩ := fit_recovers_of_peak ⟨cfg.hasFftw, false, 1⟩ a b dy' dx' 1 le_rfl (.inl rfl)
    (fun t u t' u' ht hu' hp hne => by
      have int : ∀ t ∈ Spec.candidates 1, ∃ z : ℤ, t = z := by
        rintro t (⟨z, hz⟩ | ⟨h, -⟩)
        · exact ⟨z, by simpa using hz⟩
        · omega
      obtain ⟨j, hj⟩ := int _ ht
      obtain ⟨k, hk⟩ := int _ hu'
      obtain ⟨⟨z, hz⟩, w, hw⟩ := hp
      obtain rfl : t = ((j - dy' : ℤ) : ℝ) := by push_cast; linarith
      obtain rfl : u = ((k - dx' : ℤ) : ℝ) := by push_cast; linarith
      obtain rfl : t' = ((z * ny - dy' : ℤ) : ℝ) := by push_cast; linarith
      obtain rfl : u' = ((w * nx - dx' : ℤ) : ℝ) := by push_cast; linarith
      rw [hcc, hcc, Complex.norm_real, Complex.norm_real, Real.norm_eq_abs, Real.norm_eq_abs, hdrop, hdrop]
      have c1 : -(z * ny - dy') ≡ dy' [ZMOD ny] := by
        apply Int.modEq_iff_dvd.2; exact ⟨z, by ring⟩
      have c2 : -(w * nx - dx') ≡ dx' [ZMOD nx] := by
        apply Int.modEq_iff_dvd.2; exact ⟨w, by ring⟩
      rw [roll2_congr c1 c2 a]
      have w1 := Spec.wrap_modEq ny (-(j - dy'))
      have w2 := Spec.wrap_modEq nx (-(k - dx'))
      have := hpk (Spec.wrap ny (-(j - dy')), Spec.wrap nx (-(k - dx'))) (by
        simp only [Spec.others, Finset.mem_filter, Finset.mem_univ, true_and]
        rintro ⟨h1, h2⟩
        apply hne
        have back : ∀ (n : ℕ) (d' d j : ℤ), -(j - d') ≡ d [ZMOD n] → d' ≡ d [ZMOD n] → ∃ z : ℤ, (j : ℝ) = z * n := by
          intro n d' d j h h'
          obtain ⟨z, hz⟩ := Int.modEq_iff_dvd.1 (h.trans h'.symm)
          refine ⟨z, ?_⟩
          have : j = z * n := by linarith
          rw [this]; push_cast; ring
        obtain ⟨z1, hz1⟩ := back ny dy' dy j (w1.symm.trans h1) my
        obtain ⟨z2, hz2⟩ := back nx dx' dx k (w2.symm.trans h2) mx
        exact ⟨⟨z1, by rw [← hz1]; push_cast; ring⟩, z2, by rw [← hz2]; push_cast; ring⟩)
      rw [roll2_congr w1 w2 a] at this
      exact this)
    ⟨ly, ry⟩ ⟨lx, rx⟩ none (by intro k hk; cases hk)
  rw [registerBody_ok cfg _ _ 1 false false zm none fit (by rw [hap, hb]; exact hfit), hr, hc]
  simp

variable {Ω : Type*} [MeasurableSpace Ω] (μ : Measure Ω)

/-- the wrong-pixel event of `register_images` is covered by two events per displacement -/
theorem register_wrong_aux (cfg : FFTConfig) [IsFiniteMeasure μ]
    (im1 : Fin ny × Fin nx → ℝ) (n : Ω → Fin ny × Fin nx → ℝ) (dy dx : ℤ) (zm : Bool)
    (a : Fin ny × Fin nx → ℝ) (ha : ∀ p, a p = im1 p - if zm then Spec.mean im1 else 0) (F G : Fin ny × Fin nx → ℝ)
    (hF : ∀ e ∈ Spec.others ny nx dy dx, μ.real {ω | Spec.contrast a (fun _ => 1) dy dx (e.1 : ℕ) (e.2 : ℕ)
      ≤ 2 * ∑ p, n ω p * (Spec.roll2 (e.1 : ℕ) (e.2 : ℕ) a p - Spec.roll2 dy dx a p)} ≤ F e)
    (hG : ∀ e ∈ Spec.others ny nx dy dx, μ.real {ω | Spec.anticontrast a dy dx (e.1 : ℕ) (e.2 : ℕ)
      ≤ 2 * ∑ p, n ω p * -(Spec.roll2 (e.1 : ℕ) (e.2 : ℕ) a p + Spec.roll2 dy dx a p)} ≤ G e) :
    ∃ dx' dy' : ℤ,
      (dx' ≡ dx [ZMOD nx] ∧ -(nx : ℤ) ≤ 2 * dx' ∧ 2 * dx' < nx) ∧ (dy' ≡ dy [ZMOD ny] ∧ -(ny : ℤ) ≤ 2 * dy' ∧ 2 * dy' < ny) ∧
      μ.real {ω | registerImages cfg (realArr im1) (realArr fun p => Spec.roll2 dy dx im1 p + n ω p) 1 false false zm none
        ≠ .ok [.num dx', .num dy']} ≤ ∑ e ∈ Spec.others ny nx dy dx, (F e + G e) := by
  obtain ⟨dy', -, cy, ly, uy, -⟩ := exists_rep ny dy
  obtain ⟨dx', -, cx, lx, ux, -⟩ := exists_rep nx dx
  refine ⟨dx', dy', ⟨cx, lx, ux⟩, ⟨cy, ly, uy⟩, ?_⟩
  refine wrong_le μ dy dx (fun e => {ω | Spec.contrast a (fun _ => 1) dy dx (e.1 : ℕ) (e.2 : ℕ)
      ≤ 2 * ∑ p, n ω p * (Spec.roll2 (e.1 : ℕ) (e.2 : ℕ) a p - Spec.roll2 dy dx a p)} ∪
      {ω | Spec.anticontrast a dy dx (e.1 : ℕ) (e.2 : ℕ)
      ≤ 2 * ∑ p, n ω p * -(Spec.roll2 (e.1 : ℕ) (e.2 : ℕ) a p + Spec.roll2 dy dx a p)}) _ ?_
    (fun e he => (measureReal_union_le _ _).trans (add_le_add (hF e he) (hG e he)))
  intro ω hω
  refine register_clear_peak cfg im1 (n ω) dy dx zm a ha dx' dy' cx lx ux cy ly uy fun e he => ?_
  have h := hω e he
  simp only [Set.mem_union, Set.mem_ofPred_eq, not_or, not_le, Spec.contrast, Spec.anticontrast] at h
  obtain ⟨h1, h2⟩ := h
  have hE : ∑ p, Spec.roll2 (e.1 : ℕ) (e.2 : ℕ) a p ^ 2 = ∑ p, Spec.roll2 dy dx a p ^ 2 :=
    (Spec.roll2_sum (e.1 : ℕ) (e.2 : ℕ) (fun p => a p ^ 2)).trans (Spec.roll2_sum dy dx (fun p => a p ^ 2)).symm
  set u := Spec.roll2 (e.1 : ℕ) (e.2 : ℕ) a
  set v := Spec.roll2 dy dx a
  have k1 : 2 * (∑ p, v p * (v p + n ω p) - ∑ p, u p * (v p + n ω p))
      = (∑ p, (u p - v p) ^ 2 / 1 ^ 2 - 2 * ∑ p, n ω p * (u p - v p)) - (∑ p, u p ^ 2 - ∑ p, v p ^ 2) := by
    simp only [Finset.mul_sum, ← Finset.sum_sub_distrib]
    exact Finset.sum_congr rfl fun p _ => by ring
  have k2 : 2 * (∑ p, v p * (v p + n ω p) + ∑ p, u p * (v p + n ω p))
      = (∑ p, (u p + v p) ^ 2 - 2 * ∑ p, n ω p * -(u p + v p)) - (∑ p, u p ^ 2 - ∑ p, v p ^ 2) := by
    simp only [Finset.mul_sum, ← Finset.sum_sub_distrib, ← Finset.sum_add_distrib]
    exact Finset.sum_congr rfl fun p _ => by ring
  refine lt_of_lt_of_le (abs_lt.2 ⟨?_, ?_⟩) (le_abs_self _) <;> linarith

/-- C127: the probability that `register_images` with `usfac=1` returns a wrong pixel, for noise with finite variance. `im2` is `im1`
rolled by `(dy, dx)` plus noise, uncorrelated from pixel to pixel, with second moments `τ² ≤ κ`; `a` is `im1`, mean-subtracted with
`zeromean`. With `D_e` and `S_e` the squared norms of the difference and of the sum of `a` rolled by `e` and by `(dy, dx)`, both positive,
the answer is exactly the shift except with probability at most the sum of `4κ/D_e + 4κ/S_e` over the other displacements `e`. -/
theorem C127_register_pixel (cfg : FFTConfig) [IsProbabilityMeasure μ]
    (im1 : Fin ny × Fin nx → ℝ) (n : Ω → Fin ny × Fin nx → ℝ) (dy dx : ℤ) (zm : Bool)
    (a : Fin ny × Fin nx → ℝ) (ha : ∀ p, a p = im1 p - if zm then Spec.mean im1 else 0)
    (τ : Fin ny × Fin nx → ℝ) (κ : ℝ) (hτ : ∀ p, τ p ^ 2 ≤ κ)
    (hint : ∀ p q, Integrable (fun ω => n ω p * n ω q) μ)
    (hcov : ∀ p q, ∫ ω, n ω p * n ω q ∂μ = if p = q then τ p ^ 2 else 0)
    (hsep : ∀ e ∈ Spec.others ny nx dy dx, 0 < Spec.contrast a (fun _ => 1) dy dx (e.1 : ℕ) (e.2 : ℕ) ∧
      0 < Spec.anticontrast a dy dx (e.1 : ℕ) (e.2 : ℕ)) :
    ∃ dx' dy' : ℤ,
      (dx' ≡ dx [ZMOD nx] ∧ -(nx : ℤ) ≤ 2 * dx' ∧ 2 * dx' < nx) ∧ (dy' ≡ dy [ZMOD ny] ∧ -(ny : ℤ) ≤ 2 * dy' ∧ 2 * dy' < ny) ∧
      μ.real {ω | registerImages cfg (realArr im1) (realArr fun p => Spec.roll2 dy dx im1 p + n ω p) 1 false false zm none
        ≠ .ok [.num dx', .num dy']}
        ≤ ∑ e ∈ Spec.others ny nx dy dx, (4 * κ / Spec.contrast a (fun _ => 1) dy dx (e.1 : ℕ) (e.2 : ℕ)
            + 4 * κ / Spec.anticontrast a dy dx (e.1 : ℕ) (e.2 : ℕ)) := by
  have key : ∀ (w : Fin ny × Fin nx → ℝ) (S : ℝ), 0 < S → S = ∑ p, w p ^ 2 → μ.real {ω | S ≤ 2 * ∑ p, n ω p * w p} ≤ 4 * κ / S := by
    intro w S hS hw
    obtain ⟨i1, i2⟩ := moment_lin μ n τ w hint hcov
    have hV : ∑ p, τ p ^ 2 * w p ^ 2 ≤ κ * S := by
      rw [hw, Finset.mul_sum]
      exact Finset.sum_le_sum fun p _ => mul_le_mul_of_nonneg_right (hτ p) (sq_nonneg _)
    refine (cheb μ _ _ _ hS i1 (i2.le.trans hV)).trans (le_of_eq ?_)
    field_simp
  refine register_wrong_aux μ cfg im1 n dy dx zm a ha _ _ (fun e he => key _ _ (hsep e he).1 ?_) (fun e he => key _ _ (hsep e he).2 ?_)
  · unfold Spec.contrast; simp
  · unfold Spec.anticontrast; simp only [neg_sq]

/-- C127: the same for independent Gaussian noise of variance at most `κ`: the probability of a wrong pixel falls exponentially with the
contrast. -/
theorem C127_register_gaussian (cfg : FFTConfig) [IsProbabilityMeasure μ]
    (im1 : Fin ny × Fin nx → ℝ) (n : Ω → Fin ny × Fin nx → ℝ) (dy dx : ℤ) (zm : Bool)
    (a : Fin ny × Fin nx → ℝ) (ha : ∀ p, a p = im1 p - if zm then Spec.mean im1 else 0)
    (v : Fin ny × Fin nx → NNReal) (κ : ℝ) (hκ : 0 < κ) (hv : ∀ p, (v p : ℝ) ≤ κ)
    (hind : ProbabilityTheory.iIndepFun (fun p ω => n ω p) μ)
    (hgauss : ∀ p, μ.map (fun ω => n ω p) = ProbabilityTheory.gaussianReal 0 (v p))
    (hsep : ∀ e ∈ Spec.others ny nx dy dx, 0 < Spec.contrast a (fun _ => 1) dy dx (e.1 : ℕ) (e.2 : ℕ) ∧
      0 < Spec.anticontrast a dy dx (e.1 : ℕ) (e.2 : ℕ)) :
    ∃ dx' dy' : ℤ,
      (dx' ≡ dx [ZMOD nx] ∧ -(nx : ℤ) ≤ 2 * dx' ∧ 2 * dx' < nx) ∧ (dy' ≡ dy [ZMOD ny] ∧ -(ny : ℤ) ≤ 2 * dy' ∧ 2 * dy' < ny) ∧
      μ.real {ω | registerImages cfg (realArr im1) (realArr fun p => Spec.roll2 dy dx im1 p + n ω p) 1 false false zm none
        ≠ .ok [.num dx', .num dy']}
        ≤ ∑ e ∈ Spec.others ny nx dy dx, (Real.exp (-(Spec.contrast a (fun _ => 1) dy dx (e.1 : ℕ) (e.2 : ℕ) / (8 * κ)))
            + Real.exp (-(Spec.anticontrast a dy dx (e.1 : ℕ) (e.2 : ℕ) / (8 * κ)))) := by
  refine register_wrong_aux μ cfg im1 n dy dx zm a ha _ _
    (fun e he => lin_tail μ n v κ hκ hv hind (fun p => gauss_sub μ _ _ (hgauss p)) _ _ (hsep e he).1 ?_)
    (fun e he => lin_tail μ n v κ hκ hv hind (fun p => gauss_sub μ _ _ (hgauss p)) _ _ (hsep e he).2 ?_)
  · unfold Spec.contrast; simp
  · unfold Spec.anticontrast; simp only [neg_sq]

omit [NeZero ny] [NeZero nx] in
/-- how likely the noise is large -/
theorem norm_event [IsFiniteMeasure μ] (n : Ω → Fin ny × Fin nx → ℝ) (τ : Fin ny × Fin nx → ℝ)
    (hint : ∀ p, Integrable (fun ω => n ω p ^ 2) μ) (hv : ∀ p, ∫ ω, n ω p ^ 2 ∂μ = τ p ^ 2) (r : ℝ) (hr : 0 < r)
    {A : Ω → Prop} (hA : ∀ ω, Real.sqrt (∑ p, n ω p ^ 2) < r → A ω) :
    μ.real {ω | ¬ A ω} ≤ (∑ p, τ p ^ 2) / r ^ 2 := by
  have hm := mul_meas_ge_le_integral_of_nonneg (μ := μ) (f := fun ω => ∑ p, n ω p ^ 2)
    (Filter.Eventually.of_forall fun ω => Finset.sum_nonneg fun p _ => sq_nonneg _) (integrable_finsetSum _ fun p _ => hint p) (r ^ 2)
  rw [integral_finsetSum _ fun p _ => hint p] at hm
  simp only [hv] at hm
  have hsub : {ω | ¬ A ω} ⊆ {ω | r ^ 2 ≤ ∑ p, n ω p ^ 2} := by
    intro ω hω
    by_contra hc
    simp only [Set.mem_ofPred_eq, not_le] at hc
    apply hω
    apply hA
    rwa [Real.sqrt_lt' hr]
  have h1 := measureReal_mono (μ := μ) hsub (measure_ne_top _ _)
  rw [le_div_iff₀ (by positivity), mul_comm]
  exact (mul_le_mul_of_nonneg_left h1 (by positivity)).trans hm

/-- C127: `register_images` with any `usfac`: if the self-correlation of `a` (`im1`, mean-subtracted with `zeromean`) at every other
candidate displacement stays below its value at 0 by at least `m > 0` in modulus, and the noise pixels have second moments `τ²`
(they may be correlated), then the answer is exactly the shift except with probability at most `4 ‖a‖² Σ τ² / m²`. -/
theorem C127_register_exact (cfg : FFTConfig) [IsProbabilityMeasure μ]
    (im1 : Fin ny × Fin nx → ℝ) (n : Ω → Fin ny × Fin nx → ℝ) (dy dx : ℤ) (usfac : ℕ)
    (hu : 1 ≤ usfac) (hsz : usfac = 1 ∨ (2 ≤ ny ∧ 2 ≤ nx)) (zm : Bool)
    (a : Fin ny × Fin nx → ℝ) (ha : ∀ p, a p = im1 p - if zm then Spec.mean im1 else 0)
    (τ : Fin ny × Fin nx → ℝ)
    (hint : ∀ p, Integrable (fun ω => n ω p ^ 2) μ) (hv : ∀ p, ∫ ω, n ω p ^ 2 ∂μ = τ p ^ 2)
    (m : ℝ) (hm : 0 < m) (ha0 : 0 < ∑ p, a p ^ 2)
    (hmargin : ∀ t ∈ Spec.candidates usfac, ∀ u ∈ Spec.candidates usfac,
      ¬ ((∃ z : ℤ, t = z * ny) ∧ ∃ z : ℤ, u = z * nx) → ‖Spec.cc a a t u‖ + m ≤ ∑ p, a p ^ 2) :
    ∃ dx' dy' : ℤ,
      (dx' ≡ dx [ZMOD nx] ∧ -(nx : ℤ) ≤ 2 * dx' ∧ 2 * dx' < nx) ∧ (dy' ≡ dy [ZMOD ny] ∧ -(ny : ℤ) ≤ 2 * dy' ∧ 2 * dy' < ny) ∧
      μ.real {ω | registerImages cfg (realArr im1) (realArr fun p => Spec.roll2 dy dx im1 p + n ω p) usfac false false zm none
        ≠ .ok [.num dx', .num dy']} ≤ 4 * (∑ p, a p ^ 2) * (∑ p, τ p ^ 2) / m ^ 2 := by
  obtain ⟨dy', -, cy, ly, uy, -⟩ := exists_rep ny dy
  obtain ⟨dx', -, cx, lx, ux, -⟩ := exists_rep nx dx
  refine ⟨dx', dy', ⟨cx, lx, ux⟩, ⟨cy, ly, uy⟩, ?_⟩
  have hq := Real.sqrt_pos.2 ha0
  refine (norm_event μ n τ hint hv (m / (2 * Real.sqrt (∑ p, a p ^ 2))) (by positivity) (fun ω hω => ?_)).trans (le_of_eq ?_)
  · rw [lt_div_iff₀ (by positivity)] at hω
    obtain ⟨x, y, h, c1, l1, u1, c2, l2, u2⟩ := C98_roll_with_noise cfg im1 (n ω) dy dx usfac hu hsz zm a ha (fun t ht u hu' hne => by
      have := hmargin t ht u hu' hne
      nlinarith)
    have uniq : ∀ (k : ℕ) [NeZero k] (x y d : ℤ), x ≡ d [ZMOD k] → y ≡ d [ZMOD k] → -(k : ℤ) ≤ 2 * x → 2 * x < k → -(k : ℤ) ≤ 2 * y → 2 * y < k → x = y := by
      intro k _ x y d h1 h2 a1 a2 a3 a4
      obtain ⟨z, hz⟩ := Int.modEq_iff_dvd.1 (h1.trans h2.symm)
      have hk := Nat.pos_of_ne_zero (NeZero.ne k)
      have : z = 0 := by
        by_contra hz0
        have : (k : ℤ) ≤ |(k : ℤ) * z| := by
          rw [abs_mul, Nat.abs_cast]
          have := Int.one_le_abs hz0
          nlinarith
        rw [← hz, le_abs'] at this
        omega
      subst this; omega
    rw [uniq nx _ _ _ c1 cx l1 u1 lx ux, uniq ny _ _ _ c2 cy l2 u2 ly uy] at h
    exact h
  · rw [div_pow, mul_pow, Real.sq_sqrt ha0.le]
    field_simp
    ring

omit [NeZero ny] [NeZero nx] in
/-- distance to a disturbed image -/
theorem dist_noisy (g noise : Fin ny × Fin nx → ℝ) (o : Fin ny × Fin nx → ℂ) :
    Real.sqrt (∑ p, ‖((g p + noise p : ℝ) : ℂ) - o p‖ ^ 2)
      ≤ Real.sqrt (∑ p, ‖(g p : ℂ) - o p‖ ^ 2) + Real.sqrt (∑ p, noise p ^ 2) := by
  have h := l2_sub_le (fun p => ((g p + noise p : ℝ) : ℂ)) (fun p => (g p : ℂ)) o
  have e : (fun p => ((g p + noise p : ℝ) : ℂ) - (g p : ℂ)) = fun p => ((noise p : ℝ) : ℂ) := by
    funext p; push_cast; ring
  rw [e, l2_real, add_comm] at h
  exact h

/-- C127: how far off the sub-pixel answer of `chi2_shift` can be, in probability. Let `im2 = g + noise` for any image `g`, with
`δ = ‖g - shift2d(im1, dx, dy)‖` (0 if `g` is exactly the shifted image), and let the noise pixels have second moments `τ²` (they may be
correlated). For every `r > 0`, except with probability at most `Σ τ² / r²`: for every point `(x, y)` of the returned grid, the
errors of the returned row and column shifts, up to whole image sizes, are at most `n·√(ny·nx)/(4·|F|)` times
`π·(|y - dy| + |x - dx|)·‖im1‖ + 2·(δ + r)`, with `F` the first Fourier coefficient of `im1` along the axis. -/
theorem C127_chi2_subpixel (cfg cfg' : FFTConfig) (st : Stats) (hst : Spec.validStats st) [IsProbabilityMeasure μ]
    (im1 g : Fin ny × Fin nx → ℝ) (n : Ω → Fin ny × Fin nx → ℝ) (hy : 2 ≤ ny) (hx : 2 ≤ nx) (dy dx : ℝ)
    (o : Fin ny × Fin nx → ℂ) (ho : shift2d cfg' (rArr im1) dx dy 0 false false = .cplx (cArr o))
    (δ : ℝ) (hδ : Real.sqrt (∑ p, ‖(g p : ℂ) - o p‖ ^ 2) ≤ δ)
    (err : ErrArg ny nx) (s : ℝ) (hs : s ≠ 0) (herr : Spec.isScalarErr err s)
    (us : UsFactor) (zm : Bool) (nf : ℝ) (mas : ℕ) (mns : ℝ) (ah : Bool) (hf : Spec.fits ah ny nx) (hus : Spec.validUs ny mas us)
    (τ : Fin ny × Fin nx → ℝ)
    (hint : ∀ p, Integrable (fun ω => n ω p ^ 2) μ) (hv : ∀ p, ∫ ω, n ω p ^ 2 ∂μ = τ p ^ 2) (r : ℝ) (hr : 0 < r) :
    μ.real {ω | ¬ ∃ (rx ry : ℝ) (s1 s2 : ℕ) (xv yv c : Fin s1 × Fin s2 → ℝ),
      chi2Shift cfg st (realArr im1) (realArr fun p => g p + n ω p) err us zm nf false false true mas mns ah
        = .ok [.num rx, .num ry, .arrays s1 s2 xv yv c] ∧
      ∀ i : Fin s1 × Fin s2,
        (∃ z : ℤ, 4 * ‖dft (fun p => (im1 p : ℂ)) (1, 0)‖ * |ry - dy - z * ny|
          ≤ ny * Real.sqrt ((ny : ℝ) * nx) * (Real.pi * (|-yv i - dy| + |-xv i - dx|) * Real.sqrt (∑ p, im1 p ^ 2) + 2 * (δ + r))) ∧
        ∃ z : ℤ, 4 * ‖dft (fun p => (im1 p : ℂ)) (0, 1)‖ * |rx - dx - z * nx|
          ≤ nx * Real.sqrt ((ny : ℝ) * nx) * (Real.pi * (|-yv i - dy| + |-xv i - dx|) * Real.sqrt (∑ p, im1 p ^ 2) + 2 * (δ + r))}
      ≤ (∑ p, τ p ^ 2) / r ^ 2 := by
  refine norm_event μ n τ hint hv r hr fun ω hω => ?_
  obtain ⟨rx, ry, s1, s2, xv, yv, c, h, hb⟩ := C97_position cfg cfg' st hst im1 (fun p => g p + n ω p) hy hx dy dx o ho err s hs herr us
    zm nf mas mns ah hf hus
  refine ⟨rx, ry, s1, s2, xv, yv, c, h, fun i => ?_⟩
  have hd : Real.sqrt (∑ p, ‖((g p + n ω p : ℝ) : ℂ) - o p‖ ^ 2) ≤ δ + r := (dist_noisy g (n ω) o).trans (add_le_add hδ hω.le)
  obtain ⟨⟨z, hz⟩, w, hw⟩ := hb i
  refine ⟨⟨z, hz.trans ?_⟩, w, hw.trans ?_⟩ <;>
  · apply mul_le_mul_of_nonneg_left _ (by positivity)
    linarith

/-- C127: the same for `register_images`: `C103_position` with `δ + r` in place of the norm of the disturbance, except with probability at
most `Σ τ² / r²`. -/
theorem C127_register_subpixel (cfg cfg' : FFTConfig) [IsProbabilityMeasure μ]
    (im1 g a : Fin ny × Fin nx → ℝ) (n : Ω → Fin ny × Fin nx → ℝ) (zm : Bool)
    (ha : ∀ p, a p = im1 p - if zm then Spec.mean im1 else 0) (usfac qq : ℕ) (hy : 2 ≤ ny) (hx : 2 ≤ nx)
    (hq : (usfac = 1 ∧ qq = 1) ∨ (Even usfac ∧ 2 ≤ usfac ∧ qq = 2))
    (dy dx : ℝ) (o : Fin ny × Fin nx → ℂ) (ho : shift2d cfg' (rArr im1) dx dy 0 false false = .cplx (cArr o))
    (δ : ℝ) (hδ : Real.sqrt (∑ p, ‖(g p : ℂ) - o p‖ ^ 2) ≤ δ) (τ : Fin ny × Fin nx → ℝ)
    (hint : ∀ p, Integrable (fun ω => n ω p ^ 2) μ) (hv : ∀ p, ∫ ω, n ω p ^ 2 ∂μ = τ p ^ 2) (r : ℝ) (hr : 0 < r) :
    μ.real {ω | ¬ ∃ rx ry : ℝ, registerImages cfg (realArr im1) (realArr fun p => g p + n ω p) usfac false false zm none
        = .ok [.num rx, .num ry] ∧ ∀ j k : ℤ,
        (∃ z : ℤ, ∀ (p p' : Fin ny) (q : Fin nx), (p' : ℕ) = p + 1 → 2 * (p' : ℕ) < ny →
          8 * (‖dft (fun p => (a p : ℂ)) (p, q)‖ ^ 2 * ‖dft (fun p => (a p : ℂ)) (p', q)‖ ^ 2) * (ry - dy - z * ny) ^ 2
          ≤ (‖dft (fun p => (a p : ℂ)) (p, q)‖ ^ 2 + ‖dft (fun p => (a p : ℂ)) (p', q)‖ ^ 2)
            * ((ny : ℝ) ^ 2 * ((ny : ℝ) * nx)) * (∑ p, a p ^ 2 - ‖Spec.cc a a ((j : ℝ) / qq - dy) ((k : ℝ) / qq - dx)‖
              + 2 * (Real.sqrt (∑ p, a p ^ 2) * (δ + r)))) ∧
        ∃ z : ℤ, ∀ (p : Fin ny) (q q' : Fin nx), (q' : ℕ) = q + 1 → 2 * (q' : ℕ) < nx →
          8 * (‖dft (fun p => (a p : ℂ)) (p, q)‖ ^ 2 * ‖dft (fun p => (a p : ℂ)) (p, q')‖ ^ 2) * (rx - dx - z * nx) ^ 2
          ≤ (‖dft (fun p => (a p : ℂ)) (p, q)‖ ^ 2 + ‖dft (fun p => (a p : ℂ)) (p, q')‖ ^ 2)
            * ((nx : ℝ) ^ 2 * ((ny : ℝ) * nx)) * (∑ p, a p ^ 2 - ‖Spec.cc a a ((j : ℝ) / qq - dy) ((k : ℝ) / qq - dx)‖
              + 2 * (Real.sqrt (∑ p, a p ^ 2) * (δ + r)))}
      ≤ (∑ p, τ p ^ 2) / r ^ 2 := by
  refine norm_event μ n τ hint hv r hr fun ω hω => ?_
  obtain ⟨rx, ry, h, hb⟩ := C103_position_pairs cfg cfg' im1 (fun p => g p + n ω p) a zm ha usfac qq hy hx hq
  refine ⟨rx, ry, h, fun j k => ?_⟩
  have hd : Real.sqrt (∑ p, ‖((g p + n ω p : ℝ) : ℂ) - o p‖ ^ 2) ≤ δ + r := (dist_noisy g (n ω) o).trans (add_le_add hδ hω.le)
  have hd' := mul_le_mul_of_nonneg_left hd (Real.sqrt_nonneg (∑ p, a p ^ 2))
  obtain ⟨⟨z, hz⟩, w, hw⟩ := hb dy dx o ho j k
  refine ⟨⟨z, fun p p' q h1 h2 => (hz p p' q h1 h2).trans ?_⟩, w, fun p q q' h1 h2 => (hw p q q' h1 h2).trans ?_⟩ <;>
  · apply mul_le_mul_of_nonneg_left _ (by positivity)
    linarith

/-- C127: the same for `cross_correlation_shifts` and a whole-pixel displacement: the answer is within the bound of `C121_noise`, with
`ε = ‖im1‖·r`, of the noise-free answer, except with probability at most `Σ τ² / r²`. -/
theorem C127_cross_correlation (cfg : FFTConfig) (agpy : Agpy ny nx) [IsProbabilityMeasure μ]
    (im1 : Fin ny × Fin nx → ℝ) (n : Ω → Fin ny × Fin nx → ℝ) (dy dx : ℤ)
    (hy1 : dy + 1 ≤ ((ny - 1) / 2 : ℕ)) (hy2 : ((ny - 1) / 2 : ℕ) + 2 ≤ ny + dy)
    (hx1 : dx + 1 ≤ ((nx - 1) / 2 : ℕ)) (hx2 : ((nx - 1) / 2 : ℕ) + 2 ≤ nx + dx)
    (e1 e2 : Option (Fin ny × Fin nx → Pix)) (zm ah : Bool) (hf : Spec.fits ah ny nx) (τ : Fin ny × Fin nx → ℝ)
    (hint : ∀ p, Integrable (fun ω => n ω p ^ 2) μ) (hv : ∀ p, ∫ ω, n ω p ^ 2 ∂μ = τ p ^ 2) (r : ℝ) (hr : 0 < r)
    (ε : ℝ) (hε : ε = Real.sqrt (∑ p, im1 p ^ 2) * r)
    (hmargin : ∀ s t : ℤ, ¬ ((ny : ℤ) ∣ s ∧ (nx : ℤ) ∣ t) → 4 * ε < Spec.selfDist im1 s t)
    (T : ℝ) (hT : T = |Spec.selfDist im1 1 (-1) - Spec.selfDist im1 1 1| / 4)
    (Δ : ℝ) (hΔ : Δ = (Spec.selfDist im1 0 1 - 4 * ε) * (Spec.selfDist im1 1 0 - 4 * ε) - (T + ε) ^ 2) (hpos : 0 < Δ) :
    μ.real {ω | ¬ ∃ rx ry : ℝ, crossCorrelationShifts cfg agpy (realArr im1) (realArr fun p => Spec.roll2 dy dx im1 p + n ω p) e1 e2
        none false false zm ah = .ok [.fin rx, .fin ry] ∧
      |rx - (dx + if nx % 2 = 1 then 1 / 2 else 0)| ≤ ε * (Spec.selfDist im1 0 1 + T + 5 * ε) / Δ ∧
      |ry - (dy + if ny % 2 = 1 then 1 / 2 else 0)| ≤ ε * (Spec.selfDist im1 1 0 + T + 5 * ε) / Δ}
      ≤ (∑ p, τ p ^ 2) / r ^ 2 := by
  refine norm_event μ n τ hint hv r hr fun ω hω => ?_
  have hle : Real.sqrt (∑ p, im1 p ^ 2) * Real.sqrt (∑ p, n ω p ^ 2) ≤ ε := by
    rw [hε]; exact mul_le_mul_of_nonneg_left hω.le (Real.sqrt_nonneg _)
  have h0 : 0 ≤ Real.sqrt (∑ p, im1 p ^ 2) * Real.sqrt (∑ p, n ω p ^ 2) := by positivity
  generalize hε' : Real.sqrt (∑ p, im1 p ^ 2) * Real.sqrt (∑ p, n ω p ^ 2) = ε' at hle h0
  have hT0 : 0 ≤ T := by rw [hT]; positivity
  have nd : ∀ (k : ℕ) (d : ℤ), d + 1 ≤ ((k - 1) / 2 : ℕ) → ((k - 1) / 2 : ℕ) + 2 ≤ k + d → ¬ (k : ℤ) ∣ 1 := by
    intro k d h1 h2 hd
    have := Int.le_of_dvd one_pos hd
    omega
  have m1 := hmargin 0 1 (fun h => nd nx dx hx1 hx2 h.2)
  have m2 := hmargin 1 0 (fun h => nd ny dy hy1 hy2 h.1)
  generalize hA : Spec.selfDist im1 0 1 = A at m1 hΔ ⊢
  generalize hB : Spec.selfDist im1 1 0 = B at m2 hΔ ⊢
  have hΔle : Δ ≤ (A - 4 * ε') * (B - 4 * ε') - (T + ε') ^ 2 := by
    rw [hΔ]
    have h1 : (A - 4 * ε) * (B - 4 * ε) ≤ (A - 4 * ε') * (B - 4 * ε') :=
      mul_le_mul (by linarith) (by linarith) (by linarith) (by linarith)
    have h2 : (T + ε') ^ 2 ≤ (T + ε) ^ 2 := pow_le_pow_left₀ (by linarith) (by linarith) 2
    linarith
  obtain ⟨rx, ry, h, b1, b2⟩ := C121_noise cfg agpy im1 (n ω) dy dx hy1 hy2 hx1 hx2 e1 e2 zm ah hf ε' hε'.symm
    (fun s t hst => by have := hmargin s t hst; linarith) T hT _ rfl (by rw [hA, hB]; linarith)
  rw [hA, hB] at b1 b2
  have mono : ∀ C : ℝ, 4 * ε < C → ε' * (C + T + 5 * ε') / ((A - 4 * ε') * (B - 4 * ε') - (T + ε') ^ 2) ≤ ε * (C + T + 5 * ε) / Δ := by
    intro C hC
    apply div_le_div₀ _ _ hpos hΔle
    · exact mul_nonneg (by linarith) (by linarith)
    · exact mul_le_mul hle (by linarith) (by linarith) (by linarith)
  exact ⟨rx, ry, h, b1.trans (mono A m1), b2.trans (mono B m2)⟩

end
/-! ### Examples: Gaussian noise of variance 1 on a 4×5 image with one bright pixel -/

theorem bright_anticontrast (k : ℝ) (dy dx : ℤ) (e : Fin 4 × Fin 5) (he : e ∈ Spec.others 4 5 dy dx) :
    Spec.anticontrast (bright k) dy dx (e.1 : ℕ) (e.2 : ℕ) = 2 * k ^ 2 := by
  have h := bright_contrast k 1 dy dx e he
  have h2 : ∀ ey ex : ℤ, ∑ p, Spec.roll2 ey ex (bright k) p ^ 2 = k ^ 2 := by
    intro ey ex
    simp only [bright_roll]
    simp [ite_pow]
  have h3 : Spec.anticontrast (bright k) dy dx (e.1 : ℕ) (e.2 : ℕ) + Spec.contrast (bright k) (fun _ => 1) dy dx (e.1 : ℕ) (e.2 : ℕ)
      = 2 * (∑ p, Spec.roll2 (e.1 : ℕ) (e.2 : ℕ) (bright k) p ^ 2 + ∑ p, Spec.roll2 dy dx (bright k) p ^ 2) := by
    unfold Spec.anticontrast Spec.contrast
    rw [← Finset.sum_add_distrib, ← Finset.sum_add_distrib, Finset.mul_sum]
    exact Finset.sum_congr rfl fun p _ => by ring
  rw [h, h2, h2] at h3
  linarith

/-- C127_register_gaussian: a pixel of height 20 is located wrongly with probability at most `40 e⁻¹⁰⁰`. -/
example (cfg : FFTConfig) (dy dx : ℤ) :
    ∃ dx' dy' : ℤ, dx' ≡ dx [ZMOD 5] ∧ dy' ≡ dy [ZMOD 4] ∧
      (gaussNoise 4 5 1).real {ω | registerImages cfg (realArr (bright 20)) (realArr fun p => Spec.roll2 dy dx (bright 20) p + ω p)
        1 false false false none ≠ .ok [.num dx', .num dy']} ≤ 40 * Real.exp (-100) := by
  obtain ⟨dx', dy', h1, h2, h3⟩ := C127_register_gaussian (gaussNoise 4 5 1) cfg (bright 20) (fun ω => ω) dy dx false (bright 20)
    (by simp) (fun _ => 1) 1 one_pos (by simp) (gaussNoise_indep 4 5 1) (fun p => (gaussNoise_map 4 5 1 p).map_eq)
    (fun e he => by rw [bright_contrast 20 1 dy dx e he, bright_anticontrast 20 dy dx e he]; norm_num)
  refine ⟨dx', dy', h1.1, h2.1, h3.trans ?_⟩
  rw [Finset.sum_congr rfl fun e he => by rw [bright_contrast 20 1 dy dx e he, bright_anticontrast 20 dy dx e he]]
  rw [Finset.sum_const, nsmul_eq_mul]
  have hc : ((Spec.others 4 5 dy dx).card : ℝ) ≤ 20 := by exact_mod_cast others_card dy dx
  refine (mul_le_mul_of_nonneg_right hc (by positivity)).trans (le_of_eq ?_)
  norm_num
  ring

/-- C127_register_pixel -/
example (cfg : FFTConfig) (dy dx : ℤ) :
    ∃ dx' dy' : ℤ, dx' ≡ dx [ZMOD 5] ∧ dy' ≡ dy [ZMOD 4] ∧
      (gaussNoise 4 5 1).real {ω | registerImages cfg (realArr (bright 20)) (realArr fun p => Spec.roll2 dy dx (bright 20) p + ω p)
        1 false false false none ≠ .ok [.num dx', .num dy']} ≤ 1 / 5 := by
  obtain ⟨dx', dy', h1, h2, h3⟩ := C127_register_pixel (gaussNoise 4 5 1) cfg (bright 20) (fun ω => ω) dy dx false (bright 20)
    (by simp) (fun _ => Real.sqrt (1 : NNReal)) 1 (by simp)
    (fun p q => (gaussNoise_memLp 4 5 1 p).integrable_mul (gaussNoise_memLp 4 5 1 q)) (gaussNoise_cov 4 5 1)
    (fun e he => by rw [bright_contrast 20 1 dy dx e he, bright_anticontrast 20 dy dx e he]; norm_num)
  refine ⟨dx', dy', h1.1, h2.1, h3.trans ?_⟩
  rw [Finset.sum_congr rfl fun e he => by rw [bright_contrast 20 1 dy dx e he, bright_anticontrast 20 dy dx e he]]
  rw [Finset.sum_const, nsmul_eq_mul]
  have hc : ((Spec.others 4 5 dy dx).card : ℝ) ≤ 20 := by exact_mod_cast others_card dy dx
  norm_num
  linarith

/-- the moments of the noise in the form used by the theorems on the norm of the noise -/
theorem gaussNoise_sq (p : Fin 4 × Fin 5) : Integrable (fun ω : Fin 4 × Fin 5 → ℝ => ω p ^ 2) (gaussNoise 4 5 1) ∧
    ∫ ω, ω p ^ 2 ∂(gaussNoise 4 5 1) = 1 ^ 2 :=
  ⟨(gaussNoise_memLp 4 5 1 p).integrable_sq, by have := gaussNoise_cov 4 5 1 p p; simpa [sq] using this⟩

/-- C127_register_exact: the same image, noise norm bounded by Chebyshev's inequality. -/
example (cfg : FFTConfig) (dy dx : ℤ) :
    ∃ dx' dy' : ℤ, dx' ≡ dx [ZMOD 5] ∧ dy' ≡ dy [ZMOD 4] ∧
      (gaussNoise 4 5 1).real {ω | registerImages cfg (realArr (bright 20)) (realArr fun p => Spec.roll2 dy dx (bright 20) p + ω p)
        1 false false false none ≠ .ok [.num dx', .num dy']} ≤ 1 / 5 := by
  have hE : ∑ p, bright 20 p ^ 2 = 20 ^ 2 := by simp [bright, ite_pow]
  obtain ⟨dx', dy', h1, h2, h3⟩ := C127_register_exact (gaussNoise 4 5 1) cfg (bright 20) (fun ω => ω) dy dx 1 le_rfl (.inl rfl) false
    (bright 20) (by simp) (fun _ => 1) (fun p => (gaussNoise_sq p).1) (fun p => (gaussNoise_sq p).2) 400 (by norm_num)
    (by rw [hE]; norm_num) (fun t ht u hu' hne => by
      have int : ∀ t ∈ Spec.candidates 1, ∃ z : ℤ, t = z := by
        rintro t (⟨z, hz⟩ | ⟨h, -⟩)
        · exact ⟨z, by simpa using hz⟩
        · omega
      obtain ⟨j, rfl⟩ := int t ht
      obtain ⟨k, rfl⟩ := int u hu'
      have h0 : Spec.cc (bright 20) (bright 20) j k = 0 := by
        unfold Spec.cc
        refine Finset.sum_eq_zero fun p _ => ?_
        rw [cshift_int, bright_roll]
        by_cases hp : p = (0, 0)
        · have hm : ¬ p = Spec.move j k (0, 0) := by
            rintro h
            rw [hp] at h
            apply hne
            have back : ∀ (n : ℕ) [NeZero n] (a : ℤ), (0 : Fin n) = Spec.wrap n ((((0 : Fin n) : ℕ) : ℤ) + a) → ∃ z : ℤ, (a : ℝ) = z * n := by
              intro n _ a h
              have h2 := Spec.wrap_modEq n ((((0 : Fin n) : ℕ) : ℤ) + a)
              rw [← h] at h2
              obtain ⟨z, hz⟩ := Int.modEq_iff_dvd.1 h2
              refine ⟨z, ?_⟩
              simp at hz
              rw [hz]; push_cast; ring
            exact ⟨back 4 j (congrArg Prod.fst h), back 5 k (congrArg Prod.snd h)⟩
          rw [if_neg hm]; simp
        · simp [bright, hp]
      rw [h0, norm_zero, hE]; norm_num)
  refine ⟨dx', dy', h1.1, h2.1, h3.trans ?_⟩
  rw [hE]
  norm_num

/-- C127_chi2_subpixel and C127_register_subpixel apply to every image, displacement and Gaussian noise: the probability of missing the
stated accuracy with `r = 20` is at most 1/20. -/
example (cfg : FFTConfig) (im1 : Fin 4 × Fin 5 → ℝ) (dy dx : ℝ) (o : Fin 4 × Fin 5 → ℂ)
    (ho : shift2d cfg (rArr im1) dx dy 0 false false = .cplx (cArr o)) :
    (gaussNoise 4 5 1).real {ω | ¬ ∃ (rx ry : ℝ) (s1 s2 : ℕ) (xv yv c : Fin s1 × Fin s2 → ℝ),
      chi2Shift cfg none (realArr im1) (realArr fun p => (o p).re + ω p) .none .auto false 0 false false true 5 1 true
        = .ok [.num rx, .num ry, .arrays s1 s2 xv yv c]} ≤ 1 / 20 ∧
    (gaussNoise 4 5 1).real {ω | ¬ ∃ rx ry : ℝ,
      registerImages cfg (realArr im1) (realArr fun p => (o p).re + ω p) 10 false false false none = .ok [.num rx, .num ry]} ≤ 1 / 20 := by
  have hval : (∑ _p : Fin 4 × Fin 5, (1 : ℝ) ^ 2) / 20 ^ 2 = 1 / 20 := by norm_num
  have h1 := C127_chi2_subpixel (gaussNoise 4 5 1) cfg cfg none trivial im1 (fun p => (o p).re) (fun ω => ω) (by norm_num) (by norm_num)
    dy dx o ho _ le_rfl .none 1 one_ne_zero rfl .auto false 0 5 1 true (.inl rfl) (by simp [Spec.validUs]) (fun _ => 1)
    (fun p => (gaussNoise_sq p).1) (fun p => (gaussNoise_sq p).2) 20 (by norm_num)
  have h2 := C127_register_subpixel (gaussNoise 4 5 1) cfg cfg im1 (fun p => (o p).re) im1 (fun ω => ω) false (by simp) 10 2
    (by norm_num) (by norm_num) (.inr ⟨⟨5, rfl⟩, by norm_num, rfl⟩) dy dx o ho _ le_rfl (fun _ => 1)
    (fun p => (gaussNoise_sq p).1) (fun p => (gaussNoise_sq p).2) 20 (by norm_num)
  rw [hval] at h1 h2
  refine ⟨le_trans (measureReal_mono ?_ (measure_ne_top _ _)) h1, le_trans (measureReal_mono ?_ (measure_ne_top _ _)) h2⟩
  · rintro ω hω ⟨rx, ry, s1, s2, xv, yv, c, h, -⟩
    exact hω ⟨rx, ry, s1, s2, xv, yv, c, h⟩
  · rintro ω hω ⟨rx, ry, h, -⟩
    exact hω ⟨rx, ry, h⟩

theorem bright_selfDist (k : ℝ) (s t : ℤ) (h : ¬ ((4 : ℤ) ∣ s ∧ (5 : ℤ) ∣ t)) : Spec.selfDist (bright k) s t = 2 * k ^ 2 := by
  have he : (Spec.wrap 4 (-s), Spec.wrap 5 (-t)) ∈ Spec.others 4 5 0 0 := by
    simp only [Spec.others, Finset.mem_filter, Finset.mem_univ, true_and]
    rintro ⟨h1, h2⟩
    apply h
    have a := (Spec.wrap_modEq 4 (-s)).symm.trans h1
    have b := (Spec.wrap_modEq 5 (-t)).symm.trans h2
    exact ⟨by simpa using Int.modEq_iff_dvd.1 a, by simpa using Int.modEq_iff_dvd.1 b⟩
  have hc := bright_contrast k 1 0 0 _ he
  unfold Spec.contrast at hc
  unfold Spec.selfDist
  rw [roll2_congr (Spec.wrap_modEq 4 (-s)) (Spec.wrap_modEq 5 (-t))] at hc
  simp only [roll2_at, neg_neg, neg_zero, move_zero, one_pow, div_one] at hc
  rw [← hc]
  exact Finset.sum_congr rfl fun p _ => by ring

/-- C127_cross_correlation: a pixel of height 100 in noise of standard deviation 1: the answer is within half a pixel of the noise-free one
(0 and 1/2) except with probability 1/20. -/
example (cfg : FFTConfig) (agpy : Agpy 4 5) :
    (gaussNoise 4 5 1).real {ω | ¬ ∃ rx ry : ℝ, crossCorrelationShifts cfg agpy (realArr (bright 100))
        (realArr fun p => Spec.roll2 0 0 (bright 100) p + ω p) none none none false false false true = .ok [.fin rx, .fin ry] ∧
      |rx - 1 / 2| ≤ 1 / 2 ∧ |ry| ≤ 1 / 2} ≤ 1 / 20 := by
  have hE : Real.sqrt (∑ p, bright 100 p ^ 2) = 100 := by
    have : ∑ p, bright 100 p ^ 2 = 100 ^ 2 := by simp [bright, ite_pow]
    rw [this, Real.sqrt_sq (by norm_num)]
  have d := bright_selfDist 100
  have h := C127_cross_correlation (gaussNoise 4 5 1) cfg agpy (bright 100) (fun ω => ω) 0 0 (by norm_num) (by norm_num) (by norm_num)
    (by norm_num) none none false true (.inl rfl) (fun _ => 1) (fun p => (gaussNoise_sq p).1) (fun p => (gaussNoise_sq p).2) 20 (by norm_num)
    2000 (by rw [hE]; norm_num) (fun s t hst => by rw [d s t (by simpa using hst)]; norm_num) 0
    (by rw [d 1 (-1) (by norm_num), d 1 1 (by norm_num)]; norm_num) (140000000)
    (by rw [d 0 1 (by norm_num), d 1 0 (by norm_num)]; norm_num) (by norm_num)
  rw [d 0 1 (by norm_num), d 1 0 (by norm_num)] at h
  refine le_trans (measureReal_mono ?_ (measure_ne_top _ _)) (h.trans (by norm_num))
  rintro ω hω ⟨rx, ry, hr, b1, b2⟩
  refine hω ⟨rx, ry, hr, ?_, ?_⟩
  · norm_num at b1 ⊢; linarith
  · norm_num at b2 ⊢; linarith

end ImgReg
