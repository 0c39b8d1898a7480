import Verif.Props.RegisterNoise
import Verif.Props.RegisterMore

/-!
# C103: how accurate the sub-pixel answer of `register_images` is
-/

open Complex Finset
open scoped ComplexConjugate

namespace ImgReg

section
variable {ny nx : ℕ} [NeZero ny] [NeZero nx]

theorem cc_self_fourier (a : Fin ny × Fin nx → ℝ) (t u : ℝ) :
    ((ny : ℂ) * nx) * Spec.cc a a t u = ∑ k, ((‖dft (fun p => (a p : ℂ)) k‖ ^ 2 : ℝ) : ℂ) * ex (freq2 u t k) := by
  rw [cc_fourier, ← mul_assoc]
  have c0 : (ny : ℂ) * nx ≠ 0 := by
    have := NeZero.ne ny; have := NeZero.ne nx
    exact mul_ne_zero (by exact_mod_cast NeZero.ne ny) (by exact_mod_cast NeZero.ne nx)
  have e : (ny : ℂ) * nx * (1 / (Fintype.card (Fin ny × Fin nx) : ℂ)) = 1 := by
    simp only [Fintype.card_prod, Fintype.card_fin]
    push_cast
    rw [mul_one_div, div_self c0]
  rw [e, one_mul]
  refine Finset.sum_congr rfl fun k _ => ?_
  rw [Complex.mul_conj, Complex.normSq_eq_norm_sq]

theorem cc_self_neg (a : Fin ny × Fin nx → ℝ) (t u : ℝ) : ‖Spec.cc a a (-t) (-u)‖ = ‖Spec.cc a a t u‖ := by
  have c0 : (ny : ℂ) * nx ≠ 0 :=
    mul_ne_zero (by exact_mod_cast NeZero.ne ny) (by exact_mod_cast NeZero.ne nx)
  have h : (ny : ℂ) * nx * Spec.cc a a (-t) (-u) = conj ((ny : ℂ) * nx * Spec.cc a a t u) := by
    rw [cc_self_fourier, cc_self_fourier, map_sum]
    refine Finset.sum_congr rfl fun k _ => ?_
    rw [map_mul, Complex.conj_ofReal, conj_ex]
    congr 2
    unfold freq2; ring
  rw [map_mul, map_mul, Complex.conj_natCast, Complex.conj_natCast] at h
  rw [mul_left_cancel₀ c0 h, RCLike.norm_conj]

/-- the correlation with a noisy shifted image differs from the self-correlation by at most the product of the norms -/
theorem cc_noise (a b : Fin ny × Fin nx → ℝ) (dy dx t u : ℝ) :
    ‖Spec.cc a b t u - Spec.cc a a (t + dy) (u + dx)‖
      ≤ Real.sqrt (∑ p, a p ^ 2) * Real.sqrt (∑ p, ‖(b p : ℂ) - cshift dy dx a p‖ ^ 2) := by
  have e1 : cshift t u b = fun p => cshift (t + dy) (u + dx) a p
      + filt (fun k => ex (-(freq2 u t k))) (fun p => (b p : ℂ) - cshift dy dx a p) p := by
    have h1 : (fun p => (b p : ℂ)) = fun p => cshift dy dx a p + ((b p : ℂ) - cshift dy dx a p) := by
      funext p; ring
    have h2 : filt (fun k => ex (-(freq2 u t k))) (cshift dy dx a) = cshift (t + dy) (u + dx) a := by
      unfold cshift
      rw [filt_filt]
      congr 1
      funext k
      rw [← ex_add]
      congr 1
      unfold freq2; ring
    conv_lhs => unfold cshift
    rw [h1, filt_add, h2]
  have e2 : Spec.cc a b t u - Spec.cc a a (t + dy) (u + dx)
      = ∑ p, (a p : ℂ) * conj (filt (fun k => ex (-(freq2 u t k))) (fun p => (b p : ℂ) - cshift dy dx a p) p) := by
    unfold Spec.cc
    rw [e1, ← Finset.sum_sub_distrib]
    refine Finset.sum_congr rfl fun p _ => ?_
    rw [map_add]; ring
  rw [e2]
  refine (norm_sum_le _ _).trans ?_
  have h := Real.sum_mul_le_sqrt_mul_sqrt univ (fun p => ‖(a p : ℂ)‖)
    (fun p => ‖filt (fun k => ex (-(freq2 u t k))) (fun p => (b p : ℂ) - cshift dy dx a p) p‖)
  rw [energy_filt _ _ fun k => norm_ex _] at h
  have e : ∀ p, ‖(a p : ℂ)‖ ^ 2 = a p ^ 2 := by intro p; simp
  simp only [e] at h
  simp only [norm_mul, RCLike.norm_conj]
  exact h

/-- subtracting the means does not increase the noise -/
theorem noise_sub_mean (zm : Bool) (im1 im2 : Fin ny × Fin nx → ℝ) (dy dx : ℝ) :
    Real.sqrt (∑ p, ‖((prep zm (realArr im2) p : ℝ) : ℂ) - cshift dy dx (prep zm (realArr im1)) p‖ ^ 2)
      ≤ Real.sqrt (∑ p, ‖(im2 p : ℂ) - cshift dy dx im1 p‖ ^ 2) := by
  rw [prep_real, prep_real]
  simp only [cshift_sub_const]
  generalize hm1 : (if zm = true then Spec.mean im1 else 0) = m1
  generalize hm2 : (if zm = true then Spec.mean im2 else 0) = m2
  have hN : l2 (fun p => ((im2 p : ℂ) - cshift dy dx im1 p) - ((m2 - m1 : ℝ) : ℂ)) ≤ l2 (fun p => (im2 p : ℂ) - cshift dy dx im1 p) := by
    cases zm with
    | false =>
      simp only [Bool.false_eq_true, if_false] at hm1 hm2
      subst hm1 hm2
      simp
    | true =>
      simp only [if_true] at hm1 hm2
      apply l2_sub_mean
      have h := sum_filt (fun k => ex (-(freq2 dx dy k))) (fun i : Fin ny × Fin nx => (im1 i : ℂ))
      rw [freq2_zero, neg_zero, ex_zero, mul_one] at h
      rw [Finset.sum_sub_distrib]
      have e : ∑ p, cshift dy dx im1 p = ∑ p, (im1 p : ℂ) := h
      rw [e, ← hm1, ← hm2]
      have c0 : (Fintype.card (Fin ny × Fin nx) : ℝ) ≠ 0 := by
        exact_mod_cast Fintype.card_ne_zero
      unfold Spec.mean
      rw [← sub_div]
      norm_cast
      simp only [Fintype.card_prod, Fintype.card_fin] at c0 ⊢
      push_cast at c0 ⊢
      rw [mul_div_cancel₀ _ c0]
  unfold l2 at hN
  refine le_trans (le_of_eq ?_) hN
  congr 1
  refine Finset.sum_congr rfl fun p _ => ?_
  congr 2
  push_cast; ring

/-- comparing two displacements through the noise -/
theorem near_best_cc (zm : Bool) (im1 im2 : Fin ny × Fin nx → ℝ) (dy dx ry rx gy gx : ℝ)
    (h : ‖Spec.cc (prep zm (realArr im1)) (prep zm (realArr im2)) (-gy) (-gx)‖
      ≤ ‖Spec.cc (prep zm (realArr im1)) (prep zm (realArr im2)) (-ry) (-rx)‖) :
    ‖Spec.cc (prep zm (realArr im1)) (prep zm (realArr im1)) (gy - dy) (gx - dx)‖
      ≤ ‖Spec.cc (prep zm (realArr im1)) (prep zm (realArr im1)) (ry - dy) (rx - dx)‖
        + 2 * (Real.sqrt (∑ p, prep zm (realArr im1) p ^ 2) * Real.sqrt (∑ p, ‖(im2 p : ℂ) - cshift dy dx im1 p‖ ^ 2)) := by
  have hn := noise_sub_mean zm im1 im2 dy dx
  generalize prep zm (realArr im1) = a at *
  generalize prep zm (realArr im2) = b at *
  have hE : ∀ t u : ℝ, ‖Spec.cc a b (-t) (-u) - Spec.cc a a (-(t - dy)) (-(u - dx))‖
      ≤ Real.sqrt (∑ p, a p ^ 2) * Real.sqrt (∑ p, ‖(im2 p : ℂ) - cshift dy dx im1 p‖ ^ 2) := by
    intro t u
    have := cc_noise a b dy dx (-t) (-u)
    rw [show -t + dy = -(t - dy) by ring, show -u + dx = -(u - dx) by ring] at this
    exact this.trans (mul_le_mul_of_nonneg_left hn (Real.sqrt_nonneg _))
  have h1 := hE gy gx
  have h2 := hE ry rx
  rw [← cc_self_neg a (gy - dy), ← cc_self_neg a (ry - dy)]
  have h3 := norm_sub_norm_le (Spec.cc a a (-(gy - dy)) (-(gx - dx))) (Spec.cc a b (-gy) (-gx))
  rw [norm_sub_rev] at h3
  have h4 := norm_sub_norm_le (Spec.cc a b (-ry) (-rx)) (Spec.cc a a (-(ry - dy)) (-(rx - dx)))
  linarith

/-- C103: whole and half pixels. For any two real images and any displacement `(dx, dy)`, with `noise = im2 - shift2d(im1, dx, dy)` and
`a` the (mean-subtracted) first image: at the error of the reported shift, `(rx - dx, ry - dy)`, the self-correlation of `a` is at least
as large as at the error of every other whole-pixel displacement (`usfac = 1`) or half-pixel displacement (even `usfac`), up to
`2·‖a‖·‖noise‖`. -/
theorem C103_near_best (cfg cfg' : FFTConfig) (im1 im2 a : Fin ny × Fin nx → ℝ) (zm : Bool)
    (ha : ∀ p, a p = im1 p - if zm then Spec.mean im1 else 0) (usfac q : ℕ)
    (hq : (usfac = 1 ∧ q = 1) ∨ (usfac = 2 ∧ q = 2) ∨ (2 < usfac ∧ Even usfac ∧ q = 2 ∧ 2 ≤ ny ∧ 2 ≤ nx)) :
    ∃ rx ry : ℝ, registerImages cfg (realArr im1) (realArr im2) usfac false false zm none = .ok [.num rx, .num ry] ∧
      ∀ (dy dx : ℝ) (o : Fin ny × Fin nx → ℂ), shift2d cfg' (rArr im1) dx dy 0 false false = .cplx (cArr o) → ∀ j k : ℤ,
        ‖Spec.cc a a ((j : ℝ) / q - dy) ((k : ℝ) / q - dx)‖ ≤ ‖Spec.cc a a (ry - dy) (rx - dx)‖
          + 2 * (Real.sqrt (∑ p, a p ^ 2) * Real.sqrt (∑ p, ‖(im2 p : ℂ) - o p‖ ^ 2)) := by
  have hap : prep zm (realArr im1) = a := by rw [prep_real]; funext p; rw [ha]
  rcases hq with ⟨rfl, rfl⟩ | ⟨rfl, rfl⟩ | ⟨h2, he, rfl, hy, hx⟩
  · obtain ⟨rx, ry, h, hb⟩ := C46_whole_pixel cfg (realArr im1) (realArr im2) zm
    refine ⟨rx, ry, h, fun dy dx o ho j k => ?_⟩
    rw [shift2d_cplx ho, ← hap]
    refine near_best_cc zm im1 im2 dy dx ry rx _ _ ?_
    have := hb (-j) (-k)
    push_cast at this
    simpa using this
  · obtain ⟨rx, ry, h, hb⟩ := C46_half_pixel cfg (realArr im1) (realArr im2) zm
    refine ⟨rx / 2, ry / 2, h, fun dy dx o ho j k => ?_⟩
    rw [shift2d_cplx ho, ← hap]
    refine near_best_cc zm im1 im2 dy dx (ry / 2) (rx / 2) _ _ ?_
    have := hb (-j) (-k)
    push_cast at this
    simpa [neg_div] using this
  · obtain ⟨rx, ry, h, hb⟩ := C46_even_beats_half_pixels cfg (realArr im1) (realArr im2) usfac h2 he hy hx zm
    refine ⟨rx, ry, h, fun dy dx o ho j k => ?_⟩
    rw [shift2d_cplx ho, ← hap]
    refine near_best_cc zm im1 im2 dy dx ry rx _ _ ?_
    have := hb (-j) (-k)
    push_cast at this
    simpa [neg_div] using this

/-! ### the refinement -/

theorem refineSize_eq (usfac : ℕ) : ⌈(usfac : ℝ) * (3 / 2)⌉₊ = (3 * usfac + 1) / 2 := by
  apply le_antisymm
  · rw [Nat.ceil_le]
    have h : 3 * usfac ≤ 2 * ((3 * usfac + 1) / 2) := by omega
    have h' : (3 : ℝ) * usfac ≤ 2 * (((3 * usfac + 1) / 2 : ℕ) : ℝ) := by exact_mod_cast h
    linarith
  · have h := Nat.le_ceil ((usfac : ℝ) * (3 / 2))
    have h' : ((3 * usfac : ℕ) : ℝ) ≤ ((2 * ⌈(usfac : ℝ) * (3 / 2)⌉₊ : ℕ) : ℝ) := by push_cast; linarith
    have h2 : 3 * usfac ≤ 2 * ⌈(usfac : ℝ) * (3 / 2)⌉₊ := by exact_mod_cast h'
    omega

/-- the refinement grid around a half-pixel estimate contains every multiple of `1/usfac` up to half a pixel and half a step away -/
theorem mem_refineGrid (usfac : ℕ) (hu : 2 < usfac) (j T : ℤ) (h : |2 * T - j * usfac| ≤ usfac + 1) :
    (T : ℝ) / usfac ∈ Spec.refineGrid usfac ((j : ℝ) / 2) := by
  have hu0 : (usfac : ℝ) ≠ 0 := by positivity
  obtain ⟨hr, -⟩ := C46_round ((j : ℝ) / 2 * usfac)
  generalize hR : pyRound ((j : ℝ) / 2 * usfac) = R at *
  have h1 : |2 * R - j * usfac| ≤ 1 := by
    have e : ((2 * R - j * usfac : ℤ) : ℝ) = 2 * ((R : ℝ) - (j : ℝ) / 2 * usfac) := by push_cast; ring
    have h2 : |((2 * R - j * usfac : ℤ) : ℝ)| ≤ 1 := by
      rw [e, abs_mul, abs_two]; linarith
    exact_mod_cast h2
  have hX : (usfac : ℤ) % 2 = 0 → (j * (usfac : ℤ)) % 2 = 0 := by
    intro h0
    rw [Int.mul_emod, h0]; simp
  generalize j * (usfac : ℤ) = X at *
  have hs := refineSize_eq usfac
  rw [abs_le] at h h1
  refine ⟨(T - R + ((3 * usfac + 1) / 2 / 2 : ℕ)).toNat, ?_, ?_⟩
  · rw [hs]; omega
  · rw [hR, hs]
    have h3 : (((T - R + ((3 * usfac + 1) / 2 / 2 : ℕ)).toNat : ℕ) : ℤ) = T - R + ((3 * usfac + 1) / 2 / 2 : ℕ) := by omega
    have h4 : (((T - R + ((3 * usfac + 1) / 2 / 2 : ℕ)).toNat : ℕ) : ℝ) = (T : ℝ) - R + (((3 * usfac + 1) / 2 / 2 : ℕ) : ℝ) := by
      have := congrArg (Int.cast (R := ℝ)) h3
      rw [Int.cast_natCast, Int.cast_add, Int.cast_sub, Int.cast_natCast] at this
      exact this
    rw [h4]
    field_simp
    ring

/-- C103: multiples of `1/usfac`. For `usfac > 2`: if every half-pixel displacement more than half a pixel away from the truth (modulo
the image size) has a self-correlation of `a` that is smaller, by more than `2·‖a‖·‖noise‖`, than that of some half-pixel displacement, then
the reported shift is as good as the multiple of `1/usfac` nearest to the true displacement, up to `2·‖a‖·‖noise‖`. -/
theorem C103_near_best_fine (cfg cfg' : FFTConfig) (im1 im2 a : Fin ny × Fin nx → ℝ) (zm : Bool)
    (ha : ∀ p, a p = im1 p - if zm then Spec.mean im1 else 0) (usfac : ℕ) (hu : 2 < usfac) (hy : 2 ≤ ny) (hx : 2 ≤ nx)
    (dy dx : ℝ) (o : Fin ny × Fin nx → ℂ) (ho : shift2d cfg' (rArr im1) dx dy 0 false false = .cplx (cArr o))
    (hmargin : ∃ j0 k0 : ℤ, ∀ j k : ℤ,
      ¬ ((∃ z : ℤ, |(j : ℝ) / 2 - dy - z * ny| ≤ 1 / 2) ∧ ∃ z : ℤ, |(k : ℝ) / 2 - dx - z * nx| ≤ 1 / 2) →
      ‖Spec.cc a a ((j : ℝ) / 2 - dy) ((k : ℝ) / 2 - dx)‖
          + 2 * (Real.sqrt (∑ p, a p ^ 2) * Real.sqrt (∑ p, ‖(im2 p : ℂ) - o p‖ ^ 2))
        < ‖Spec.cc a a ((j0 : ℝ) / 2 - dy) ((k0 : ℝ) / 2 - dx)‖) :
    ∃ rx ry : ℝ, registerImages cfg (realArr im1) (realArr im2) usfac false false zm none = .ok [.num rx, .num ry] ∧
      ∀ m l : ℤ, |(m : ℝ) / usfac - dy| ≤ 1 / (2 * usfac) → |(l : ℝ) / usfac - dx| ≤ 1 / (2 * usfac) →
        ‖Spec.cc a a ((m : ℝ) / usfac - dy) ((l : ℝ) / usfac - dx)‖ ≤ ‖Spec.cc a a (ry - dy) (rx - dx)‖
          + 2 * (Real.sqrt (∑ p, a p ^ 2) * Real.sqrt (∑ p, ‖(im2 p : ℂ) - o p‖ ^ 2)) := by
  have hap : prep zm (realArr im1) = a := by rw [prep_real]; funext p; rw [ha]
  obtain ⟨rx, ry, row2, col2, h, ⟨j1, k1, hj1, hk1, -⟩, hhalf, -, -, href⟩ :=
    C46_refinement_maximises cfg (realArr im1) (realArr im2) usfac hu hy hx zm
  refine ⟨rx, ry, h, fun m l hm hl => ?_⟩
  rw [shift2d_cplx ho] at hmargin ⊢
  obtain ⟨j0, k0, hmar⟩ := hmargin
  have hcoarse : (∃ z : ℤ, |((-j1 : ℤ) : ℝ) / 2 - dy - z * ny| ≤ 1 / 2) ∧ ∃ z : ℤ, |((-k1 : ℤ) : ℝ) / 2 - dx - z * nx| ≤ 1 / 2 := by
    by_contra hne
    have h1 := hmar _ _ hne
    have h2 := near_best_cc zm im1 im2 dy dx (((-j1 : ℤ) : ℝ) / 2) (((-k1 : ℤ) : ℝ) / 2) ((j0 : ℝ) / 2) ((k0 : ℝ) / 2) (by
      have := hhalf (-j0) (-k0)
      rw [hj1, hk1] at this
      push_cast at this ⊢
      simpa [neg_div] using this)
    rw [hap] at h2
    linarith
  obtain ⟨⟨z, hz⟩, w, hw⟩ := hcoarse
  have key : ∀ (n : ℕ) (j m z : ℤ) (d : ℝ), |((-j : ℤ) : ℝ) / 2 - d - z * n| ≤ 1 / 2 → |(m : ℝ) / usfac - d| ≤ 1 / (2 * usfac) →
      ((-m - z * n * usfac : ℤ) : ℝ) / usfac ∈ Spec.refineGrid usfac ((j : ℝ) / 2) := by
    intro n j m z d h1 h2
    apply mem_refineGrid usfac hu
    have hu0 : (0 : ℝ) < usfac := by positivity
    have e : ((2 * (-m - z * n * usfac) - j * usfac : ℤ) : ℝ)
        = 2 * usfac * ((((-j : ℤ) : ℝ) / 2 - d - z * n) - ((m : ℝ) / usfac - d)) := by
      push_cast; field_simp; ring
    have h3 : |((2 * (-m - z * n * usfac) - j * usfac : ℤ) : ℝ)| ≤ usfac + 1 := by
      rw [e, abs_mul, abs_of_pos (by positivity : (0 : ℝ) < 2 * usfac)]
      calc 2 * (usfac : ℝ) * |(((-j : ℤ) : ℝ) / 2 - d - z * n) - ((m : ℝ) / usfac - d)|
          ≤ 2 * usfac * (1 / 2 + 1 / (2 * usfac)) :=
            mul_le_mul_of_nonneg_left ((abs_sub _ _).trans (add_le_add h1 h2)) (by positivity)
        _ = usfac + 1 := by field_simp
    exact_mod_cast h3
  rw [← hap]
  refine near_best_cc zm im1 im2 dy dx ry rx _ _ ?_
  have hb := href _ (hj1 ▸ key ny j1 m z dy hz hm) _ (hk1 ▸ key nx k1 l w dx hw hl)
  refine le_trans (le_of_eq ?_) hb
  have hu0 : (usfac : ℝ) ≠ 0 := by positivity
  congr 1
  refine cc_period _ _ _ _ _ _ ⟨z, ?_⟩ ⟨w, ?_⟩ <;>
  · push_cast; field_simp; ring

/-! ### from correlations to positions -/

theorem corr_loss2 (a : Fin ny × Fin nx → ℝ) (t u : ℝ) (k0 k : Fin ny × Fin nx) (hk : k ≠ k0) :
    2 * (‖dft (fun p => (a p : ℂ)) k0‖ ^ 2 * ‖dft (fun p => (a p : ℂ)) k‖ ^ 2) * Real.sin (Real.pi * (freq2 u t k - freq2 u t k0)) ^ 2
      ≤ (‖dft (fun p => (a p : ℂ)) k0‖ ^ 2 + ‖dft (fun p => (a p : ℂ)) k‖ ^ 2)
        * (((ny : ℝ) * nx) * (∑ p, a p ^ 2 - ‖Spec.cc a a t u‖)) := by
  have hc := cc_self_fourier a t u
  have he : ((ny : ℝ) * nx) * ∑ p, a p ^ 2 = ∑ k, ‖dft (fun p => (a p : ℂ)) k‖ ^ 2 := by
    have h1 := parseval_normSq (fun p => (a p : ℂ))
    have c0 : (ny : ℝ) * nx ≠ 0 := mul_ne_zero (by exact_mod_cast NeZero.ne ny) (by exact_mod_cast NeZero.ne nx)
    have e : ∀ p, ‖(a p : ℂ)‖ ^ 2 = a p ^ 2 := by intro p; simp
    simp only [e, Fintype.card_prod, Fintype.card_fin] at h1
    push_cast at h1
    rw [h1, ← mul_assoc, mul_one_div, div_self c0, one_mul]
  generalize dft (fun p => (a p : ℂ)) = F at *
  set P : Fin ny × Fin nx → ℝ := fun k => ‖F k‖ ^ 2 with hP
  have hP0 : ∀ k, 0 ≤ P k := fun k => by positivity
  have hsplit : ∀ f : Fin ny × Fin nx → ℂ, ∑ k, f k = f k0 + f k + ∑ i ∈ (univ.erase k0).erase k, f i := by
    intro f
    rw [← Finset.add_sum_erase _ f (Finset.mem_univ k0), ← Finset.add_sum_erase _ f (Finset.mem_erase.2 ⟨hk, Finset.mem_univ k⟩)]
    ring
  have hsplitR : ∑ k, P k = P k0 + P k + ∑ i ∈ (univ.erase k0).erase k, P i := by
    rw [← Finset.add_sum_erase _ P (Finset.mem_univ k0), ← Finset.add_sum_erase _ P (Finset.mem_erase.2 ⟨hk, Finset.mem_univ k⟩)]
    ring
  set M : ℝ := ‖(P k0 : ℂ) + (P k : ℂ) * ex (freq2 u t k - freq2 u t k0)‖ with hM
  have hMeq : ‖(P k0 : ℂ) * ex (freq2 u t k0) + (P k : ℂ) * ex (freq2 u t k)‖ = M := by
    have e : (P k0 : ℂ) * ex (freq2 u t k0) + (P k : ℂ) * ex (freq2 u t k)
        = ex (freq2 u t k0) * ((P k0 : ℂ) + (P k : ℂ) * ex (freq2 u t k - freq2 u t k0)) := by
      have : ex (freq2 u t k) = ex (freq2 u t k0) * ex (freq2 u t k - freq2 u t k0) := by
        rw [← ex_add]; congr 1; ring
      rw [this]; ring
    rw [e, norm_mul, norm_ex, one_mul]
  have hup : ((ny : ℝ) * nx) * ‖Spec.cc a a t u‖ ≤ M + ∑ i ∈ (univ.erase k0).erase k, P i := by
    have h1 : ((ny : ℝ) * nx) * ‖Spec.cc a a t u‖ = ‖((ny : ℂ) * nx) * Spec.cc a a t u‖ := by
      rw [norm_mul, norm_mul, Complex.norm_natCast, Complex.norm_natCast]
    rw [h1, hc, hsplit, ← hMeq]
    refine (norm_add_le _ _).trans (add_le_add le_rfl ((norm_sum_le _ _).trans (le_of_eq ?_)))
    refine Finset.sum_congr rfl fun i _ => ?_
    rw [norm_mul, norm_ex, mul_one, Complex.norm_real, Real.norm_of_nonneg (by positivity)]
  have hMsq : M ^ 2 = (P k0 + P k) ^ 2 - 4 * (P k0 * P k) * Real.sin (Real.pi * (freq2 u t k - freq2 u t k0)) ^ 2 := by
    have h1 := norm_ex_sub (freq2 u t k - freq2 u t k0) 0
    rw [ex_zero, sub_zero] at h1
    have h2 : ‖ex (freq2 u t k - freq2 u t k0) - 1‖ ^ 2 = 4 * Real.sin (Real.pi * (freq2 u t k - freq2 u t k0)) ^ 2 := by
      rw [h1, mul_pow, sq_abs]; norm_num
    have h3 := norm_ex (freq2 u t k - freq2 u t k0)
    generalize ex (freq2 u t k - freq2 u t k0) = e at *
    have h4 : e.re ^ 2 + e.im ^ 2 = 1 := by
      have := Complex.sq_norm e
      rw [h3, Complex.normSq_apply] at this
      nlinarith
    rw [Complex.sq_norm, Complex.normSq_apply] at h2
    simp only [Complex.sub_re, Complex.one_re, Complex.sub_im, Complex.one_im, sub_zero] at h2
    rw [hM, Complex.sq_norm, Complex.normSq_apply]
    simp only [Complex.add_re, Complex.ofReal_re, Complex.mul_re, Complex.ofReal_im, zero_mul, sub_zero, Complex.add_im,
      Complex.mul_im, add_zero, zero_add]
    linear_combination (P k ^ 2 + P k0 * P k) * h4 - P k0 * P k * h2
  have hM0 : 0 ≤ M := norm_nonneg _
  have hMle : M ≤ P k0 + P k := by
    refine (norm_add_le _ _).trans (le_of_eq ?_)
    rw [norm_mul, norm_ex, mul_one, Complex.norm_real, Complex.norm_real, Real.norm_of_nonneg (hP0 _), Real.norm_of_nonneg (hP0 _)]
  have hD : P k0 + P k - M ≤ ((ny : ℝ) * nx) * (∑ p, a p ^ 2 - ‖Spec.cc a a t u‖) := by
    rw [mul_sub, he, hsplitR]
    linarith
  have hS : 0 ≤ P k0 + P k := add_nonneg (hP0 _) (hP0 _)
  have h5 := mul_le_mul_of_nonneg_left hD hS
  show 2 * (P k0 * P k) * _ ≤ (P k0 + P k) * _
  nlinarith [mul_nonneg (sub_nonneg.2 hMle) (sub_nonneg.2 hMle)]

theorem corr_loss (a : Fin ny × Fin nx → ℝ) (t u : ℝ) (k : Fin ny × Fin nx) (hk : k ≠ 0) :
    2 * (‖dft (fun p => (a p : ℂ)) 0‖ ^ 2 * ‖dft (fun p => (a p : ℂ)) k‖ ^ 2) * Real.sin (Real.pi * freq2 u t k) ^ 2
      ≤ (‖dft (fun p => (a p : ℂ)) 0‖ ^ 2 + ‖dft (fun p => (a p : ℂ)) k‖ ^ 2)
        * (((ny : ℝ) * nx) * (∑ p, a p ^ 2 - ‖Spec.cc a a t u‖)) := by
  have h := corr_loss2 a t u 0 k hk
  rwa [freq2_zero, sub_zero] at h

/-- Neighbouring non-negative frequencies differ by `1/n`. -/
theorem fftfreq_step (n : ℕ) [NeZero n] (p p' : Fin n) (h : (p' : ℕ) = p + 1) (h2 : 2 * (p' : ℕ) < n) :
    Np.fftfreq n p' - Np.fftfreq n p = 1 / n := by
  rw [Np.fftfreq_eq, Np.fftfreq_eq, Np.fftfreqInt_eq n _ p.2, Np.fftfreqInt_eq n _ p'.2, if_pos (by omega), if_pos (by omega), h]
  push_cast
  ring

theorem position_core (a : Fin ny × Fin nx → ℝ) (hy : 2 ≤ ny) (hx : 2 ≤ nx) (ey ex G E : ℝ) (h : G ≤ ‖Spec.cc a a ey ex‖ + E) :
    (∃ z : ℤ, 8 * (‖dft (fun p => (a p : ℂ)) (0, 0)‖ ^ 2 * ‖dft (fun p => (a p : ℂ)) (1, 0)‖ ^ 2) * (ey - z * ny) ^ 2
      ≤ (‖dft (fun p => (a p : ℂ)) (0, 0)‖ ^ 2 + ‖dft (fun p => (a p : ℂ)) (1, 0)‖ ^ 2)
        * ((ny : ℝ) ^ 2 * ((ny : ℝ) * nx)) * (∑ p, a p ^ 2 - G + E)) ∧
    ∃ z : ℤ, 8 * (‖dft (fun p => (a p : ℂ)) (0, 0)‖ ^ 2 * ‖dft (fun p => (a p : ℂ)) (0, 1)‖ ^ 2) * (ex - z * nx) ^ 2
      ≤ (‖dft (fun p => (a p : ℂ)) (0, 0)‖ ^ 2 + ‖dft (fun p => (a p : ℂ)) (0, 1)‖ ^ 2)
        * ((nx : ℝ) ^ 2 * ((ny : ℝ) * nx)) * (∑ p, a p ^ 2 - G + E) := by
  have one_ne : ∀ (n : ℕ) [NeZero n], 2 ≤ n → (1 : Fin n) ≠ 0 := by
    intro n _ hn h0
    have := congrArg Fin.val h0
    rw [Fin.val_one', Nat.mod_eq_of_lt (by omega)] at this
    simp at this
  have fin : ∀ (n : ℕ) [NeZero n] (A B x s : ℝ), 0 ≤ A → 0 ≤ B → |s| = |Real.sin (Real.pi * (x / n))| →
      2 * (A * B) * s ^ 2 ≤ (A + B) * (((ny : ℝ) * nx) * (∑ p, a p ^ 2 - ‖Spec.cc a a ey ex‖)) →
      ∃ z : ℤ, 8 * (A * B) * (x - z * n) ^ 2 ≤ (A + B) * ((n : ℝ) ^ 2 * ((ny : ℝ) * nx)) * (∑ p, a p ^ 2 - G + E) := by
    intro n _ A B x s hA hB hs hle
    obtain ⟨z, hz⟩ := exists_near_multiple n x
    refine ⟨z, ?_⟩
    have h1 : (x - z * n) ^ 2 * 4 ≤ (n : ℝ) ^ 2 * s ^ 2 := by
      have := pow_le_pow_left₀ (by positivity) hz 2
      rw [mul_pow, mul_pow, sq_abs, sq_abs] at this
      rw [← sq_abs s, hs, sq_abs]
      linarith
    have h2 : (A + B) * (((ny : ℝ) * nx) * (∑ p, a p ^ 2 - ‖Spec.cc a a ey ex‖))
        ≤ (A + B) * (((ny : ℝ) * nx) * (∑ p, a p ^ 2 - G + E)) := by
      apply mul_le_mul_of_nonneg_left _ (by positivity)
      apply mul_le_mul_of_nonneg_left _ (by positivity)
      linarith
    calc 8 * (A * B) * (x - z * n) ^ 2 = 2 * (A * B) * ((x - z * n) ^ 2 * 4) := by ring
      _ ≤ 2 * (A * B) * ((n : ℝ) ^ 2 * s ^ 2) := mul_le_mul_of_nonneg_left h1 (by positivity)
      _ = (n : ℝ) ^ 2 * (2 * (A * B) * s ^ 2) := by ring
      _ ≤ (n : ℝ) ^ 2 * ((A + B) * (((ny : ℝ) * nx) * (∑ p, a p ^ 2 - G + E))) :=
        mul_le_mul_of_nonneg_left (hle.trans h2) (by positivity)
      _ = _ := by ring
  constructor
  · have h1 := corr_loss a ey ex (1, 0) (by intro h0; exact one_ne ny hy (congrArg Prod.fst h0))
    refine fin ny _ _ ey _ (by positivity) (by positivity) ?_ h1
    unfold freq2
    rw [Np.fftfreq_zero, mul_zero, zero_add]
    exact abs_sin_fftfreq_one ny hy ey
  · have h1 := corr_loss a ey ex (0, 1) (by intro h0; exact one_ne nx hx (congrArg Prod.snd h0))
    refine fin nx _ _ ex _ (by positivity) (by positivity) ?_ h1
    unfold freq2
    rw [Np.fftfreq_zero, mul_zero, add_zero]
    exact abs_sin_fftfreq_one nx hx ex

theorem position_pairs_core (a : Fin ny × Fin nx → ℝ) (ey ex G E : ℝ) (h : G ≤ ‖Spec.cc a a ey ex‖ + E) :
    (∃ z : ℤ, ∀ (p p' : Fin ny) (q : Fin nx), (p' : ℕ) = p + 1 → 2 * (p' : ℕ) < ny →
      8 * (‖dft (fun p => (a p : ℂ)) (p, q)‖ ^ 2 * ‖dft (fun p => (a p : ℂ)) (p', q)‖ ^ 2) * (ey - z * ny) ^ 2
      ≤ (‖dft (fun p => (a p : ℂ)) (p, q)‖ ^ 2 + ‖dft (fun p => (a p : ℂ)) (p', q)‖ ^ 2)
        * ((ny : ℝ) ^ 2 * ((ny : ℝ) * nx)) * (∑ p, a p ^ 2 - G + E)) ∧
    ∃ z : ℤ, ∀ (p : Fin ny) (q q' : Fin nx), (q' : ℕ) = q + 1 → 2 * (q' : ℕ) < nx →
      8 * (‖dft (fun p => (a p : ℂ)) (p, q)‖ ^ 2 * ‖dft (fun p => (a p : ℂ)) (p, q')‖ ^ 2) * (ex - z * nx) ^ 2
      ≤ (‖dft (fun p => (a p : ℂ)) (p, q)‖ ^ 2 + ‖dft (fun p => (a p : ℂ)) (p, q')‖ ^ 2)
        * ((nx : ℝ) ^ 2 * ((ny : ℝ) * nx)) * (∑ p, a p ^ 2 - G + E) := by
  have fin : ∀ (n : ℕ) [NeZero n] (x : ℝ), ∃ z : ℤ, ∀ A B : ℝ, 0 ≤ A → 0 ≤ B →
      2 * (A * B) * Real.sin (Real.pi * (x / n)) ^ 2
        ≤ (A + B) * (((ny : ℝ) * nx) * (∑ p, a p ^ 2 - ‖Spec.cc a a ey ex‖)) →
      8 * (A * B) * (x - z * n) ^ 2 ≤ (A + B) * ((n : ℝ) ^ 2 * ((ny : ℝ) * nx)) * (∑ p, a p ^ 2 - G + E) := by
    intro n _ x
    obtain ⟨z, hz⟩ := exists_near_multiple n x
    refine ⟨z, fun A B hA hB hle => ?_⟩
    have h1 : (x - z * n) ^ 2 * 4 ≤ (n : ℝ) ^ 2 * Real.sin (Real.pi * (x / n)) ^ 2 := by
      have := pow_le_pow_left₀ (by positivity) hz 2
      rw [mul_pow, mul_pow, sq_abs, sq_abs] at this
      linarith
    have h2 : (A + B) * (((ny : ℝ) * nx) * (∑ p, a p ^ 2 - ‖Spec.cc a a ey ex‖))
        ≤ (A + B) * (((ny : ℝ) * nx) * (∑ p, a p ^ 2 - G + E)) := by
      apply mul_le_mul_of_nonneg_left _ (by positivity)
      apply mul_le_mul_of_nonneg_left _ (by positivity)
      linarith
    calc 8 * (A * B) * (x - z * n) ^ 2 = 2 * (A * B) * ((x - z * n) ^ 2 * 4) := by ring
      _ ≤ 2 * (A * B) * ((n : ℝ) ^ 2 * Real.sin (Real.pi * (x / n)) ^ 2) := mul_le_mul_of_nonneg_left h1 (by positivity)
      _ = (n : ℝ) ^ 2 * (2 * (A * B) * Real.sin (Real.pi * (x / n)) ^ 2) := by ring
      _ ≤ (n : ℝ) ^ 2 * ((A + B) * (((ny : ℝ) * nx) * (∑ p, a p ^ 2 - G + E))) :=
        mul_le_mul_of_nonneg_left (hle.trans h2) (by positivity)
      _ = _ := by ring
  constructor
  · obtain ⟨z, hz⟩ := fin ny ey
    refine ⟨z, fun p p' q h1 h2 => hz _ _ (by positivity) (by positivity) ?_⟩
    have h3 := corr_loss2 a ey ex (p, q) (p', q) (by intro h0; have := congrArg (fun k => (k.1 : ℕ)) h0; simp at this; omega)
    have e : freq2 ex ey (p', q) - freq2 ex ey (p, q) = ey / ny := by
      unfold freq2
      have := fftfreq_step ny p p' h1 h2
      linear_combination ey * this
    rwa [e] at h3
  · obtain ⟨z, hz⟩ := fin nx ex
    refine ⟨z, fun p q q' h1 h2 => hz _ _ (by positivity) (by positivity) ?_⟩
    have h3 := corr_loss2 a ey ex (p, q) (p, q') (by intro h0; have := congrArg (fun k => (k.2 : ℕ)) h0; simp at this; omega)
    have e : freq2 ex ey (p, q') - freq2 ex ey (p, q) = ex / nx := by
      unfold freq2
      have := fftfreq_step nx q q' h1 h2
      linear_combination ex * this
    rwa [e] at h3

/-- C103: how far from the truth the answer can be. For any two real images and any displacement `(dx, dy)`, with
`noise = im2 - shift2d(im1, dx, dy)`, `P(k)` the power of `a` (the first image, mean-subtracted with `zeromean`) at frequency `k`, and any
whole-pixel displacement `(k, j)` (`usfac = 1`) or half-pixel displacement (even `usfac`), the error of the reported row shift, up to whole image
heights, satisfies
`8·P(0,0)·P(1,0)·error² ≤ (P(0,0) + P(1,0))·ny²·ny·nx·(‖a‖² - |selfcorr(displacement - truth)| + 2·‖a‖·‖noise‖)`,
and the same along the other axis. (If the true displacement is one of those compared, only the noise term is left.) -/
theorem C103_position (cfg cfg' : FFTConfig) (im1 im2 a : Fin ny × Fin nx → ℝ) (zm : Bool)
    (ha : ∀ p, a p = im1 p - if zm then Spec.mean im1 else 0) (usfac q : ℕ) (hy : 2 ≤ ny) (hx : 2 ≤ nx)
    (hq : (usfac = 1 ∧ q = 1) ∨ (Even usfac ∧ 2 ≤ usfac ∧ q = 2)) :
    ∃ rx ry : ℝ, registerImages cfg (realArr im1) (realArr im2) usfac false false zm none = .ok [.num rx, .num ry] ∧
      ∀ (dy dx : ℝ) (o : Fin ny × Fin nx → ℂ), shift2d cfg' (rArr im1) dx dy 0 false false = .cplx (cArr o) → ∀ j k : ℤ,
        (∃ z : ℤ, 8 * (‖dft (fun p => (a p : ℂ)) (0, 0)‖ ^ 2 * ‖dft (fun p => (a p : ℂ)) (1, 0)‖ ^ 2) * (ry - dy - z * ny) ^ 2
          ≤ (‖dft (fun p => (a p : ℂ)) (0, 0)‖ ^ 2 + ‖dft (fun p => (a p : ℂ)) (1, 0)‖ ^ 2)
            * ((ny : ℝ) ^ 2 * ((ny : ℝ) * nx)) * (∑ p, a p ^ 2 - ‖Spec.cc a a ((j : ℝ) / q - dy) ((k : ℝ) / q - dx)‖
              + 2 * (Real.sqrt (∑ p, a p ^ 2) * Real.sqrt (∑ p, ‖(im2 p : ℂ) - o p‖ ^ 2)))) ∧
        ∃ z : ℤ, 8 * (‖dft (fun p => (a p : ℂ)) (0, 0)‖ ^ 2 * ‖dft (fun p => (a p : ℂ)) (0, 1)‖ ^ 2) * (rx - dx - z * nx) ^ 2
          ≤ (‖dft (fun p => (a p : ℂ)) (0, 0)‖ ^ 2 + ‖dft (fun p => (a p : ℂ)) (0, 1)‖ ^ 2)
            * ((nx : ℝ) ^ 2 * ((ny : ℝ) * nx)) * (∑ p, a p ^ 2 - ‖Spec.cc a a ((j : ℝ) / q - dy) ((k : ℝ) / q - dx)‖
              + 2 * (Real.sqrt (∑ p, a p ^ 2) * Real.sqrt (∑ p, ‖(im2 p : ℂ) - o p‖ ^ 2))) := by
  obtain ⟨rx, ry, h, hb⟩ := C103_near_best cfg cfg' im1 im2 a zm ha usfac q (by
    rcases hq with h | ⟨he, h2, rfl⟩
    · exact Or.inl h
    · by_cases h3 : usfac = 2
      · exact Or.inr (Or.inl ⟨h3, rfl⟩)
      · exact Or.inr (Or.inr ⟨by omega, he, rfl, hy, hx⟩))
  exact ⟨rx, ry, h, fun dy dx o ho j k => position_core a hy hx _ _ _ _ (hb dy dx o ho j k)⟩

/-- C103: the same for the refined answer, `usfac > 2` (even or odd), under the condition of `C103_near_best_fine`: now the displacement in
the bound is the multiple of `1/usfac` nearest to the truth. -/
theorem C103_position_fine (cfg cfg' : FFTConfig) (im1 im2 a : Fin ny × Fin nx → ℝ) (zm : Bool)
    (ha : ∀ p, a p = im1 p - if zm then Spec.mean im1 else 0) (usfac : ℕ) (hu : 2 < usfac) (hy : 2 ≤ ny) (hx : 2 ≤ nx)
    (dy dx : ℝ) (o : Fin ny × Fin nx → ℂ) (ho : shift2d cfg' (rArr im1) dx dy 0 false false = .cplx (cArr o))
    (hmargin : ∃ j0 k0 : ℤ, ∀ j k : ℤ,
      ¬ ((∃ z : ℤ, |(j : ℝ) / 2 - dy - z * ny| ≤ 1 / 2) ∧ ∃ z : ℤ, |(k : ℝ) / 2 - dx - z * nx| ≤ 1 / 2) →
      ‖Spec.cc a a ((j : ℝ) / 2 - dy) ((k : ℝ) / 2 - dx)‖
          + 2 * (Real.sqrt (∑ p, a p ^ 2) * Real.sqrt (∑ p, ‖(im2 p : ℂ) - o p‖ ^ 2))
        < ‖Spec.cc a a ((j0 : ℝ) / 2 - dy) ((k0 : ℝ) / 2 - dx)‖)
    (m l : ℤ) (hm : |(m : ℝ) / usfac - dy| ≤ 1 / (2 * usfac)) (hl : |(l : ℝ) / usfac - dx| ≤ 1 / (2 * usfac)) :
    ∃ rx ry : ℝ, registerImages cfg (realArr im1) (realArr im2) usfac false false zm none = .ok [.num rx, .num ry] ∧
        (∃ z : ℤ, 8 * (‖dft (fun p => (a p : ℂ)) (0, 0)‖ ^ 2 * ‖dft (fun p => (a p : ℂ)) (1, 0)‖ ^ 2) * (ry - dy - z * ny) ^ 2
          ≤ (‖dft (fun p => (a p : ℂ)) (0, 0)‖ ^ 2 + ‖dft (fun p => (a p : ℂ)) (1, 0)‖ ^ 2)
            * ((ny : ℝ) ^ 2 * ((ny : ℝ) * nx)) * (∑ p, a p ^ 2 - ‖Spec.cc a a ((m : ℝ) / usfac - dy) ((l : ℝ) / usfac - dx)‖
              + 2 * (Real.sqrt (∑ p, a p ^ 2) * Real.sqrt (∑ p, ‖(im2 p : ℂ) - o p‖ ^ 2)))) ∧
        ∃ z : ℤ, 8 * (‖dft (fun p => (a p : ℂ)) (0, 0)‖ ^ 2 * ‖dft (fun p => (a p : ℂ)) (0, 1)‖ ^ 2) * (rx - dx - z * nx) ^ 2
          ≤ (‖dft (fun p => (a p : ℂ)) (0, 0)‖ ^ 2 + ‖dft (fun p => (a p : ℂ)) (0, 1)‖ ^ 2)
            * ((nx : ℝ) ^ 2 * ((ny : ℝ) * nx)) * (∑ p, a p ^ 2 - ‖Spec.cc a a ((m : ℝ) / usfac - dy) ((l : ℝ) / usfac - dx)‖
              + 2 * (Real.sqrt (∑ p, a p ^ 2) * Real.sqrt (∑ p, ‖(im2 p : ℂ) - o p‖ ^ 2))) := by
  obtain ⟨rx, ry, h, hb⟩ := C103_near_best_fine cfg cfg' im1 im2 a zm ha usfac hu hy hx dy dx o ho hmargin
  exact ⟨rx, ry, h, position_core a hy hx _ _ _ _ (hb m l hm hl)⟩

/-- C103: the same from any two neighbouring non-negative frequencies `p`, `p' = p + 1 < ny/2` along the rows (at any column frequency `q`), and
along the columns. This is the form that says something also with `zeromean`, where the power at frequency `(0, 0)` is 0. -/
theorem C103_position_pairs (cfg cfg' : FFTConfig) (im1 im2 a : Fin ny × Fin nx → ℝ) (zm : Bool)
    (ha : ∀ p, a p = im1 p - if zm then Spec.mean im1 else 0) (usfac qq : ℕ) (hy : 2 ≤ ny) (hx : 2 ≤ nx)
    (hq : (usfac = 1 ∧ qq = 1) ∨ (Even usfac ∧ 2 ≤ usfac ∧ qq = 2)) :
    ∃ rx ry : ℝ, registerImages cfg (realArr im1) (realArr im2) usfac false false zm none = .ok [.num rx, .num ry] ∧
      ∀ (dy dx : ℝ) (o : Fin ny × Fin nx → ℂ), shift2d cfg' (rArr im1) dx dy 0 false false = .cplx (cArr o) → ∀ j k : ℤ,
        (∃ z : ℤ, ∀ (p p' : Fin ny) (q : Fin nx), (p' : ℕ) = p + 1 → 2 * (p' : ℕ) < ny →
          8 * (‖dft (fun p => (a p : ℂ)) (p, q)‖ ^ 2 * ‖dft (fun p => (a p : ℂ)) (p', q)‖ ^ 2) * (ry - dy - z * ny) ^ 2
          ≤ (‖dft (fun p => (a p : ℂ)) (p, q)‖ ^ 2 + ‖dft (fun p => (a p : ℂ)) (p', q)‖ ^ 2)
            * ((ny : ℝ) ^ 2 * ((ny : ℝ) * nx)) * (∑ p, a p ^ 2 - ‖Spec.cc a a ((j : ℝ) / qq - dy) ((k : ℝ) / qq - dx)‖
              + 2 * (Real.sqrt (∑ p, a p ^ 2) * Real.sqrt (∑ p, ‖(im2 p : ℂ) - o p‖ ^ 2)))) ∧
        ∃ z : ℤ, ∀ (p : Fin ny) (q q' : Fin nx), (q' : ℕ) = q + 1 → 2 * (q' : ℕ) < nx →
          8 * (‖dft (fun p => (a p : ℂ)) (p, q)‖ ^ 2 * ‖dft (fun p => (a p : ℂ)) (p, q')‖ ^ 2) * (rx - dx - z * nx) ^ 2
          ≤ (‖dft (fun p => (a p : ℂ)) (p, q)‖ ^ 2 + ‖dft (fun p => (a p : ℂ)) (p, q')‖ ^ 2)
            * ((nx : ℝ) ^ 2 * ((ny : ℝ) * nx)) * (∑ p, a p ^ 2 - ‖Spec.cc a a ((j : ℝ) / qq - dy) ((k : ℝ) / qq - dx)‖
              + 2 * (Real.sqrt (∑ p, a p ^ 2) * Real.sqrt (∑ p, ‖(im2 p : ℂ) - o p‖ ^ 2))) := by
  obtain ⟨rx, ry, h, hb⟩ := C103_near_best cfg cfg' im1 im2 a zm ha usfac qq (by
    rcases hq with h | ⟨he, h2, rfl⟩
    · exact Or.inl h
    · by_cases h3 : usfac = 2
      · exact Or.inr (Or.inl ⟨h3, rfl⟩)
      · exact Or.inr (Or.inr ⟨by omega, he, rfl, hy, hx⟩))
  exact ⟨rx, ry, h, fun dy dx o ho j k => position_pairs_core a _ _ _ _ (hb dy dx o ho j k)⟩

/-- C103: the same for the refined answer, `usfac > 2` (even or odd), under the condition of `C103_near_best_fine`. -/
theorem C103_position_pairs_fine (cfg cfg' : FFTConfig) (im1 im2 a : Fin ny × Fin nx → ℝ) (zm : Bool)
    (ha : ∀ p, a p = im1 p - if zm then Spec.mean im1 else 0) (usfac : ℕ) (hu : 2 < usfac) (hy : 2 ≤ ny) (hx : 2 ≤ nx)
    (dy dx : ℝ) (o : Fin ny × Fin nx → ℂ) (ho : shift2d cfg' (rArr im1) dx dy 0 false false = .cplx (cArr o))
    (hmargin : ∃ j0 k0 : ℤ, ∀ j k : ℤ,
      ¬ ((∃ z : ℤ, |(j : ℝ) / 2 - dy - z * ny| ≤ 1 / 2) ∧ ∃ z : ℤ, |(k : ℝ) / 2 - dx - z * nx| ≤ 1 / 2) →
      ‖Spec.cc a a ((j : ℝ) / 2 - dy) ((k : ℝ) / 2 - dx)‖
          + 2 * (Real.sqrt (∑ p, a p ^ 2) * Real.sqrt (∑ p, ‖(im2 p : ℂ) - o p‖ ^ 2))
        < ‖Spec.cc a a ((j0 : ℝ) / 2 - dy) ((k0 : ℝ) / 2 - dx)‖)
    (m l : ℤ) (hm : |(m : ℝ) / usfac - dy| ≤ 1 / (2 * usfac)) (hl : |(l : ℝ) / usfac - dx| ≤ 1 / (2 * usfac)) :
    ∃ rx ry : ℝ, registerImages cfg (realArr im1) (realArr im2) usfac false false zm none = .ok [.num rx, .num ry] ∧
        (∃ z : ℤ, ∀ (p p' : Fin ny) (q : Fin nx), (p' : ℕ) = p + 1 → 2 * (p' : ℕ) < ny →
          8 * (‖dft (fun p => (a p : ℂ)) (p, q)‖ ^ 2 * ‖dft (fun p => (a p : ℂ)) (p', q)‖ ^ 2) * (ry - dy - z * ny) ^ 2
          ≤ (‖dft (fun p => (a p : ℂ)) (p, q)‖ ^ 2 + ‖dft (fun p => (a p : ℂ)) (p', q)‖ ^ 2)
            * ((ny : ℝ) ^ 2 * ((ny : ℝ) * nx)) * (∑ p, a p ^ 2 - ‖Spec.cc a a ((m : ℝ) / usfac - dy) ((l : ℝ) / usfac - dx)‖
              + 2 * (Real.sqrt (∑ p, a p ^ 2) * Real.sqrt (∑ p, ‖(im2 p : ℂ) - o p‖ ^ 2)))) ∧
        ∃ z : ℤ, ∀ (p : Fin ny) (q q' : Fin nx), (q' : ℕ) = q + 1 → 2 * (q' : ℕ) < nx →
          8 * (‖dft (fun p => (a p : ℂ)) (p, q)‖ ^ 2 * ‖dft (fun p => (a p : ℂ)) (p, q')‖ ^ 2) * (rx - dx - z * nx) ^ 2
          ≤ (‖dft (fun p => (a p : ℂ)) (p, q)‖ ^ 2 + ‖dft (fun p => (a p : ℂ)) (p, q')‖ ^ 2)
            * ((nx : ℝ) ^ 2 * ((ny : ℝ) * nx)) * (∑ p, a p ^ 2 - ‖Spec.cc a a ((m : ℝ) / usfac - dy) ((l : ℝ) / usfac - dx)‖
              + 2 * (Real.sqrt (∑ p, a p ^ 2) * Real.sqrt (∑ p, ‖(im2 p : ℂ) - o p‖ ^ 2))) := by
  obtain ⟨rx, ry, h, hb⟩ := C103_near_best_fine cfg cfg' im1 im2 a zm ha usfac hu hy hx dy dx o ho hmargin
  exact ⟨rx, ry, h, position_pairs_core a _ _ _ _ (hb m l hm hl)⟩

end
/-- C103 applies to a single bright pixel of a 2×2 image compared with itself (true displacement 0, no noise), also its condition on the
half-pixel displacements: at a distance of a whole pixel the self-correlation is 0. -/
example (cfg : FFTConfig) :
    ∃ rx ry : ℝ, registerImages cfg (realArr fun p : Fin 2 × Fin 2 => if p = 0 then (1 : ℝ) else 0)
        (realArr fun p : Fin 2 × Fin 2 => if p = 0 then (1 : ℝ) else 0) 5 false false false none = .ok [.num rx, .num ry] ∧
      (∃ z : ℤ, ry = z * 2) ∧ ∃ z : ℤ, rx = z * 2 := by
  set d : Fin 2 × Fin 2 → ℝ := fun p => if p = 0 then (1 : ℝ) else 0 with hd
  have hF : ∀ k, dft (fun p => (d p : ℂ)) k = 1 := by
    intro k
    unfold dft
    rw [Finset.sum_eq_single 0]
    · simp [hd, FFTIndex.e_zero]
    · intro b _ hb; simp [hd, hb]
    · simp
  have ho : shift2d cfg (rArr d) 0 0 0 false false = .cplx (cArr (cshift 0 0 d)) := by
    rw [shift2d_eq, denan_rArr]
    simp only [shiftKernel_zero]
    rw [shiftReturn_cplx]
    rfl
  have h0 : cshift 0 0 d = fun p => (d p : ℂ) := by
    funext p
    have := cshift_period d 0 0 p
    simpa using this
  have hE : ∑ p, d p ^ 2 = 1 := by
    rw [Finset.sum_eq_single 0]
    · simp [hd]
    · intro b _ hb; simp [hd, hb]
    · simp
  have hnoise : Real.sqrt (∑ p, ‖(d p : ℂ) - cshift 0 0 d p‖ ^ 2) = 0 := by rw [h0]; simp
  have hcc0 : ‖Spec.cc d d 0 0‖ = 1 := by
    have h1 : Spec.cc d d 0 0 = ((∑ p, d p ^ 2 : ℝ) : ℂ) := by
      unfold Spec.cc
      rw [h0]
      push_cast
      refine Finset.sum_congr rfl fun p _ => ?_
      rw [Complex.conj_ofReal]; ring
    rw [h1, hE]; simp
  have hodd : ∀ n : ℤ, ex (((2 * n + 1 : ℤ) : ℝ) * (-1 / 2)) = -1 := by
    intro n
    have e : ((2 * n + 1 : ℤ) : ℝ) * (-1 / 2) = ((-n : ℤ) : ℝ) + (-1 / 2) := by push_cast; ring
    rw [e, ex_add, ex_int, one_mul]
    unfold ex
    have : 2 * (Real.pi : ℂ) * I * (((-1 / 2 : ℝ)) : ℂ) = -(Real.pi * I) := by push_cast; ring
    rw [this, Complex.exp_neg, Complex.exp_pi_mul_I]
    norm_num
  have f1 : Np.fftfreq 2 (1 : Fin 2) = -1 / 2 := by
    rw [Np.fftfreq_eq, Np.fftfreqInt_eq 2 _ (by norm_num)]
    norm_num
  have hzero : ∀ t u : ℝ, ((∃ n : ℤ, t = ((2 * n + 1 : ℤ) : ℝ)) ∨ ∃ n : ℤ, u = ((2 * n + 1 : ℤ) : ℝ)) → Spec.cc d d t u = 0 := by
    intro t u h
    have h1 := cc_self_fourier d t u
    simp only [hF, norm_one, one_pow, Complex.ofReal_one, one_mul, Fintype.sum_prod_type, Fin.sum_univ_two, freq2,
      Np.fftfreq_zero, f1, mul_zero, zero_add, ex_zero, ex_add] at h1
    have h2 : (1 + ex (u * (-1 / 2))) * (1 + ex (t * (-1 / 2))) = 0 := by
      rcases h with ⟨n, rfl⟩ | ⟨n, rfl⟩
      · rw [hodd]; ring
      · rw [hodd]; ring
    have h3 : (((2 : ℕ) : ℂ)) * ((2 : ℕ) : ℂ) * Spec.cc d d t u = 0 := by
      rw [h1, ← h2]; ring
    simpa using h3
  obtain ⟨rx, ry, h, ⟨z, hz⟩, w, hw⟩ := C103_position_fine cfg cfg d d d false (fun p => by simp) 5 (by norm_num) le_rfl le_rfl 0 0 _ ho
    ⟨0, 0, fun j k hne => by
      rw [hnoise]
      have : Spec.cc d d ((j : ℝ) / 2 - 0) ((k : ℝ) / 2 - 0) = 0 := by
        apply hzero
        by_contra hcon
        push Not at hcon
        apply hne
        have key : ∀ j : ℤ, (∀ n : ℤ, (j : ℝ) / 2 - 0 ≠ ((2 * n + 1 : ℤ) : ℝ)) → ∃ z : ℤ, |(j : ℝ) / 2 - 0 - z * (2 : ℕ)| ≤ 1 / 2 := by
          intro j hj
          refine ⟨(j + 1) / 4, ?_⟩
          have h1 : j % 4 ≠ 2 := by
            intro h4
            apply hj (j / 4)
            have : j = 4 * (j / 4) + 2 := by omega
            rw [sub_zero, div_eq_iff (by norm_num)]
            conv_lhs => rw [this]
            push_cast; ring
          have h2 : |j - 4 * ((j + 1) / 4)| ≤ 1 := by rw [abs_le]; omega
          have h3 : |(j : ℝ) - 4 * (((j + 1) / 4 : ℤ) : ℝ)| ≤ 1 := by exact_mod_cast h2
          have e : (j : ℝ) / 2 - 0 - (((j + 1) / 4 : ℤ) : ℝ) * (2 : ℕ) = ((j : ℝ) - 4 * (((j + 1) / 4 : ℤ) : ℝ)) / 2 := by push_cast; ring
          rw [e, abs_div, abs_two]
          linarith
        exact ⟨key j hcon.1, key k hcon.2⟩
      rw [this, Int.cast_zero, zero_div, sub_zero, hcc0]
      simp⟩ 0 0 (by simp) (by simp)
  refine ⟨rx, ry, h, ⟨z, ?_⟩, w, ?_⟩
  all_goals
    simp only [hF, hnoise, hE, Int.cast_zero, zero_div, sub_zero, hcc0, norm_one, one_pow, mul_zero, sub_self, add_zero, mul_one] at hz hw
  · have : (ry - z * (2 : ℕ)) ^ 2 = 0 := le_antisymm (by linarith) (sq_nonneg _)
    have := pow_eq_zero_iff (two_ne_zero) |>.1 this
    push_cast at this
    linarith
  · have : (rx - w * (2 : ℕ)) ^ 2 = 0 := le_antisymm (by linarith) (sq_nonneg _)
    have := pow_eq_zero_iff (two_ne_zero) |>.1 this
    push_cast at this
    linarith

end ImgReg
