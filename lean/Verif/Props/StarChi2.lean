import Verif.Props.StarRegister
import Verif.Props.Converge

/-!
# C142: `chi2_shift` on two images of a Gaussian star
-/

open Complex Finset
open scoped ComplexConjugate

namespace ImgReg

section
variable {ny nx : ℕ} [NeZero ny] [NeZero nx]

/-- chi-squared (scalar errors) is a constant minus twice the real part of the correlation -/
theorem resid_cc (a b : Fin ny × Fin nx → ℝ) (s t u : ℝ) :
    Spec.resid a b s t u = (∑ p, b p ^ 2 - 2 * (Spec.cc a b t u).re + ∑ p, a p ^ 2) / s ^ 2 := by
  rw [resid_expand]
  congr 4
  unfold Spec.cc
  rw [Complex.re_sum, Complex.re_sum]
  refine Finset.sum_congr rfl fun p _ => ?_
  rw [Complex.mul_re, Complex.mul_re, Complex.ofReal_im, Complex.conj_re, Complex.ofReal_re]; ring

theorem cc_self_neg_re (a : Fin ny × Fin nx → ℝ) (t u : ℝ) : (Spec.cc a a (-t) (-u)).re = (Spec.cc a a t u).re := by
  have c0 : (ny : ℂ) * nx ≠ 0 :=
    mul_ne_zero (by exact_mod_cast NeZero.ne ny) (by exact_mod_cast NeZero.ne nx)
  have h : (ny : ℂ) * nx * Spec.cc a a (-t) (-u) = conj ((ny : ℂ) * nx * Spec.cc a a t u) := by
    rw [cc_self_fourier, cc_self_fourier, map_sum]
    refine Finset.sum_congr rfl fun k _ => ?_
    rw [map_mul, Complex.conj_ofReal, conj_ex]
    congr 2
    unfold freq2; ring
  rw [map_mul, map_mul, Complex.conj_natCast, Complex.conj_natCast] at h
  rw [mul_left_cancel₀ c0 h, Complex.conj_re]

/-- comparing two displacements through the noise: chi-squared -/
theorem near_best_re (zm : Bool) (im1 im2 : Fin ny × Fin nx → ℝ) (s : ℝ) (hs : s ≠ 0) (dy dx ry rx gy gx : ℝ)
    (h : Spec.resid (prep zm (realArr im1)) (prep zm (realArr im2)) s (-ry) (-rx)
      ≤ Spec.resid (prep zm (realArr im1)) (prep zm (realArr im2)) s (-gy) (-gx)) :
    (Spec.cc (prep zm (realArr im1)) (prep zm (realArr im1)) (gy - dy) (gx - dx)).re
      ≤ (Spec.cc (prep zm (realArr im1)) (prep zm (realArr im1)) (ry - dy) (rx - dx)).re
        + 2 * (Real.sqrt (∑ p, prep zm (realArr im1) p ^ 2) * Real.sqrt (∑ p, ‖(im2 p : ℂ) - cshift dy dx im1 p‖ ^ 2)) := by
  have hn := noise_sub_mean zm im1 im2 dy dx
  rw [resid_cc, resid_cc, div_le_div_iff_of_pos_right (by positivity)] at h
  generalize prep zm (realArr im1) = a at *
  generalize prep zm (realArr im2) = b at *
  have hE : ∀ t u : ℝ, |(Spec.cc a b (-t) (-u)).re - (Spec.cc a a (t - dy) (u - dx)).re|
      ≤ Real.sqrt (∑ p, a p ^ 2) * Real.sqrt (∑ p, ‖(im2 p : ℂ) - cshift dy dx im1 p‖ ^ 2) := by
    intro t u
    have := cc_noise a b dy dx (-t) (-u)
    rw [show -t + dy = -(t - dy) by ring, show -u + dx = -(u - dx) by ring] at this
    rw [← cc_self_neg_re a (t - dy), ← Complex.sub_re]
    exact (Complex.abs_re_le_norm _).trans (this.trans (mul_le_mul_of_nonneg_left hn (Real.sqrt_nonneg _)))
  have h1 := abs_le.1 (hE gy gx)
  have h2 := abs_le.1 (hE ry rx)
  linarith [h1.1, h2.2]

/-- a star: the displacement with the smaller chi-squared is the one nearer to the truth, up to the error budget -/
theorem star_compare {σ h A cy cx dy dx : ℝ} (hσ : 0 < σ) (h0 : 0 ≤ h) (hA : A ≠ 0)
    (hcy : Spec.inside ny h cy) (hcx : Spec.inside nx h cx) (hcy' : Spec.inside ny h (cy + dy)) (hcx' : Spec.inside nx h (cx + dx))
    (im1 im2 η : Fin ny × Fin nx → ℝ) (h1 : ∀ p, im1 p = A * (Spec.star σ cy ((p.1 : ℕ) : ℝ) * Spec.star σ cx ((p.2 : ℕ) : ℝ)))
    (h2 : ∀ p, im2 p = A * (Spec.star σ (cy + dy) ((p.1 : ℕ) : ℝ) * Spec.star σ (cx + dx) ((p.2 : ℕ) : ℝ)) + η p)
    (zm : Bool) (s : ℝ) (hs : s ≠ 0) (κ : ℝ) (hκ : κ = Spec.starBudget ny nx σ h (Real.sqrt (∑ p, η p ^ 2) / |A|)) :
    0 ≤ κ ∧ ∀ (ry rx gy gx ty tx uy ux : ℝ),
      Spec.resid (prep zm (realArr im1)) (prep zm (realArr im2)) s (-ry) (-rx)
        ≤ Spec.resid (prep zm (realArr im1)) (prep zm (realArr im2)) s (-gy) (-gx) →
      |ty| ≤ (ny : ℝ) / 2 → |tx| ≤ (nx : ℝ) / 2 → |uy| ≤ (ny : ℝ) / 2 → |ux| ≤ (nx : ℝ) / 2 →
      (∃ z : ℤ, ry - dy - ty = z * ny) → (∃ z : ℤ, rx - dx - tx = z * nx) → (∃ z : ℤ, gy - dy - uy = z * ny) →
      (∃ z : ℤ, gx - dx - ux = z * nx) →
      Real.exp (-(uy ^ 2 + ux ^ 2) / (4 * σ ^ 2)) - κ ≤ Real.exp (-(ty ^ 2 + tx ^ 2) / (4 * σ ^ 2)) := by
  have hp := Real.pi_pos
  obtain ⟨a, ha⟩ : ∃ a : Fin ny × Fin nx → ℝ, ∀ p, a p = im1 p - if zm then Spec.mean im1 else 0 := ⟨_, fun p => rfl⟩
  have hap : prep zm (realArr im1) = a := by rw [prep_real]; funext p; rw [ha]
  have hnorm := star_norm_le hσ h0 hcy hcx zm im1 a h1 ha
  have hmoved := star_moved_le hσ h0 hcy hcx hcy' hcx' im1 im2 η h1 h2
  obtain ⟨k, hk0, hk1, hlaw⟩ := star_cc_law hσ h0 hcy hcx zm im1 a h1 ha
  set ε := max (Spec.starEps ny σ h) (Spec.starEps nx σ h) with hε
  have hε0 : 0 ≤ ε := (starEps_nonneg' hσ h0 hcy).trans (le_max_left _ _)
  set β := (1 + ε) ^ 2 - 1 with hβ
  have hβ0 : 0 ≤ β := by nlinarith
  set S := A ^ 2 * (Real.pi * σ ^ 2) with hS
  have hS0 : 0 < S := by positivity
  set ν := (1 + ε) * (Real.sqrt (ny * nx) * Spec.starMoved ny nx σ h + Real.sqrt (∑ p, η p ^ 2) / |A|) / (σ * Real.sqrt Real.pi) with hν
  have hκ' : κ = 2 * β + 2 * ν := hκ
  set N := Real.sqrt (∑ p, a p ^ 2) * Real.sqrt (∑ p, ‖(im2 p : ℂ) - cshift dy dx im1 p‖ ^ 2) with hN
  have hN1 : N ≤ S * ν := by
    refine (mul_le_mul hnorm hmoved (Real.sqrt_nonneg _) (by positivity)).trans (le_of_eq ?_)
    have hA' : |A| ≠ 0 := abs_ne_zero.2 hA
    have hs : Real.sqrt Real.pi ≠ 0 := by positivity
    have hsp : Real.sqrt Real.pi ^ 2 = Real.pi := Real.sq_sqrt hp.le
    have hS' : S = |A| ^ 2 * (Real.sqrt Real.pi ^ 2 * σ ^ 2) := by rw [hS, sq_abs, hsp]
    rw [hS', hν]
    field_simp
  have hN0 : 0 ≤ N := mul_nonneg (Real.sqrt_nonneg _) (Real.sqrt_nonneg _)
  have hν0 : 0 ≤ ν := by
    by_contra hne
    push Not at hne
    nlinarith
  refine ⟨by linarith, fun ry rx gy gx ty tx uy ux hmin hty htx huy hux z1 z2 z3 z4 => ?_⟩
  have hcomp := near_best_re zm im1 im2 s hs dy dx ry rx gy gx hmin
  rw [hap, ← hN, cc_period a a (ry - dy) (rx - dx) ty tx z1 z2, cc_period a a (gy - dy) (gx - dx) uy ux z3 z4] at hcomp
  have e1 := (Complex.abs_re_le_norm _).trans (hlaw ty tx hty htx)
  have e2 := (Complex.abs_re_le_norm _).trans (hlaw uy ux huy hux)
  rw [Complex.sub_re, Complex.ofReal_re] at e1 e2
  have e3 := (abs_le.1 e1).2
  have e4 := (abs_le.1 e2).1
  have e5 : S * (Real.exp (-(uy ^ 2 + ux ^ 2) / (4 * σ ^ 2)) - κ) ≤ S * Real.exp (-(ty ^ 2 + tx ^ 2) / (4 * σ ^ 2)) := by
    rw [hκ']; linarith
  exact le_of_mul_le_mul_left e5 hS0

end

/-- from values of the Gaussian to distances -/
theorem gauss_dist {σ X κ D : ℝ} (hσ : 0 < σ) (hκ : κ < Real.exp (-X / (4 * σ ^ 2)))
    (h : Real.exp (-X / (4 * σ ^ 2)) - κ ≤ Real.exp (-D / (4 * σ ^ 2))) :
    D ≤ X + 4 * σ ^ 2 * κ / (Real.exp (-X / (4 * σ ^ 2)) - κ) := by
  set E := Real.exp (-X / (4 * σ ^ 2)) with hE
  have hE0 : 0 < E := Real.exp_pos _
  have hEκ : 0 < E - κ := by linarith
  have hlog := Real.log_le_log hEκ h
  rw [Real.log_exp] at hlog
  have hl1 : Real.log E = -X / (4 * σ ^ 2) := by rw [hE, Real.log_exp]
  have hl2 : Real.log E - Real.log (E - κ) ≤ κ / (E - κ) := by
    rw [← Real.log_div hE0.ne' hEκ.ne']
    have := Real.log_le_sub_one_of_pos (div_pos hE0 hEκ)
    refine this.trans (le_of_eq ?_)
    field_simp; ring
  have hl3 : D / (4 * σ ^ 2) ≤ X / (4 * σ ^ 2) + κ / (E - κ) := by
    rw [hl1, neg_div] at hl2
    rw [neg_div] at hlog
    linarith
  have hl4 := mul_le_mul_of_nonneg_left hl3 (by positivity : (0 : ℝ) ≤ 4 * σ ^ 2)
  have e1 : 4 * σ ^ 2 * (D / (4 * σ ^ 2)) = D := by field_simp
  have e2 : 4 * σ ^ 2 * (X / (4 * σ ^ 2) + κ / (E - κ)) = X + 4 * σ ^ 2 * κ / (E - κ) := by field_simp
  rw [e1, e2] at hl4
  exact hl4

/-- a grid that covers two pixels: every displacement within `1/2 + τ` of the coarse minimum has a grid point within `1/(2u) + τ` -/
theorem zoomGrid_near' (n : ℕ) [NeZero n] (a : Fin n) (u : ℝ) (hu : 0 < u) (s : ℕ) (hs0 : 0 < s) (hs : 2 * u ≤ s) (d τ : ℝ) (hτ : 0 ≤ τ)
    (h : |(Spec.lag n a : ℝ) - d| ≤ 1 / 2 + τ) :
    ∃ i : Fin s, |-Spec.gridShift n a u s i - d| ≤ 1 / (2 * u) + τ := by
  have hhalf : 0 ≤ Spec.halfPix n ∧ Spec.halfPix n ≤ 1 / 2 := by
    unfold Spec.halfPix; split_ifs <;> norm_num
  obtain ⟨x, hx⟩ : ∃ x : ℝ, x = ((Spec.lag n a : ℝ) - Spec.halfPix n - d) * u + (s - 1) / 2 := ⟨_, rfl⟩
  rw [abs_le] at h
  have hlo : -(τ * u) ≤ x + 1 / 2 := by rw [hx]; nlinarith
  have hhi : x + 1 / 2 ≤ s + τ * u := by rw [hx]; nlinarith
  have e : ∀ i : Fin s, -Spec.gridShift n a u s i - d = (x - ((i : ℕ) : ℝ)) / u := by
    intro i
    unfold Spec.gridShift
    rw [hx]
    unfold Spec.lag
    push_cast
    field_simp
    ring
  have key : ∀ i : Fin s, |x - ((i : ℕ) : ℝ)| ≤ 1 / 2 + τ * u → |-Spec.gridShift n a u s i - d| ≤ 1 / (2 * u) + τ := by
    intro i hi
    rw [e, abs_div, abs_of_pos hu, div_le_iff₀ hu]
    refine hi.trans (le_of_eq ?_)
    field_simp
  have hτu : 0 ≤ τ * u := mul_nonneg hτ hu.le
  rcases lt_or_ge (round x) 0 with hneg | hpos
  · refine ⟨⟨0, hs0⟩, key _ ?_⟩
    have h1 : x < -(1 / 2) := by
      have h2 : ⌊x + 1 / 2⌋ < 0 := by rw [← round_eq]; exact hneg
      rw [Int.floor_lt] at h2
      push_cast at h2; linarith
    rw [abs_le]; constructor <;> push_cast <;> linarith
  · rcases lt_or_ge (round x) (s : ℤ) with hlt | hge
    · refine ⟨⟨(round x).toNat, by omega⟩, key _ ?_⟩
      have hc : (((round x).toNat : ℕ) : ℝ) = (round x : ℝ) := by
        have : (((round x).toNat : ℕ) : ℤ) = round x := Int.toNat_of_nonneg hpos
        exact_mod_cast this
      simp only [hc]
      have := abs_sub_round x
      linarith
    · refine ⟨⟨s - 1, by omega⟩, key _ ?_⟩
      have h1 : (s : ℝ) ≤ x + 1 / 2 := by
        have h2 : (s : ℤ) ≤ ⌊x + 1 / 2⌋ := by rw [← round_eq]; exact hge
        have h3 := Int.le_floor.1 h2
        exact_mod_cast h3
      have h2 : (((s - 1 : ℕ) : ℕ) : ℝ) = (s : ℝ) - 1 := by
        rw [Nat.cast_sub (by omega)]; norm_num
      simp only [h2]
      rw [abs_le]; constructor <;> linarith

/-- The zoomed grid of `chi2_shift` covers two pixels: `'auto'` with `max_auto_size ≥ 2`; an integer factor of at least the number of rows or
of at most half the number of rows and of columns; a floating-point factor in the latter range. -/
def Spec.coversPixel (ny nx mas : ℕ) : UsFactor → Prop
  | .auto => 2 ≤ mas
  | .int v => 1 ≤ v ∧ (ny ≤ v ∨ (2 * v ≤ ny ∧ 2 * v ≤ nx))
  | .float v => 1 ≤ v ∧ 2 * v ≤ ny ∧ 2 * v ≤ nx

section
variable {ny nx : ℕ} [NeZero ny] [NeZero nx]

theorem nearest_le (d : ℝ) (m : ℤ) : |(round d : ℝ) - d| ≤ |(m : ℝ) - d| := by
  rw [abs_sub_comm, abs_sub_comm (m : ℝ)]
  exact round_le d m

set_option maxHeartbeats 1600000 in
/-- C142: two images of a star of width `σ` and height `A` (of any sign), the second one moved by `(dx, dy)` pixels and with additional noise
`η`; the star stays at least `h` pixels away from the edges. With `κ = Spec.starBudget …` the error budget (sampling, frame, noise), small
enough, `τ = 4σ²κ/(exp(-1/(8σ²)) - κ)` and `u` the upsampling factor (with `'auto'`: the one it chooses, at least 1), so that `1/u` is the step
of the returned coordinates: `chi2_shift` reports a displacement whose distance from `(dx, dy)` (modulo the size of the frame) is, squared,
at most `2g²`, `g = 1/(2u) + τ` (a nearest point of the grid), up to `4σ²κ/(exp(-g²/(2σ²)) - κ)`. -/
theorem C142_chi2_star (cfg : FFTConfig) (st : Stats) (hst : Spec.validStats st) {σ h A cy cx dy dx : ℝ} (hσ : 0 < σ) (h0 : 0 ≤ h) (hA : A ≠ 0)
    (hcy : Spec.inside ny h cy) (hcx : Spec.inside nx h cx) (hcy' : Spec.inside ny h (cy + dy)) (hcx' : Spec.inside nx h (cx + dx))
    (im1 im2 η : Fin ny × Fin nx → ℝ) (h1 : ∀ p, im1 p = A * (Spec.star σ cy ((p.1 : ℕ) : ℝ) * Spec.star σ cx ((p.2 : ℕ) : ℝ)))
    (h2 : ∀ p, im2 p = A * (Spec.star σ (cy + dy) ((p.1 : ℕ) : ℝ) * Spec.star σ (cx + dx) ((p.2 : ℕ) : ℝ)) + η p)
    (err : ErrArg ny nx) (s : ℝ) (hs : s ≠ 0) (herr : Spec.isScalarErr err s) (us : UsFactor) (zm : Bool) (nf : ℝ) (mas : ℕ) (mns : ℝ)
    (ah : Bool) (hf : Spec.fits ah ny nx) (hus : Spec.coversPixel ny nx mas us) (hy : 2 ≤ ny) (hx : 2 ≤ nx) (κ τ : ℝ)
    (hκ : κ = Spec.starBudget ny nx σ h (Real.sqrt (∑ p, η p ^ 2) / |A|)) (hτ : τ = 4 * σ ^ 2 * κ / (Real.exp (-1 / (8 * σ ^ 2)) - κ))
    (hclear : κ < Real.exp (-1 / (2 * σ ^ 2))) (hτ1 : τ ≤ 1 / 2) :
    ∃ (rx ry u : ℝ) (s1 s2 : ℕ) (xv yv c : Fin s1 × Fin s2 → ℝ),
      chi2Shift cfg st (realArr im1) (realArr im2) err us zm nf false false true mas mns ah
        = .ok [.num rx, .num ry, .arrays s1 s2 xv yv c] ∧
      1 ≤ u ∧ (∀ v, us = .int v → u = v) ∧ (∀ v, us = .float v → u = v) ∧
      (∀ i j, yv i - yv j = (((i.1 : ℕ) : ℝ) - ((j.1 : ℕ) : ℝ)) / u ∧ xv i - xv j = (((i.2 : ℕ) : ℝ) - ((j.2 : ℕ) : ℝ)) / u) ∧
      ∃ z w : ℤ, (ry - dy - z * ny) ^ 2 + (rx - dx - w * nx) ^ 2
        ≤ 2 * (1 / (2 * u) + τ) ^ 2 + 4 * σ ^ 2 * κ / (Real.exp (-(1 / (2 * u) + τ) ^ 2 / (2 * σ ^ 2)) - κ) := by
  have hy0 : (2 : ℝ) ≤ ny := by exact_mod_cast hy
  have hx0 : (2 : ℝ) ≤ nx := by exact_mod_cast hx
  have hvalid : Spec.validUs ny mas us := by
    cases us with
    | auto => exact lt_of_lt_of_le (by norm_num) hus
    | int v => exact hus.1
    | float v => exact ⟨by linarith [hus.1], by linarith [hus.1, hus.2.1]⟩
  obtain ⟨hκ0, hcomp⟩ := star_compare hσ h0 hA hcy hcx hcy' hcx' im1 im2 η h1 h2 zm s hs κ hκ
  have hE28 : Real.exp (-1 / (2 * σ ^ 2)) ≤ Real.exp (-1 / (8 * σ ^ 2)) := by
    refine Real.exp_le_exp.2 ?_
    rw [div_le_div_iff₀ (by positivity) (by positivity)]
    nlinarith [sq_nonneg σ]
  have hτ0 : 0 ≤ τ := by
    rw [hτ]
    exact div_nonneg (by positivity) (by linarith)
  obtain ⟨cm, hcm, hchi, s1, s2, i1, i2, hg, u, huu, hu0, yv, xv, hyv, hxv, c, hc, er, her, hres⟩ :=
    chi2Shift_scalar cfg st hst (realArr im1) (realArr im2) err s herr us zm nf mas mns ah hf hvalid
  have hcov : 1 ≤ u ∧ 2 * u ≤ s1 ∧ 2 * u ≤ s2 ∧ (∀ v, us = .int v → u = v) ∧ (∀ v, us = .float v → u = v) := by
    cases us with
    | auto =>
      have hr := regionSize_pos cm.chi2 (mAuto st mns nf)
      simp only [Spec.gridSize] at hg
      obtain ⟨g1, g2⟩ := Prod.mk.inj hg
      simp only [Spec.usUsed] at huu
      have hm2 : (2 : ℝ) ≤ mas := by exact_mod_cast hus
      have h3 : (mas : ℝ) / 2 / Spec.regionSize cm.chi2 (mAuto st mns nf) ≤ (mas : ℝ) / 2 := div_le_self (by positivity) hr
      have h4 : u ≤ (mas : ℝ) / 2 := by rw [huu]; exact max_le (by linarith) h3
      exact ⟨by rw [huu]; exact le_max_left _ _, by rw [g1]; linarith, by rw [g2]; linarith, by simp, by simp⟩
    | int v =>
      have hu' : u = v := huu
      have hv : (1 : ℝ) ≤ v := by exact_mod_cast hus.1
      refine ⟨by rw [hu']; exact hv, ?_, ?_, fun v' hv' => by rw [hu']; injection hv' with e; rw [e], by simp⟩ <;> rw [hu'] <;>
      · rcases hus.2 with hge | ⟨ha, hb⟩
        · simp only [Spec.gridSize, if_pos hge] at hg
          obtain ⟨g1, g2⟩ := Prod.mk.inj hg
          simp only [g1, g2]
          push_cast; linarith
        · have hlt : ¬ ny ≤ v := by omega
          simp only [Spec.gridSize, if_neg hlt] at hg
          obtain ⟨g1, g2⟩ := Prod.mk.inj hg
          simp only [g1, g2]
          exact_mod_cast (by assumption)
    | float v =>
      have hu' : u = v := huu
      simp only [Spec.gridSize] at hg
      obtain ⟨g1, g2⟩ := Prod.mk.inj hg
      refine ⟨by rw [hu']; exact hus.1, by rw [hu', g1]; exact hus.2.1, by rw [hu', g2]; exact hus.2.2, by simp, fun v' hv' => by rw [hu']; injection hv'⟩
  obtain ⟨hu1, hs1, hs2, hint, hfl⟩ := hcov
  refine ⟨_, _, u, s1, s2, xv, yv, c, (hres false true).trans rfl, hu1, hint, hfl, ?_, ?_⟩
  · intro i j
    rw [hyv, hxv]
    unfold Spec.gridShift
    constructor <;> field_simp <;> ring
  -- the whole-pixel stage
  obtain ⟨Fy, hFy⟩ : ∃ F : ℤ, F = Spec.lag ny (Np.argmin cm.chi2).1 := ⟨_, rfl⟩
  obtain ⟨Fx, hFx⟩ : ∃ F : ℤ, F = Spec.lag nx (Np.argmin cm.chi2).2 := ⟨_, rfl⟩
  obtain ⟨z, hz⟩ := near_period ny ((Fy : ℝ) - dy)
  obtain ⟨w, hw⟩ := near_period nx ((Fx : ℝ) - dx)
  have hcoarse : |(Fy : ℝ) - dy - z * ny| ≤ 1 / 2 + τ ∧ |(Fx : ℝ) - dx - w * nx| ≤ 1 / 2 + τ := by
    have hmin := (Np.argmin_spec cm.chi2).1 (Spec.wrap ny ((Spec.zeroLag ny : ℤ) - round dy), Spec.wrap nx ((Spec.zeroLag nx : ℤ) - round dx))
    rw [hchi, hchi, ← hFy, ← hFx] at hmin
    have w1 : Spec.lag ny (Spec.wrap ny ((Spec.zeroLag ny : ℤ) - round dy)) ≡ round dy [ZMOD ny] := Spec.lag_wrap ny (round dy)
    have w2 : Spec.lag nx (Spec.wrap nx ((Spec.zeroLag nx : ℤ) - round dx)) ≡ round dx [ZMOD nx] := Spec.lag_wrap nx (round dx)
    obtain ⟨q1, hq1⟩ := w1.symm.dvd
    obtain ⟨q2, hq2⟩ := w2.symm.dvd
    generalize Spec.lag ny (Spec.wrap ny ((Spec.zeroLag ny : ℤ) - round dy)) = G1 at *
    generalize Spec.lag nx (Spec.wrap nx ((Spec.zeroLag nx : ℤ) - round dx)) = G2 at *
    have hq1' : (G1 : ℝ) - round dy = ny * q1 := by exact_mod_cast hq1
    have hq2' : (G2 : ℝ) - round dx = nx * q2 := by exact_mod_cast hq2
    push_cast at hmin
    have ny1 := abs_sub_round dy
    have nx1 := abs_sub_round dx
    rw [abs_sub_comm] at ny1 nx1
    have hD := hcomp (Fy : ℝ) (Fx : ℝ) (G1 : ℝ) (G2 : ℝ) ((Fy : ℝ) - dy - z * ny) ((Fx : ℝ) - dx - w * nx)
      ((round dy : ℝ) - dy) ((round dx : ℝ) - dx) hmin hz hw (by linarith) (by linarith) ⟨z, by ring⟩ ⟨w, by ring⟩
      ⟨q1, by linarith⟩ ⟨q2, by linarith⟩
    have d1 := nearest_le dy (Fy - z * ny)
    have d2 := nearest_le dx (Fx - w * nx)
    push_cast at d1 d2
    rw [show (Fy : ℝ) - z * ny - dy = (Fy : ℝ) - dy - z * ny by ring] at d1
    rw [show (Fx : ℝ) - w * nx - dx = (Fx : ℝ) - dx - w * nx by ring] at d2
    have b1 := sq_le_sq.2 d1
    have b2 := sq_le_sq.2 d2
    have a1 := sq_abs ((round dy : ℝ) - dy)
    have a2 := sq_abs ((round dx : ℝ) - dx)
    have c1 := pow_le_pow_left₀ (abs_nonneg _) ny1 2
    have c2 := pow_le_pow_left₀ (abs_nonneg _) nx1 2
    rw [a1] at c1
    rw [a2] at c2
    generalize ((round dy : ℝ) - dy) ^ 2 = p1 at *
    generalize ((round dx : ℝ) - dx) ^ 2 = p2 at *
    have hE : Real.exp (-1 / (8 * σ ^ 2)) ≤ Real.exp (-(p1 + p2) / (4 * σ ^ 2)) := by
      refine Real.exp_le_exp.2 ?_
      rw [div_le_div_iff₀ (by positivity) (by positivity)]
      nlinarith [sq_nonneg σ]
    have hdist := gauss_dist hσ (lt_of_lt_of_le (lt_of_lt_of_le hclear hE28) hE) hD
    have hle : 4 * σ ^ 2 * κ / (Real.exp (-(p1 + p2) / (4 * σ ^ 2)) - κ) ≤ τ := by
      rw [hτ]
      exact div_le_div_of_nonneg_left (by positivity) (by linarith) (by linarith)
    have e5 : (1 / 2 + τ) ^ 2 = 1 / 4 + τ + τ ^ 2 := by ring
    have e6 := sq_nonneg τ
    norm_num at c1 c2
    constructor
    · refine abs_le_of_sq_le_sq (e5 ▸ ?_) (by linarith)
      linarith
    · refine abs_le_of_sq_le_sq (e5 ▸ ?_) (by linarith)
      linarith
  -- the zoom
  obtain ⟨jy, hjy⟩ := zoomGrid_near' ny (Np.argmin cm.chi2).1 u hu0 s1 (NeZero.pos s1) hs1 (dy + z * ny) τ hτ0 (by
    rw [← hFy, ← sub_sub]; exact hcoarse.1)
  obtain ⟨jx, hjx⟩ := zoomGrid_near' nx (Np.argmin cm.chi2).2 u hu0 s2 (NeZero.pos s2) hs2 (dx + w * nx) τ hτ0 (by
    rw [← hFx, ← sub_sub]; exact hcoarse.2)
  have hmin := (Np.argmin_spec c).1 (jy, jx)
  rw [hc] at hmin
  beta_reduce at hmin
  rw [← hc] at hmin
  have gy : |-yv (jy, jx) - (dy + z * ny)| ≤ 1 / (2 * u) + τ := by rw [hyv]; exact hjy
  have gx : |-xv (jy, jx) - (dx + w * nx)| ≤ 1 / (2 * u) + τ := by rw [hxv]; exact hjx
  generalize Np.argmin c = q at *
  obtain ⟨z', hz'⟩ := near_period ny (-yv q - dy)
  obtain ⟨w', hw'⟩ := near_period nx (-xv q - dx)
  refine ⟨z', w', ?_⟩
  have hg0 : 0 ≤ 1 / (2 * u) := by positivity
  have hg1 : 1 / (2 * u) ≤ 1 / 2 := one_div_le_one_div_of_le (by norm_num) (by linarith)
  have hD := hcomp (-yv q) (-xv q) (-yv (jy, jx)) (-xv (jy, jx)) (-yv q - dy - z' * ny) (-xv q - dx - w' * nx)
    (-yv (jy, jx) - (dy + z * ny)) (-xv (jy, jx) - (dx + w * nx)) (by rw [neg_neg, neg_neg, neg_neg, neg_neg]; exact hmin)
    hz' hw' (by linarith) (by linarith) ⟨z', by ring⟩ ⟨w', by ring⟩ ⟨z, by ring⟩ ⟨w, by ring⟩
  have c1 := pow_le_pow_left₀ (abs_nonneg _) gy 2
  have c2 := pow_le_pow_left₀ (abs_nonneg _) gx 2
  rw [sq_abs] at c1 c2
  set g := 1 / (2 * u) + τ with hgd
  have hgle : g ≤ 1 := by linarith
  have hgp : 0 ≤ g := by linarith
  have hg2 : g ^ 2 ≤ 1 := by nlinarith
  have e1 : Real.exp (-(2 * g ^ 2) / (4 * σ ^ 2)) = Real.exp (-g ^ 2 / (2 * σ ^ 2)) := by
    congr 1
    rw [div_eq_div_iff (by positivity) (by positivity)]
    ring
  have e2 : Real.exp (-1 / (2 * σ ^ 2)) ≤ Real.exp (-(2 * g ^ 2) / (4 * σ ^ 2)) := by
    rw [e1]
    exact Real.exp_le_exp.2 (div_le_div_of_nonneg_right (by linarith) (by positivity))
  have e3 : Real.exp (-(2 * g ^ 2) / (4 * σ ^ 2)) ≤ Real.exp (-((-yv (jy, jx) - (dy + z * ny)) ^ 2 + (-xv (jy, jx) - (dx + w * nx)) ^ 2) / (4 * σ ^ 2)) :=
    Real.exp_le_exp.2 (div_le_div_of_nonneg_right (by linarith) (by positivity))
  have := gauss_dist hσ (lt_of_lt_of_le hclear e2) (by linarith [hD] : Real.exp (-(2 * g ^ 2) / (4 * σ ^ 2)) - κ
    ≤ Real.exp (-((-yv q - dy - z' * ny) ^ 2 + (-xv q - dx - w' * nx) ^ 2) / (4 * σ ^ 2)))
  rw [e1] at this
  exact this

end

/-- C142 (a case that meets the conditions): a star of width 3, of any height, anywhere in a 100 × 100 image but at least 25 pixels away from
the edges, moved by any amount that keeps it there, with additional noise of norm `r` up to `0.005` heights, any scalar error: `chi2_shift`
with `'auto'` (any `max_auto_size ≥ 2`), an integer factor from 1 to 50 or from 100, or a floating-point factor from 1 to 50 finds the
displacement up to `√(2(1/(2u) + 10⁻⁵ + 15r)² + 10⁻⁵ + 16r)` pixels. -/
theorem C142_chi2_star_example (cfg : FFTConfig) (st : Stats) (hst : Spec.validStats st) {A cy cx dy dx : ℝ} (hA : A ≠ 0)
    (hcy : 25 ≤ cy ∧ cy ≤ 74) (hcx : 25 ≤ cx ∧ cx ≤ 74) (hcy' : 25 ≤ cy + dy ∧ cy + dy ≤ 74) (hcx' : 25 ≤ cx + dx ∧ cx + dx ≤ 74)
    (im1 im2 η : Fin 100 × Fin 100 → ℝ) (h1 : ∀ p, im1 p = A * (Spec.star 3 cy ((p.1 : ℕ) : ℝ) * Spec.star 3 cx ((p.2 : ℕ) : ℝ)))
    (h2 : ∀ p, im2 p = A * (Spec.star 3 (cy + dy) ((p.1 : ℕ) : ℝ) * Spec.star 3 (cx + dx) ((p.2 : ℕ) : ℝ)) + η p)
    (err : ErrArg 100 100) (s : ℝ) (hs : s ≠ 0) (herr : Spec.isScalarErr err s) (us : UsFactor) (zm : Bool) (nf : ℝ) (mas : ℕ) (mns : ℝ)
    (ah : Bool) (hf : Spec.fits ah 100 100) (hus : Spec.coversPixel 100 100 mas us)
    (r : ℝ) (hr : r = Real.sqrt (∑ p, η p ^ 2) / |A|) (hr1 : r ≤ 1 / 200) :
    ∃ (rx ry u : ℝ) (s1 s2 : ℕ) (xv yv c : Fin s1 × Fin s2 → ℝ),
      chi2Shift cfg st (realArr im1) (realArr im2) err us zm nf false false true mas mns ah
        = .ok [.num rx, .num ry, .arrays s1 s2 xv yv c] ∧
      1 ≤ u ∧ (∀ v, us = .int v → u = v) ∧ (∀ v, us = .float v → u = v) ∧
      (∀ i j, yv i - yv j = (((i.1 : ℕ) : ℝ) - ((j.1 : ℕ) : ℝ)) / u ∧ xv i - xv j = (((i.2 : ℕ) : ℝ) - ((j.2 : ℕ) : ℝ)) / u) ∧
      ∃ z w : ℤ, (ry - dy - z * 100) ^ 2 + (rx - dx - w * 100) ^ 2
        ≤ 2 * (1 / (2 * u) + 1 / 100000 + 15 * r) ^ 2 + 1 / 100000 + 16 * r := by
  have hr0 : 0 ≤ r := by rw [hr]; exact div_nonneg (Real.sqrt_nonneg _) (abs_nonneg _)
  have hb := star3_budget hr0
  have hin : ∀ c : ℝ, 25 ≤ c ∧ c ≤ 74 → Spec.inside 100 25 c := by
    intro c hc; unfold Spec.inside; push_cast; exact ⟨hc.1, by linarith [hc.2]⟩
  have hκ0 := (star_compare (σ := 3) (h := 25) (by norm_num) (by norm_num) hA (hin _ hcy) (hin _ hcx)
    (hin _ hcy') (hin _ hcx') im1 im2 η h1 h2 zm s hs _ rfl).1
  have hX : ∀ x : ℝ, 1 - x ≤ Real.exp (-x) := fun x => by have := Real.add_one_le_exp (-x); linarith
  have h8 : 98 / 100 ≤ Real.exp (-1 / (8 * (3 : ℝ) ^ 2)) := by
    have := hX (1 / 72)
    rw [show (-1 / (8 * (3 : ℝ) ^ 2)) = -(1 / 72) by norm_num]
    linarith
  have h18 : 944 / 1000 ≤ Real.exp (-1 / (2 * (3 : ℝ) ^ 2)) := by
    have := hX (1 / 18)
    rw [show (-1 / (2 * (3 : ℝ) ^ 2)) = -(1 / 18) by norm_num]
    linarith
  rw [← hr] at hκ0
  obtain ⟨κ, hκ⟩ : ∃ κ, κ = Spec.starBudget 100 100 3 25 r := ⟨_, rfl⟩
  rw [← hκ] at hb hκ0
  obtain ⟨τ, hτ⟩ : ∃ τ, τ = 4 * (3 : ℝ) ^ 2 * κ / (Real.exp (-1 / (8 * (3 : ℝ) ^ 2)) - κ) := ⟨_, rfl⟩
  have hτ1 : τ ≤ 1 / 100000 + 15 * r := by
    rw [hτ, div_le_iff₀ (by linarith)]
    have h3 : (1 / 100000 + 15 * r) * (977 / 1000) ≤ (1 / 100000 + 15 * r) * (Real.exp (-1 / (8 * (3 : ℝ) ^ 2)) - κ) :=
      mul_le_mul_of_nonneg_left (by linarith) (by positivity)
    linarith
  have hτ0 : 0 ≤ τ := by rw [hτ]; exact div_nonneg (by positivity) (by linarith)
  obtain ⟨rx, ry, u, s1, s2, xv, yv, c, hres, hu1, hi, hfl, hstep, z, w, hD⟩ := C142_chi2_star cfg st hst (σ := 3) (h := 25) (by norm_num) (by norm_num) hA
    (hin _ hcy) (hin _ hcx) (hin _ hcy') (hin _ hcx') im1 im2 η h1 h2 err s hs herr us zm nf mas mns ah hf hus (by norm_num) (by norm_num) κ τ
    (by rw [← hr]; exact hκ) hτ (by linarith) (by linarith)
  refine ⟨rx, ry, u, s1, s2, xv, yv, c, hres, hu1, hi, hfl, hstep, z, w, ?_⟩
  push_cast at hD
  refine hD.trans ?_
  have hg0 : 0 ≤ 1 / (2 * u) := by positivity
  have hg1 : 1 / (2 * u) ≤ 1 / 2 := one_div_le_one_div_of_le (by norm_num) (by linarith)
  have e1 : (1 / (2 * u) + τ) ^ 2 ≤ (1 / (2 * u) + 1 / 100000 + 15 * r) ^ 2 := pow_le_pow_left₀ (by linarith) (by linarith) 2
  have hg2 : (1 / (2 * u) + τ) ^ 2 ≤ 1 := pow_le_one₀ (by linarith) (by linarith)
  have e2 : Real.exp (-1 / (2 * (3 : ℝ) ^ 2)) ≤ Real.exp (-(1 / (2 * u) + τ) ^ 2 / (2 * (3 : ℝ) ^ 2)) :=
    Real.exp_le_exp.2 (div_le_div_of_nonneg_right (by linarith) (by positivity))
  have e3 : 4 * (3 : ℝ) ^ 2 * κ / (Real.exp (-(1 / (2 * u) + τ) ^ 2 / (2 * (3 : ℝ) ^ 2)) - κ) ≤ 1 / 100000 + 16 * r := by
    rw [div_le_iff₀ (by linarith)]
    have h3 : (1 / 100000 + 16 * r) * (94 / 100) ≤ (1 / 100000 + 16 * r) * (Real.exp (-(1 / (2 * u) + τ) ^ 2 / (2 * (3 : ℝ) ^ 2)) - κ) :=
      mul_le_mul_of_nonneg_left (by linarith) (by positivity)
    linarith
  linarith

end ImgReg
