import Verif.Props.StarNoiseRegister
import Mathlib.Tactic.IntervalCases

/-!
# C155: `register_images` on a Gaussian star with random noise, the answer
-/

open Complex Finset MeasureTheory
open scoped ComplexConjugate

namespace ImgReg

/-- the multiple of `1/u` nearest to `d`, times `u` -/
noncomputable def nearMult (u : ℕ) (d : ℝ) : ℤ := round (d * u)

theorem nearMult_spec (u : ℕ) (hu : 1 ≤ u) (d : ℝ) : |(nearMult u d : ℝ) / u - d| ≤ 1 / (2 * u) := by
  have hu0 : (0 : ℝ) < u := by exact_mod_cast hu
  unfold nearMult
  have h := abs_sub_round (d * u)
  rw [abs_sub_comm] at h
  have e : (round (d * u) : ℝ) / u - d = (round (d * u) - d * u) / u := by field_simp
  rw [e, abs_div, abs_of_pos hu0, div_le_iff₀ hu0]
  refine h.trans (le_of_eq ?_)
  field_simp

/-- a grid of `Q` points per pixel -/
noncomputable def gridPt {ny nx : ℕ} (Q : ℕ) (e : Fin (Q * ny) × Fin (Q * nx)) : ℝ × ℝ := (((e.1 : ℕ) : ℝ) / Q, ((e.2 : ℕ) : ℝ) / Q)

theorem grid_rep (n Q : ℕ) (hn : 0 < n) (hQ : 0 < Q) (j : ℤ) : ∃ (e : Fin (Q * n)) (z : ℤ), (j : ℝ) / Q = ((e : ℕ) : ℝ) / Q + z * n := by
  have hN : (0 : ℤ) < ((Q * n : ℕ) : ℤ) := by exact_mod_cast Nat.mul_pos hQ hn
  have h1 := Int.emod_nonneg j hN.ne'
  have h2 := Int.emod_lt_of_pos j hN
  refine ⟨⟨(j % ((Q * n : ℕ) : ℤ)).toNat, by omega⟩, j / ((Q * n : ℕ) : ℤ), ?_⟩
  have h3 : (((j % ((Q * n : ℕ) : ℤ)).toNat : ℕ) : ℤ) = j % ((Q * n : ℕ) : ℤ) := Int.toNat_of_nonneg h1
  have h4 := Int.emod_add_mul_ediv j ((Q * n : ℕ) : ℤ)
  rw [← h3] at h4
  have h5 := congrArg (Int.cast (R := ℝ)) h4
  push_cast at h5
  have hQ0 : (Q : ℝ) ≠ 0 := by positivity
  show (j : ℝ) / Q = (((j % ((Q * n : ℕ) : ℤ)).toNat : ℕ) : ℝ) / Q + _
  field_simp
  push_cast
  linarith

section
variable {ny nx : ℕ} [NeZero ny] [NeZero nx]

/-- a displacement on the grid that correlates at least as well as one near the truth is near the truth -/
theorem star_compare_grid {σ h A cy cx dy dx : ℝ} (hσ : 0 < σ) (h0 : 0 ≤ h) (hA : A ≠ 0)
    (hcy : Spec.inside ny h cy) (hcx : Spec.inside nx h cx) (hcy' : Spec.inside ny h (cy + dy)) (hcx' : Spec.inside nx h (cx + dx))
    (im1 im2 η : Fin ny × Fin nx → ℝ) (h1 : ∀ p, im1 p = A * (Spec.star σ cy ((p.1 : ℕ) : ℝ) * Spec.star σ cx ((p.2 : ℕ) : ℝ)))
    (h2 : ∀ p, im2 p = A * (Spec.star σ (cy + dy) ((p.1 : ℕ) : ℝ) * Spec.star σ (cx + dx) ((p.2 : ℕ) : ℝ)) + η p)
    (hy : 2 ≤ ny) (hx : 2 ≤ nx) (zm : Bool) (κ β M m L θ q ρ : ℝ) (hM : 0 ≤ M) (hκ : κ = Spec.starBudget ny nx σ h 0)
    (hβ : β = (1 + max (Spec.starEps ny σ h) (Spec.starEps nx σ h)) ^ 2 - 1)
    (hm : m = M / (|A| * (σ * Real.sqrt Real.pi)))
    (hL : L = Real.exp (-1 / (8 * σ ^ 2)) - 2 * Spec.starMean ny nx σ zm - 2 * (m * Real.sqrt (1 + β))) (hL0 : 0 < L)
    (hθ : θ = 1 + (2 * Spec.starMean ny nx σ zm + 4 * (m * Real.sqrt (1 + β))) / L)
    (hq : q = Real.exp (-1 / (8 * σ ^ 2)) - θ * κ - θ * m * Real.sqrt (2 + 4 * β)) (hq0 : 0 < q)
    (hρ : ρ = 2 * Real.sqrt 2 * σ * (θ * m) / q + 2 * σ * Real.sqrt ((θ * κ + 2 * (θ * m) * Real.sqrt β) / q))
    (Q w : ℕ) (hQ : 0 < Q) (hw : 1 ≤ w) (gy gx : ℝ) (hgy : |gy - dy| ≤ 1 / (2 * w)) (hgx : |gx - dx| ≤ 1 / (2 * w))
    (hnoise : ∀ o : Option (Fin (Q * ny) × Fin (Q * nx)),
      ‖∑ p, (η p : ℂ) * weightAt (prep zm (realArr im1)) (gy, gx) (o.map (gridPt Q)) p‖
        ≤ M * Real.sqrt (∑ p, ‖weightAt (prep zm (realArr im1)) (gy, gx) (o.map (gridPt Q)) p‖ ^ 2))
    (j k : ℤ) (hmax : ‖Spec.cc (prep zm (realArr im1)) (prep zm (realArr im2)) (-gy) (-gx)‖
        ≤ ‖Spec.cc (prep zm (realArr im1)) (prep zm (realArr im2)) (-((j : ℝ) / Q)) (-((k : ℝ) / Q))‖)
    (ty tx : ℝ) (hty : |ty| ≤ (ny : ℝ) / 2) (htx : |tx| ≤ (nx : ℝ) / 2)
    (zy : ∃ z : ℤ, (j : ℝ) / Q - dy - ty = z * ny) (zx : ∃ z : ℤ, (k : ℝ) / Q - dx - tx = z * nx) :
    Real.sqrt (ty ^ 2 + tx ^ 2) ≤ Real.sqrt 2 / (2 * w) + ρ := by
  have hw0 : (1 : ℝ) ≤ w := by exact_mod_cast hw
  have hy0 : (2 : ℝ) ≤ ny := by exact_mod_cast hy
  have hx0 : (2 : ℝ) ≤ nx := by exact_mod_cast hx
  obtain ⟨hκ0, hβ0, hθ1, hcmp⟩ := star_compare_mod hσ h0 hA hcy hcx hcy' hcx' im1 im2 η h1 h2 zm κ β M m L θ hM hκ hβ hm hL hL0 hθ
  have hm0 : 0 ≤ m := by rw [hm]; positivity
  obtain ⟨e, z, hez⟩ := grid_rep ny Q (NeZero.pos ny) hQ j
  obtain ⟨f, z', hfz⟩ := grid_rep nx Q (NeZero.pos nx) hQ k
  have hhalf : 1 / (2 * (w : ℝ)) ≤ 1 / 2 := one_div_le_one_div_of_le (by norm_num) (by linarith)
  have hU2 : (gy - dy) ^ 2 + (gx - dx) ^ 2 ≤ 1 / (2 * (w : ℝ) ^ 2) := by
    have e3 := pow_le_pow_left₀ (abs_nonneg _) hgy 2
    have e4 := pow_le_pow_left₀ (abs_nonneg _) hgx 2
    rw [sq_abs] at e3 e4
    have e5 : (1 / (2 * (w : ℝ))) ^ 2 + (1 / (2 * (w : ℝ))) ^ 2 = 1 / (2 * (w : ℝ) ^ 2) := by field_simp; norm_num
    linarith
  have hU3 : (gy - dy) ^ 2 + (gx - dx) ^ 2 ≤ 1 / 2 :=
    hU2.trans (one_div_le_one_div_of_le (by norm_num) (by nlinarith))
  rw [cc_period _ _ (-((j : ℝ) / Q)) (-((k : ℝ) / Q)) (-(((e : ℕ) : ℝ) / Q)) (-(((f : ℕ) : ℝ) / Q)) ⟨-z, by push_cast; linarith⟩
    ⟨-z', by push_cast; linarith⟩] at hmax
  obtain ⟨y1, hy1⟩ := zy
  obtain ⟨y2, hy2⟩ := zx
  obtain ⟨W, hW0, hW1, hW2⟩ := hcmp (((e : ℕ) : ℝ) / Q) (((f : ℕ) : ℝ) / Q) gy gx ty tx (gy - dy) (gx - dx) hmax (by
      intro o ho
      rcases List.mem_pair.1 ho with rfl | rfl
      · exact hnoise none
      · exact hnoise (some (e, f))) hU3 hty htx (by linarith) (by linarith) ⟨y1 - z, by push_cast; linarith⟩ ⟨y2 - z', by push_cast; linarith⟩
    ⟨0, by push_cast; ring⟩ ⟨0, by push_cast; ring⟩
  have hUs : Real.sqrt ((gy - dy) ^ 2 + (gx - dx) ^ 2) ^ 2 ≤ 1 / 2 := by rw [Real.sq_sqrt (by positivity)]; exact hU3
  have := noisy_dist (T := Real.sqrt (ty ^ 2 + tx ^ 2)) (W := W) hσ (mul_nonneg (by linarith) hκ0) hβ0 (mul_nonneg (by linarith) hm0)
    (Real.sqrt_nonneg _) hUs (Real.sqrt_nonneg _) hW0 hW1 hW2 hq hq0 hρ
  have hUw : Real.sqrt ((gy - dy) ^ 2 + (gx - dx) ^ 2) ≤ Real.sqrt 2 / (2 * w) := by
    rw [Real.sqrt_le_left (by positivity)]
    refine hU2.trans (le_of_eq ?_)
    rw [div_pow, Real.sq_sqrt (by norm_num)]
    field_simp
  linarith

set_option maxHeartbeats 800000 in
/-- a star and noise that is not conspiring: the answer of `register_images` -/
theorem register_star_noise (cfg : FFTConfig) {σ h A cy cx dy dx : ℝ} (hσ : 0 < σ) (h0 : 0 ≤ h) (hA : A ≠ 0)
    (hcy : Spec.inside ny h cy) (hcx : Spec.inside nx h cx) (hcy' : Spec.inside ny h (cy + dy)) (hcx' : Spec.inside nx h (cx + dx))
    (im1 im2 η : Fin ny × Fin nx → ℝ) (h1 : ∀ p, im1 p = A * (Spec.star σ cy ((p.1 : ℕ) : ℝ) * Spec.star σ cx ((p.2 : ℕ) : ℝ)))
    (h2 : ∀ p, im2 p = A * (Spec.star σ (cy + dy) ((p.1 : ℕ) : ℝ) * Spec.star σ (cx + dx) ((p.2 : ℕ) : ℝ)) + η p)
    (hy : 2 ≤ ny) (hx : 2 ≤ nx) (zm : Bool) (usfac : ℕ) (hu : 1 ≤ usfac)
    (κ β M m L θ q ρ : ℝ) (hM : 0 ≤ M) (hκ : κ = Spec.starBudget ny nx σ h 0)
    (hβ : β = (1 + max (Spec.starEps ny σ h) (Spec.starEps nx σ h)) ^ 2 - 1)
    (hm : m = M / (|A| * (σ * Real.sqrt Real.pi)))
    (hL : L = Real.exp (-1 / (8 * σ ^ 2)) - 2 * Spec.starMean ny nx σ zm - 2 * (m * Real.sqrt (1 + β))) (hL0 : 0 < L)
    (hθ : θ = 1 + (2 * Spec.starMean ny nx σ zm + 4 * (m * Real.sqrt (1 + β))) / L)
    (hq : q = Real.exp (-1 / (8 * σ ^ 2)) - θ * κ - θ * m * Real.sqrt (2 + 4 * β)) (hq0 : 0 < q)
    (hρ : ρ = 2 * Real.sqrt 2 * σ * (θ * m) / q + 2 * σ * Real.sqrt ((θ * κ + 2 * (θ * m) * Real.sqrt β) / q))
    (hsharp : 2 < usfac → ρ ≤ 1 / 8)
    (hnoise : ∀ (b : Bool) (o : Option (Fin (2 * usfac * ny) × Fin (2 * usfac * nx))),
      ‖∑ p, (η p : ℂ) * weightAt (prep zm (realArr im1)) (((nearMult (if b then usfac else 2) dy : ℤ) : ℝ) / ((if b then usfac else 2 : ℕ) : ℝ),
          ((nearMult (if b then usfac else 2) dx : ℤ) : ℝ) / ((if b then usfac else 2 : ℕ) : ℝ)) (o.map (gridPt (2 * usfac))) p‖
        ≤ M * Real.sqrt (∑ p, ‖weightAt (prep zm (realArr im1)) (((nearMult (if b then usfac else 2) dy : ℤ) : ℝ) / ((if b then usfac else 2 : ℕ) : ℝ),
          ((nearMult (if b then usfac else 2) dx : ℤ) : ℝ) / ((if b then usfac else 2 : ℕ) : ℝ)) (o.map (gridPt (2 * usfac))) p‖ ^ 2)) :
    ∃ rx ry : ℝ, registerImages cfg (realArr im1) (realArr im2) usfac false false zm none = .ok [.num rx, .num ry] ∧
      ∃ z w : ℤ, Real.sqrt ((ry - dy - z * ny) ^ 2 + (rx - dx - w * nx) ^ 2) ≤ Real.sqrt 2 / (2 * usfac) + ρ := by
  have hu0 : (0 : ℝ) < usfac := by exact_mod_cast hu
  have hfine := hnoise true
  have hcoarse := hnoise false
  simp only [if_true] at hfine
  simp only [Bool.false_eq_true, if_false] at hcoarse
  have hQ : 0 < 2 * usfac := by omega
  have asQ : ∀ j : ℤ, (j : ℝ) / usfac = ((2 * j : ℤ) : ℝ) / ((2 * usfac : ℕ) : ℝ) := by
    intro j; push_cast; field_simp
  have asH : ∀ j : ℤ, (j : ℝ) / 2 = ((usfac * j : ℤ) : ℝ) / ((2 * usfac : ℕ) : ℝ) := by
    intro j; push_cast; field_simp
  -- the last step
  have last : ∀ (j k : ℤ), ‖Spec.cc (prep zm (realArr im1)) (prep zm (realArr im2)) (-((nearMult usfac dy : ℝ) / usfac))
        (-((nearMult usfac dx : ℝ) / usfac))‖
        ≤ ‖Spec.cc (prep zm (realArr im1)) (prep zm (realArr im2)) (-((j : ℝ) / usfac)) (-((k : ℝ) / usfac))‖ →
      ∃ z w : ℤ, Real.sqrt (((j : ℝ) / usfac - dy - z * ny) ^ 2 + ((k : ℝ) / usfac - dx - w * nx) ^ 2) ≤ Real.sqrt 2 / (2 * usfac) + ρ := by
    intro j k hmax
    obtain ⟨z, hz⟩ := near_period ny ((j : ℝ) / usfac - dy)
    obtain ⟨w, hw⟩ := near_period nx ((k : ℝ) / usfac - dx)
    refine ⟨z, w, ?_⟩
    rw [asQ j] at hz
    rw [asQ k] at hw
    rw [asQ j, asQ k] at hmax ⊢
    exact star_compare_grid hσ h0 hA hcy hcx hcy' hcx' im1 im2 η h1 h2 hy hx zm κ β M m L θ q ρ hM hκ hβ hm hL hL0 hθ hq hq0 hρ
      (2 * usfac) usfac hQ hu _ _ (nearMult_spec usfac hu dy) (nearMult_spec usfac hu dx) hfine _ _ hmax _ _ hz hw ⟨z, by ring⟩ ⟨w, by ring⟩
  rcases Nat.lt_or_ge 2 usfac with h3 | h3
  · obtain ⟨rx, ry, row2, col2, hr, ⟨j1, k1, hj1, hk1, -⟩, hhalf, hgy, hgx, href⟩ :=
      C46_refinement_maximises cfg (realArr im1) (realArr im2) usfac h3 hy hx zm
    -- the coarse estimate
    obtain ⟨z, hz⟩ := near_period ny (((-j1 : ℤ) : ℝ) / 2 - dy)
    obtain ⟨w, hw⟩ := near_period nx (((-k1 : ℤ) : ℝ) / 2 - dx)
    have hc : Real.sqrt ((((-j1 : ℤ) : ℝ) / 2 - dy - z * ny) ^ 2 + (((-k1 : ℤ) : ℝ) / 2 - dx - w * nx) ^ 2) ≤ Real.sqrt 2 / (2 * (2 : ℕ)) + ρ := by
      have hmax : ‖Spec.cc (prep zm (realArr im1)) (prep zm (realArr im2)) (-((nearMult 2 dy : ℝ) / (2 : ℕ))) (-((nearMult 2 dx : ℝ) / (2 : ℕ)))‖
          ≤ ‖Spec.cc (prep zm (realArr im1)) (prep zm (realArr im2)) (-(((-j1 : ℤ) : ℝ) / 2)) (-(((-k1 : ℤ) : ℝ) / 2))‖ := by
        have := hhalf (-nearMult 2 dy) (-nearMult 2 dx)
        rw [hj1, hk1] at this
        push_cast at this ⊢
        simpa only [neg_div, neg_neg] using this
      rw [asH (-j1)] at hz
      rw [asH (-k1)] at hw
      rw [asH (-j1), asH (-k1)] at hmax ⊢
      exact star_compare_grid hσ h0 hA hcy hcx hcy' hcx' im1 im2 η h1 h2 hy hx zm κ β M m L θ q ρ hM hκ hβ hm hL hL0 hθ hq hq0 hρ
        (2 * usfac) 2 hQ (by norm_num) _ _ (nearMult_spec 2 (by norm_num) dy) (nearMult_spec 2 (by norm_num) dx) hcoarse _ _ hmax _ _ hz hw
        ⟨z, by ring⟩ ⟨w, by ring⟩
    have hs2 : Real.sqrt 2 ≤ 3 / 2 := by rw [Real.sqrt_le_left (by norm_num)]; norm_num
    have hρ8 := hsharp h3
    have hc2 : Real.sqrt ((((-j1 : ℤ) : ℝ) / 2 - dy - z * ny) ^ 2 + (((-k1 : ℤ) : ℝ) / 2 - dx - w * nx) ^ 2) ≤ 1 / 2 := by
      refine hc.trans ?_
      push_cast
      linarith
    have hty : |((-j1 : ℤ) : ℝ) / 2 - dy - z * ny| ≤ 1 / 2 := (Real.abs_le_sqrt (by nlinarith [sq_nonneg (((-k1 : ℤ) : ℝ) / 2 - dx - w * nx)])).trans hc2
    have htx : |((-k1 : ℤ) : ℝ) / 2 - dx - w * nx| ≤ 1 / 2 := (Real.abs_le_sqrt (by nlinarith [sq_nonneg (((-j1 : ℤ) : ℝ) / 2 - dy - z * ny)])).trans hc2
    have key : ∀ (n : ℕ) (j m z : ℤ) (d : ℝ), |((-j : ℤ) : ℝ) / 2 - d - z * n| ≤ 1 / 2 → |(m : ℝ) / usfac - d| ≤ 1 / (2 * usfac) →
        ((-m - z * n * usfac : ℤ) : ℝ) / usfac ∈ Spec.refineGrid usfac ((j : ℝ) / 2) := by
      intro n j m z d h1 h2
      apply mem_refineGrid usfac h3
      have e : ((2 * (-m - z * n * usfac) - j * usfac : ℤ) : ℝ)
          = 2 * usfac * ((((-j : ℤ) : ℝ) / 2 - d - z * n) - ((m : ℝ) / usfac - d)) := by
        push_cast; field_simp; ring
      have h3 : |((2 * (-m - z * n * usfac) - j * usfac : ℤ) : ℝ)| ≤ usfac + 1 := by
        rw [e, abs_mul, abs_of_pos (by positivity : (0 : ℝ) < 2 * usfac)]
        calc 2 * (usfac : ℝ) * |(((-j : ℤ) : ℝ) / 2 - d - z * n) - ((m : ℝ) / usfac - d)|
            ≤ 2 * usfac * (1 / 2 + 1 / (2 * usfac)) :=
              mul_le_mul_of_nonneg_left ((abs_sub _ _).trans (add_le_add h1 h2)) (by positivity)
          _ = usfac + 1 := by field_simp
      exact_mod_cast h3
    have hb := href _ (hj1 ▸ key ny j1 (nearMult usfac dy) z dy hty (nearMult_spec usfac hu dy)) _
      (hk1 ▸ key nx k1 (nearMult usfac dx) w dx htx (nearMult_spec usfac hu dx))
    have per : ∀ (n : ℕ) (m z : ℤ), ∃ y : ℤ, ((-m - z * n * usfac : ℤ) : ℝ) / usfac - -((m : ℝ) / usfac) = y * n := by
      intro n m z
      refine ⟨-z, ?_⟩
      push_cast; field_simp; ring
    rw [cc_period _ _ _ _ (-((nearMult usfac dy : ℝ) / usfac)) (-((nearMult usfac dx : ℝ) / usfac)) (per _ _ _) (per _ _ _)] at hb
    have mult : ∀ (r t : ℝ), -t ∈ Spec.refineGrid usfac r → ∃ j : ℤ, t = (j : ℝ) / usfac := by
      rintro r t ⟨i, -, hi⟩
      generalize (⌈(usfac : ℝ) * (3 / 2)⌉₊ / 2 : ℕ) = G at hi
      refine ⟨-(pyRound (r * usfac) + (i : ℤ) - (G : ℤ)), ?_⟩
      have : t = -(-t) := by ring
      rw [this, hi]
      push_cast
      field_simp
      ring
    obtain ⟨j, rfl⟩ := mult _ _ hgy
    obtain ⟨k, rfl⟩ := mult _ _ hgx
    exact ⟨_, _, hr, last j k hb⟩
  · interval_cases usfac
    · obtain ⟨rx, ry, hr, hb⟩ := C46_whole_pixel cfg (realArr im1) (realArr im2) zm
      refine ⟨rx, ry, hr, ?_⟩
      have := last ry rx (by
        have := hb (-nearMult 1 dy) (-nearMult 1 dx)
        push_cast at this ⊢
        simpa using this)
      simpa using this
    · obtain ⟨rx, ry, hr, hb⟩ := C46_half_pixel cfg (realArr im1) (realArr im2) zm
      refine ⟨(rx : ℝ) / 2, (ry : ℝ) / 2, hr, ?_⟩
      exact last ry rx (by
        have := hb (-nearMult 2 dy) (-nearMult 2 dx)
        push_cast at this ⊢
        simpa only [neg_div] using this)

end

/-- many linear forms of independent sub-Gaussian noise at once -/
theorem family_tail {Ω : Type*} [MeasurableSpace Ω] (μ : Measure Ω) {ι κ : Type*} [Fintype ι] [Fintype κ] [IsProbabilityMeasure μ] (n : Ω → ι → ℝ)
    (c : ι → NNReal) (v : ℝ) (hv : 0 < v) (hc : ∀ p, (c p : ℝ) ≤ v) (hind : ProbabilityTheory.iIndepFun (fun p ω => n ω p) μ)
    (hsub : ∀ p, ProbabilityTheory.HasSubgaussianMGF (fun ω => n ω p) (c p) μ) (W : κ → ι → ℝ) (k : ℝ) (hk : 0 < k) :
    μ.real {ω | ∃ i, k * Real.sqrt v * Real.sqrt (∑ p, W i p ^ 2) < ∑ p, n ω p * W i p} ≤ Fintype.card κ * Real.exp (-(k ^ 2 / 2)) := by
  refine (measureReal_mono (s₂ := ⋃ i ∈ (univ : Finset κ), {ω | k * Real.sqrt v * Real.sqrt (∑ p, W i p ^ 2) < ∑ p, n ω p * W i p}) ?_
    (measure_ne_top _ _)).trans ((measureReal_biUnion_finset_le _ _).trans
      ((Finset.sum_le_sum fun i _ => weight_tail μ n c v hv hc hind hsub (W i) k hk).trans (le_of_eq ?_)))
  · rintro ω ⟨i, hi⟩
    simp only [Finset.mem_univ, Set.iUnion_true, Set.mem_iUnion]
    exact ⟨i, hi⟩
  · rw [Finset.sum_const, nsmul_eq_mul, Finset.card_univ]

/-- one of the two parts of a complex number, or its negative -/
def part (c s : Bool) (z : ℂ) : ℝ := (if s then 1 else -1) * (if c then z.re else z.im)

theorem norm_of_parts {ι : Type*} [Fintype ι] (η : ι → ℝ) (w : ι → ℂ) (M : ℝ) (hM : 0 ≤ M)
    (h : ∀ c s : Bool, ∑ p, η p * part c s (w p) ≤ M * Real.sqrt (∑ p, part c s (w p) ^ 2)) :
    ‖∑ p, (η p : ℂ) * w p‖ ≤ M * Real.sqrt (∑ p, ‖w p‖ ^ 2) := by
  have h1 := h true true
  have h2 := h true false
  have h3 := h false true
  have h4 := h false false
  simp only [part, if_true, Bool.false_eq_true, if_false, one_mul, neg_mul, mul_neg, neg_sq, Finset.sum_neg_distrib] at h1 h2 h3 h4
  have hre : (∑ p, (η p : ℂ) * w p).re = ∑ p, η p * (w p).re := by
    rw [Complex.re_sum]; exact Finset.sum_congr rfl fun p _ => Complex.re_ofReal_mul _ _
  have him : (∑ p, (η p : ℂ) * w p).im = ∑ p, η p * (w p).im := by
    rw [Complex.im_sum]; exact Finset.sum_congr rfl fun p _ => Complex.im_ofReal_mul _ _
  have a1 : |∑ p, η p * (w p).re| ≤ M * Real.sqrt (∑ p, (w p).re ^ 2) := abs_le.2 ⟨by linarith, h1⟩
  have a2 : |∑ p, η p * (w p).im| ≤ M * Real.sqrt (∑ p, (w p).im ^ 2) := abs_le.2 ⟨by linarith, h3⟩
  have b1 := pow_le_pow_left₀ (abs_nonneg _) a1 2
  have b2 := pow_le_pow_left₀ (abs_nonneg _) a2 2
  rw [sq_abs, mul_pow, Real.sq_sqrt (Finset.sum_nonneg fun p _ => sq_nonneg _)] at b1 b2
  refine abs_le_of_sq_le_sq' ?_ (mul_nonneg hM (Real.sqrt_nonneg _)) |>.2
  rw [mul_pow, Real.sq_sqrt (Finset.sum_nonneg fun p _ => sq_nonneg _), Complex.sq_norm, Complex.normSq_apply, hre, him]
  have e : ∑ p, ‖w p‖ ^ 2 = ∑ p, (w p).re ^ 2 + ∑ p, (w p).im ^ 2 := by
    rw [← Finset.sum_add_distrib]
    refine Finset.sum_congr rfl fun p _ => ?_
    rw [Complex.sq_norm, Complex.normSq_apply]; ring
  rw [e]
  linarith

section
variable {ny nx : ℕ} [NeZero ny] [NeZero nx] {Ω : Type*} [MeasurableSpace Ω] (μ : Measure Ω)

/-- C155: `register_images` on a star with random noise. The second image shows the star of the first one (width `σ`, height `A` of any sign)
moved by `(dx, dy)`, plus independent noise, in every pixel sub-Gaussian with variance proxy at most `v` (for instance Gaussian of variance at
most `v`); the star stays at least `h` pixels away from the edges. With or without `zeromean`, any `usfac ≥ 1`. Choose a number `k` of standard
deviations. With `m = k√v/(|A|σ√π)` the noise of the correlation relative to the signal, `θ` the price for comparing moduli and not real parts,
`q = exp(-1/8σ²) - θκ - θm√(2+4β)` and `ρ = 2√2·σθm/q + 2σ√((θκ + 2θm√β)/q)` (where `κ` and `β` account for sampling and the edges of the
frame), if `q > 0` and, for `usfac > 2`, `ρ ≤ 1/8`: except with probability at most `(8 + 32·usfac²·N)·exp(-k²/2)`, `N` the number of pixels,
the reported displacement is within `√2/(2·usfac) + ρ` of the true one (modulo the size of the frame). -/
theorem C155_star_in_noise (cfg : FFTConfig) [IsProbabilityMeasure μ]
    {σ h A cy cx dy dx : ℝ} (hσ : 0 < σ) (h0 : 0 ≤ h) (hA : A ≠ 0)
    (hcy : Spec.inside ny h cy) (hcx : Spec.inside nx h cx) (hcy' : Spec.inside ny h (cy + dy)) (hcx' : Spec.inside nx h (cx + dx))
    (n : Ω → Fin ny × Fin nx → ℝ) (c : Fin ny × Fin nx → NNReal) (v : ℝ) (hv : 0 < v) (hc : ∀ p, (c p : ℝ) ≤ v)
    (hind : ProbabilityTheory.iIndepFun (fun p ω => n ω p) μ)
    (hsub : ∀ p, ProbabilityTheory.HasSubgaussianMGF (fun ω => n ω p) (c p) μ)
    (hy : 2 ≤ ny) (hx : 2 ≤ nx) (zm : Bool) (usfac : ℕ) (hu : 1 ≤ usfac) (k κ β m K L θ q ρ : ℝ) (hk : 0 < k)
    (hκ : κ = Spec.starBudget ny nx σ h 0)
    (hβ : β = (1 + max (Spec.starEps ny σ h) (Spec.starEps nx σ h)) ^ 2 - 1)
    (hm : m = k * Real.sqrt v / (|A| * (σ * Real.sqrt Real.pi))) (hK : K = Spec.starMean ny nx σ zm)
    (hL : L = Real.exp (-1 / (8 * σ ^ 2)) - 2 * K - 2 * (m * Real.sqrt (1 + β))) (hL0 : 0 < L)
    (hθ : θ = 1 + (2 * K + 4 * (m * Real.sqrt (1 + β))) / L)
    (hq : q = Real.exp (-1 / (8 * σ ^ 2)) - θ * κ - θ * m * Real.sqrt (2 + 4 * β)) (hq0 : 0 < q)
    (hρ : ρ = 2 * Real.sqrt 2 * σ * (θ * m) / q + 2 * σ * Real.sqrt ((θ * κ + 2 * (θ * m) * Real.sqrt β) / q))
    (hsharp : 2 < usfac → ρ ≤ 1 / 8) :
    μ.real {ω | ¬ ∃ rx ry : ℝ,
      registerImages cfg (realArr fun p : Fin ny × Fin nx => A * (Spec.star σ cy ((p.1 : ℕ) : ℝ) * Spec.star σ cx ((p.2 : ℕ) : ℝ)))
        (realArr fun p => A * (Spec.star σ (cy + dy) ((p.1 : ℕ) : ℝ) * Spec.star σ (cx + dx) ((p.2 : ℕ) : ℝ)) + n ω p)
        usfac false false zm none = .ok [.num rx, .num ry] ∧
      ∃ z w : ℤ, Real.sqrt ((ry - dy - z * ny) ^ 2 + (rx - dx - w * nx) ^ 2) ≤ Real.sqrt 2 / (2 * usfac) + ρ}
      ≤ (8 + 32 * usfac ^ 2 * (ny * nx)) * Real.exp (-(k ^ 2 / 2)) := by
  obtain ⟨im1, h1⟩ : ∃ im1 : Fin ny × Fin nx → ℝ, im1 = fun p => A * (Spec.star σ cy ((p.1 : ℕ) : ℝ) * Spec.star σ cx ((p.2 : ℕ) : ℝ)) := ⟨_, rfl⟩
  rw [← h1]
  subst hK
  let w : Bool → Option (Fin (2 * usfac * ny) × Fin (2 * usfac * nx)) → Fin ny × Fin nx → ℂ := fun b o =>
    weightAt (prep zm (realArr im1)) (((nearMult (if b then usfac else 2) dy : ℤ) : ℝ) / ((if b then usfac else 2 : ℕ) : ℝ),
      ((nearMult (if b then usfac else 2) dx : ℤ) : ℝ) / ((if b then usfac else 2 : ℕ) : ℝ)) (o.map (gridPt (2 * usfac)))
  have ht := family_tail μ n c v hv hc hind hsub
    (fun (i : (Bool × Option (Fin (2 * usfac * ny) × Fin (2 * usfac * nx))) × (Bool × Bool)) p => part i.2.1 i.2.2 (w i.1.1 i.1.2 p)) k hk
  have hcard : ((Fintype.card ((Bool × Option (Fin (2 * usfac * ny) × Fin (2 * usfac * nx))) × (Bool × Bool)) : ℕ) : ℝ)
      = 8 + 32 * usfac ^ 2 * (ny * nx) := by
    rw [Fintype.card_prod, Fintype.card_prod, Fintype.card_prod, Fintype.card_bool, Fintype.card_option, Fintype.card_prod, Fintype.card_fin,
      Fintype.card_fin]
    push_cast; ring
  rw [hcard] at ht
  refine (measureReal_mono ?_ (measure_ne_top _ _)).trans ht
  intro ω hω
  simp only [Set.mem_ofPred_eq] at hω ⊢
  by_contra hno
  push Not at hno
  refine hω (register_star_noise cfg hσ h0 hA hcy hcx hcy' hcx' im1 _ (n ω) (fun p => by rw [h1]) (fun p => rfl) hy hx zm usfac hu
    κ β (k * Real.sqrt v) m L θ q ρ (by positivity) hκ hβ hm hL hL0 hθ hq hq0 hρ hsharp ?_)
  intro b o
  exact norm_of_parts (n ω) (w b o) _ (by positivity) fun cc ss => hno ((b, o), (cc, ss))

/-- C155 (a case that meets the conditions): a star of width 3, of any height, anywhere in a 100 × 100 image but at least 25 pixels away from the
edges, moved by any amount that keeps it there, with independent Gaussian noise whose standard deviation is at most the fraction `f ≤ 1/150`
of the height of the star: `register_images` with `usfac ≤ 100`, with or without `zeromean`, is within `√2/(2·usfac) + 1/100 + 15f` pixels of
the true displacement, except with a probability of one in ten thousand. -/
theorem C155_star_in_noise_example (cfg : FFTConfig) [IsProbabilityMeasure μ] {A cy cx dy dx : ℝ} (hA : A ≠ 0)
    (hcy : 25 ≤ cy ∧ cy ≤ 74) (hcx : 25 ≤ cx ∧ cx ≤ 74) (hcy' : 25 ≤ cy + dy ∧ cy + dy ≤ 74) (hcx' : 25 ≤ cx + dx ∧ cx + dx ≤ 74)
    (n : Ω → Fin 100 × Fin 100 → ℝ) (v : Fin 100 × Fin 100 → NNReal) (f : ℝ) (hf0 : 0 < f) (hf1 : f ≤ 1 / 150) (hv : ∀ p, (v p : ℝ) ≤ (f * A) ^ 2)
    (hind : ProbabilityTheory.iIndepFun (fun p ω => n ω p) μ)
    (hgauss : ∀ p, μ.map (fun ω => n ω p) = ProbabilityTheory.gaussianReal 0 (v p))
    (zm : Bool) (usfac : ℕ) (hu : 1 ≤ usfac) (hu2 : usfac ≤ 100) :
    μ.real {ω | ¬ ∃ rx ry : ℝ,
      registerImages cfg (realArr fun p : Fin 100 × Fin 100 => A * (Spec.star 3 cy ((p.1 : ℕ) : ℝ) * Spec.star 3 cx ((p.2 : ℕ) : ℝ)))
        (realArr fun p => A * (Spec.star 3 (cy + dy) ((p.1 : ℕ) : ℝ) * Spec.star 3 (cx + dx) ((p.2 : ℕ) : ℝ)) + n ω p)
        usfac false false zm none = .ok [.num rx, .num ry] ∧
      ∃ z w : ℤ, Real.sqrt ((ry - dy - z * 100) ^ 2 + (rx - dx - w * 100) ^ 2) ≤ Real.sqrt 2 / (2 * usfac) + (1 / 100 + 15 * f)}
      ≤ 1 / 10000 := by
  have hin : ∀ c : ℝ, 25 ≤ c ∧ c ≤ 74 → Spec.inside 100 25 c := by
    intro c hc; unfold Spec.inside; push_cast; exact ⟨hc.1, by linarith [hc.2]⟩
  have hb := star3_budget (le_refl (0 : ℝ))
  have hε := star3_bounds.2.2.2.2
  obtain ⟨t0, t1, -⟩ := star3_bounds
  have hε0 : 0 ≤ Spec.starEps 100 3 25 := starEps_nonneg' (c := 50) (by norm_num) (by norm_num) (by unfold Spec.inside; norm_num)
  have hA0 : 0 < |A| := abs_pos.2 hA
  obtain ⟨κ, hκ⟩ : ∃ κ, κ = Spec.starBudget 100 100 3 25 0 := ⟨_, rfl⟩
  obtain ⟨β, hβ⟩ : ∃ β, β = (1 + max (Spec.starEps 100 3 25) (Spec.starEps 100 3 25)) ^ 2 - 1 := ⟨_, rfl⟩
  obtain ⟨m, hm⟩ : ∃ m, m = 8 * Real.sqrt ((f * A) ^ 2) / (|A| * (3 * Real.sqrt Real.pi)) := ⟨_, rfl⟩
  obtain ⟨K, hK⟩ : ∃ K, K = Spec.starMean 100 100 3 zm := ⟨_, rfl⟩
  obtain ⟨L, hL⟩ : ∃ L, L = Real.exp (-1 / (8 * (3 : ℝ) ^ 2)) - 2 * K - 2 * (m * Real.sqrt (1 + β)) := ⟨_, rfl⟩
  obtain ⟨θ, hθ⟩ : ∃ θ, θ = 1 + (2 * K + 4 * (m * Real.sqrt (1 + β))) / L := ⟨_, rfl⟩
  obtain ⟨q, hq⟩ : ∃ q, q = Real.exp (-1 / (8 * (3 : ℝ) ^ 2)) - θ * κ - θ * m * Real.sqrt (2 + 4 * β) := ⟨_, rfl⟩
  obtain ⟨ρ, hρ⟩ : ∃ ρ, ρ = 2 * Real.sqrt 2 * 3 * (θ * m) / q + 2 * 3 * Real.sqrt ((θ * κ + 2 * (θ * m) * Real.sqrt β) / q) := ⟨_, rfl⟩
  have hK1 : K ≤ 12 / 1000 := by
    rw [hK]
    unfold Spec.starMean
    cases zm with
    | false => norm_num
    | true =>
      simp only [if_true]
      have h3 : (1 + Spec.starTheta 3) ^ 4 ≤ 101 / 100 :=
        (pow_le_pow_left₀ (by linarith) (by linarith : 1 + Spec.starTheta 3 ≤ 1 + 3 / 10 ^ 12) 4).trans (by norm_num)
      have h4 := Real.pi_lt_d4
      have h5 := Real.pi_pos
      have h6 := mul_le_mul h4.le h3 (by positivity) (by norm_num)
      push_cast
      linarith
  have hK0 : 0 ≤ K := by
    rw [hK]
    unfold Spec.starMean
    split_ifs
    · have := Real.pi_pos
      positivity
    · exact le_rfl
  have hκ1 : κ ≤ 1 / 10 ^ 7 := by rw [hκ]; linarith
  rw [max_self] at hβ
  have hβ0 : 0 ≤ β := by rw [hβ]; nlinarith
  have hβ1 : β ≤ 5 / 10 ^ 9 := by
    rw [hβ]
    have := pow_le_pow_left₀ (by linarith : 0 ≤ 1 + Spec.starEps 100 3 25) (by linarith : 1 + Spec.starEps 100 3 25 ≤ 1 + 2 / 10 ^ 9) 2
    have e : ((1 : ℝ) + 2 / 10 ^ 9) ^ 2 ≤ 1 + 5 / 10 ^ 9 := by norm_num
    linarith
  have hsβ : Real.sqrt β ≤ 71 / 10 ^ 6 := by
    rw [Real.sqrt_le_left (by norm_num)]
    refine hβ1.trans (by norm_num)
  have hs1β : Real.sqrt (1 + β) ≤ 1001 / 1000 := by
    rw [Real.sqrt_le_left (by norm_num)]
    refine (by linarith : 1 + β ≤ 1 + (5 / 10 ^ 9)).trans (by norm_num)
  have hs2 : Real.sqrt 2 ≤ 14143 / 10000 := by rw [Real.sqrt_le_left (by norm_num)]; norm_num
  have hs24 : Real.sqrt (2 + 4 * β) ≤ 14143 / 10000 := by
    rw [Real.sqrt_le_left (by norm_num)]
    refine (by linarith : 2 + 4 * β ≤ 2 + 4 * (5 / 10 ^ 9)).trans (by norm_num)
  have hsp := sqrt_pi_gt
  have hm' : m = 8 / 3 * f / Real.sqrt Real.pi := by
    rw [hm, Real.sqrt_sq_eq_abs, abs_mul, abs_of_pos hf0]
    have : Real.sqrt Real.pi ≠ 0 := by positivity
    field_simp
  have hm0 : 0 ≤ m := by rw [hm']; positivity
  have hm1 : m ≤ 1569 / 1000 * f := by
    rw [hm', div_le_iff₀ (by linarith)]
    nlinarith
  have he : 986 / 1000 ≤ Real.exp (-1 / (8 * (3 : ℝ) ^ 2)) := by
    have := Real.add_one_le_exp (-1 / (8 * (3 : ℝ) ^ 2))
    refine le_trans (by norm_num) this
  have hmβ : m * Real.sqrt (1 + β) ≤ 1569 / 1000 * (1 / 150) * (1001 / 1000) :=
    mul_le_mul (by linarith) hs1β (Real.sqrt_nonneg _) (by norm_num)
  have hL1 : 94 / 100 ≤ L := by
    rw [hL]
    norm_num at hmβ
    linarith
  have hL0 : 0 < L := by linarith
  have hmβ0 : 0 ≤ m * Real.sqrt (1 + β) := mul_nonneg hm0 (Real.sqrt_nonneg _)
  have hθ1 : θ ≤ 1071 / 1000 := by
    have : (2 * K + 4 * (m * Real.sqrt (1 + β))) / L ≤ 71 / 1000 := by
      rw [div_le_iff₀ hL0]
      norm_num at hmβ
      linarith
    rw [hθ]; linarith
  have hθ0 : 0 ≤ θ := by
    have : 0 ≤ (2 * K + 4 * (m * Real.sqrt (1 + β))) / L := div_nonneg (by linarith) hL0.le
    rw [hθ]; linarith
  have hκ0 : 0 ≤ κ := (star_compare_noise (σ := 3) (h := 25) (A := A) (by norm_num) (by norm_num) hA (hin _ hcy) (hin _ hcx)
    (hin _ hcy') (hin _ hcx') _ _ (fun _ => 0) (fun p => rfl) (fun p => rfl) zm 1 one_ne_zero κ β 1 (by norm_num) hκ (by rw [max_self]; exact hβ)).1
  have hθm0 : 0 ≤ θ * m := mul_nonneg hθ0 hm0
  have hθm : θ * m ≤ 1071 / 1000 * (1569 / 1000 * f) := mul_le_mul hθ1 hm1 hm0 (by norm_num)
  have hθκ : θ * κ ≤ 1071 / 1000 * (1 / 10 ^ 7) := mul_le_mul hθ1 hκ1 hκ0 (by norm_num)
  norm_num at hθκ
  have hq1 : 97 / 100 ≤ q := by
    have h1 : θ * m * Real.sqrt (2 + 4 * β) ≤ 1071 / 1000 * (1569 / 1000 * (1 / 150)) * (14143 / 10000) :=
      mul_le_mul (by linarith) hs24 (Real.sqrt_nonneg _) (by norm_num)
    rw [hq]
    norm_num at h1
    linarith
  have hq0 : 0 < q := by linarith
  have hρ1 : ρ ≤ 1 / 100 + 15 * f := by
    have h1 : 2 * Real.sqrt 2 * 3 * (θ * m) / q ≤ 15 * f := by
      rw [div_le_iff₀ hq0]
      have a1 : Real.sqrt 2 * (θ * m) ≤ 14143 / 10000 * (1071 / 1000 * (1569 / 1000 * f)) := mul_le_mul hs2 hθm hθm0 (by norm_num)
      have a2 : f * (97 / 100) ≤ f * q := mul_le_mul_of_nonneg_left hq1 hf0.le
      linarith
    have h2 : Real.sqrt ((θ * κ + 2 * (θ * m) * Real.sqrt β) / q) ≤ 16 / 10000 := by
      rw [Real.sqrt_le_left (by norm_num), div_le_iff₀ hq0]
      have a1 : θ * m * Real.sqrt β ≤ 1071 / 1000 * (1569 / 1000 * (1 / 150)) * (71 / 10 ^ 6) :=
        mul_le_mul (by linarith) hsβ (Real.sqrt_nonneg _) (by norm_num)
      norm_num at a1
      linarith
    rw [hρ]; linarith
  have hu' : (usfac : ℝ) ≤ 100 := by exact_mod_cast hu2
  have hβ' : β = (1 + max (Spec.starEps 100 3 25) (Spec.starEps 100 3 25)) ^ 2 - 1 := by rw [max_self]; exact hβ
  have hmain := C155_star_in_noise μ cfg (by norm_num : (0 : ℝ) < 3) (by norm_num : (0 : ℝ) ≤ 25) hA (hin _ hcy) (hin _ hcx) (hin _ hcy') (hin _ hcx')
    n v ((f * A) ^ 2) (by positivity) hv hind (fun p => gauss_sub μ _ _ (hgauss p)) (by norm_num) (by norm_num) zm usfac hu 8 κ β m K L θ q ρ
    (by norm_num) hκ hβ' hm hK hL hL0 hθ hq hq0 hρ (fun _ => by linarith)
  refine (measureReal_mono ?_ (measure_ne_top _ _)).trans (hmain.trans ?_)
  · intro ω hω
    simp only [Set.mem_ofPred_eq] at hω ⊢
    intro hex
    apply hω
    obtain ⟨rx, ry, hr, z, w, hzw⟩ := hex
    refine ⟨rx, ry, hr, z, w, ?_⟩
    push_cast at hzw
    linarith
  · have h1 : Real.exp (-((8 : ℝ) ^ 2 / 2)) ≤ 2 / 10 ^ 14 :=
      (Real.exp_le_exp.2 (by norm_num : -((8 : ℝ) ^ 2 / 2) ≤ -32)).trans
        (exp_neg_le 60 (by norm_num) (by norm_num [Finset.sum_range_succ, Nat.factorial]) (by norm_num))
    have h2 : (usfac : ℝ) ^ 2 ≤ 100 ^ 2 := pow_le_pow_left₀ (by positivity) hu' 2
    have h3 : (8 + 32 * (usfac : ℝ) ^ 2 * (((100 : ℕ) : ℝ) * ((100 : ℕ) : ℝ))) ≤ 8 + 32 * 100 ^ 2 * (100 * 100) := by
      push_cast; linarith
    exact (mul_le_mul h3 h1 (Real.exp_pos _).le (by norm_num)).trans (by norm_num)

end

end ImgReg
