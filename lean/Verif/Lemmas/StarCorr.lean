import Verif.Props.Gauss2
import Verif.Lemmas.Register

/-!
# The correlation of a sampled Gaussian star with itself (for C141)
-/

open Complex Finset
open scoped ComplexConjugate

namespace ImgReg

/-- Relative error of a sum over the pixels in place of an integral, for a star of width `σ` (Poisson summation). -/
noncomputable def Spec.starTheta (σ : ℝ) : ℝ :=
  2 * Real.exp (-(Real.pi ^ 2 * σ ^ 2)) / (1 - Real.exp (-(Real.pi ^ 2 * σ ^ 2)))

/-- Light of the star at a distance of `h + 1` pixels of its centre, where the frame may end, and of the copies. -/
noncomputable def Spec.starEdge (n : ℕ) (σ h : ℝ) : ℝ :=
  Spec.star σ 0 (h + 1) + 2 * Real.exp (-(n : ℝ) ^ 2 / (2 * σ ^ 2)) / (1 - Real.exp (-(n : ℝ) ^ 2 / (2 * σ ^ 2)))

/-- Aliasing and truncation of a star that is at least `h` pixels away from the edges of a frame of `n` pixels. -/
noncomputable def Spec.starBlur (n : ℕ) (σ h : ℝ) : ℝ := Spec.aliased n σ + n * Spec.starEdge n σ h

/-- Relative error of the Gaussian law `exp(-t²/4σ²)` for the self-correlation of a sampled star. -/
noncomputable def Spec.starEps (n : ℕ) (σ h : ℝ) : ℝ :=
  Spec.starTheta σ + (1 + Spec.starTheta σ) * (2 * Real.exp (-(n : ℝ) ^ 2 / (16 * σ ^ 2)) / (1 - Real.exp (-(n : ℝ) ^ 2 / (16 * σ ^ 2))))
    + n * Spec.starEdge n σ h / (σ * Real.sqrt Real.pi) + Real.sqrt 2 * (1 + Spec.starTheta σ) * Spec.starBlur n σ h

theorem ratio_mono {x y : ℝ} (h : x ≤ y) (hy : y < 1) : 2 * x / (1 - x) ≤ 2 * y / (1 - y) := by
  rw [div_le_div_iff₀ (by linarith) (by linarith)]
  nlinarith

theorem ratio_nonneg {x : ℝ} (h : 0 ≤ x) (hx : x < 1) : 0 ≤ 2 * x / (1 - x) := div_nonneg (by linarith) (by linarith)

theorem starTheta_nonneg {σ : ℝ} (hσ : 0 < σ) : 0 ≤ Spec.starTheta σ :=
  ratio_nonneg (Real.exp_pos _).le (exp_neg_lt_one (by have := Real.pi_pos; have : 0 < Real.pi ^ 2 * σ ^ 2 := by positivity
                                                       linarith))

/-- a sum over all pixels of a Gaussian `exp(-(j-x)²/σ²)` is `σ√π`, up to a relative error `starTheta σ` -/
theorem theta_sum {σ : ℝ} (hσ : 0 < σ) (x : ℝ) :
    Summable (fun k : ℤ => Real.exp (-((k : ℝ) - x) ^ 2 / σ ^ 2)) ∧
    |∑' k : ℤ, Real.exp (-((k : ℝ) - x) ^ 2 / σ ^ 2) - σ * Real.sqrt Real.pi| ≤ σ * Real.sqrt Real.pi * Spec.starTheta σ := by
  have hs2 : 0 < Real.sqrt 2 := by positivity
  set τ := σ / Real.sqrt 2 with hτ
  have hτ0 : 0 < τ := by positivity
  have hτ2 : 2 * τ ^ 2 = σ ^ 2 := by
    rw [hτ, div_pow, Real.sq_sqrt (by norm_num)]; ring
  have hM : τ * Real.sqrt (2 * Real.pi) = σ * Real.sqrt Real.pi := by
    rw [hτ, Real.sqrt_mul (by norm_num)]; field_simp
  have hterm : ∀ k : ℤ, Spec.star τ 0 (x - ((1 : ℕ) : ℝ) * k) = Real.exp (-((k : ℝ) - x) ^ 2 / σ ^ 2) := by
    intro k; unfold Spec.star; rw [hτ2]; congr 2; push_cast; ring
  have hsum := summable_gauss (n := 1) hτ0 0 x
  have hP := poisson_gauss (n := 1) hτ0 0 x
  simp_rw [hterm] at hsum hP
  refine ⟨hsum, ?_⟩
  have ha0 : 0 < Real.pi ^ 2 * σ ^ 2 := by have := Real.pi_pos; positivity
  set q := Real.exp (-(Real.pi ^ 2 * σ ^ 2)) with hq
  have hq1 : q < 1 := exp_neg_lt_one (by linarith)
  have hb := (hasSum_int_geom (Real.exp_pos _).le hq1 1 one_pos).mul_left (σ * Real.sqrt Real.pi)
  have h0 : gcoef 1 τ 0 0 * ex (((0 : ℤ) : ℝ) * x / ((1 : ℕ) : ℝ)) = ((σ * Real.sqrt Real.pi : ℝ) : ℂ) := by
    unfold gcoef ex
    rw [← hM]; simp
  have hP' := (hP.sub (hasSum_ite_eq (0 : ℤ) ((σ * Real.sqrt Real.pi : ℝ) : ℂ)))
  have hn := tsum_of_norm_bounded hb (fun m => ?_) (f := fun m : ℤ => gcoef 1 τ 0 m * ex ((m : ℝ) * x / ((1 : ℕ) : ℝ))
      - if m = 0 then ((σ * Real.sqrt Real.pi : ℝ) : ℂ) else 0)
  · rw [hP'.tsum_eq, ← Complex.ofReal_sub, Complex.norm_real, Real.norm_eq_abs] at hn
    unfold Spec.starTheta
    rw [← hq]
    simpa using hn
  · by_cases hm : m = 0
    · subst hm
      rw [h0]; simp
    · have h1 : ¬ m.natAbs < 1 := by omega
      rw [if_neg hm, if_neg h1, sub_zero, norm_mul, norm_ex, mul_one, norm_gcoef hτ0, ← Real.exp_nat_mul, Nat.cast_one, div_one, hM]
      refine mul_le_mul_of_nonneg_left (Real.exp_le_exp.2 ?_) (by positivity)
      have h2 : ((m.natAbs : ℕ) : ℝ) ^ 2 = (m : ℝ) ^ 2 := by
        rw [← Int.cast_natCast (R := ℝ), Int.natCast_natAbs, Int.cast_abs, sq_abs]
      rw [← h2]
      have h3 : (1 : ℝ) ≤ (m.natAbs : ℝ) := by exact_mod_cast Nat.one_le_iff_ne_zero.2 (by omega)
      have h4 : -2 * Real.pi ^ 2 * τ ^ 2 / 1 ^ 2 = -(Real.pi ^ 2 * σ ^ 2) := by rw [← hτ2]; ring
      rw [h4]
      have h5 : 0 ≤ Real.pi ^ 2 * σ ^ 2 * ((m.natAbs : ℝ) * ((m.natAbs : ℝ) - 1)) :=
        mul_nonneg ha0.le (mul_nonneg (by linarith) (by linarith))
      linarith

section
variable {n : ℕ} [NeZero n] {σ : ℝ}

omit [NeZero n] in
/-- sums over the frame and over all pixels -/
theorem frame_sum_le {f : ℤ → ℝ} (hf : Summable f) (h0 : ∀ k, 0 ≤ f k) : ∑ j : Fin n, f ((j : ℕ) : ℤ) ≤ ∑' k : ℤ, f k := by
  have h1 : ∑ j : Fin n, f ((j : ℕ) : ℤ)
      = ∑ k ∈ Finset.univ.map ⟨fun j : Fin n => ((j : ℕ) : ℤ), fun a b h => Fin.ext (Int.ofNat_inj.1 h)⟩, f k := by
    rw [Finset.sum_map]; rfl
  rw [h1]
  exact hf.sum_le_tsum _ (fun k _ => h0 k)

/-- a sum over all pixels, folded into the frame -/
theorem fold_sum {f : ℤ → ℝ} (hf : Summable f) :
    ∑' k : ℤ, f k = ∑ j : Fin n, ∑' z : ℤ, f (((j : ℕ) : ℤ) - n * z) := by
  have hn : (n : ℤ) ≠ 0 := by exact_mod_cast NeZero.ne n
  have hn' : (0 : ℤ) < n := by have := NeZero.pos n; exact_mod_cast this
  let φ : Fin n × ℤ ≃ ℤ :=
    { toFun := fun p => ((p.1 : ℕ) : ℤ) - n * p.2
      invFun := fun k => (⟨(k % n).toNat, by
        have h1 := Int.emod_nonneg k hn; have h2 := Int.emod_lt_of_pos k hn'; omega⟩, -(k / n))
      left_inv := by
        rintro ⟨j, z⟩
        have hj : ((j : ℕ) : ℤ) < n := by exact_mod_cast j.isLt
        have e1 : (((j : ℕ) : ℤ) - n * z) % n = ((j : ℕ) : ℤ) := by
          rw [Int.sub_mul_emod_self_left]; exact Int.emod_eq_of_lt (by omega) hj
        have e2 : (((j : ℕ) : ℤ) - n * z) / n = -z := by
          rw [sub_eq_add_neg, ← mul_neg, Int.add_mul_ediv_left _ _ hn, Int.ediv_eq_zero_of_lt (by omega) hj, zero_add]
        refine Prod.ext (Fin.ext ?_) ?_
        · simp only [e1]; simp
        · simp only [e2]; simp
      right_inv := by
        intro k
        have h1 := Int.emod_nonneg k hn
        have := Int.emod_add_mul_ediv k n
        simp only [Int.toNat_of_nonneg h1]
        linarith }
  rw [← φ.tsum_eq f]
  have hs : Summable (fun p : Fin n × ℤ => f (φ p)) := (φ.summable_iff (f := f)).2 hf
  rw [hs.tsum_prod, tsum_fintype]
  rfl

/-- light outside the frame -/
theorem outside_le (hσ : 0 < σ) (c : ℝ) (hc : ∀ j : Fin n, |((j : ℕ) : ℝ) - c| ≤ n) :
    (∑' k : ℤ, Spec.star σ c k) - ∑ j : Fin n, Spec.star σ c ((j : ℕ) : ℝ) ≤ ∑ j : Fin n, Spec.spill n σ (((j : ℕ) : ℝ) - c) := by
  have hs : Summable fun k : ℤ => Spec.star σ c k := by
    have := summable_gauss (n := 1) hσ (-c) 0
    refine this.congr fun k => ?_
    unfold Spec.star; congr 2; push_cast; ring
  rw [fold_sum (n := n) hs, ← Finset.sum_sub_distrib]
  refine Finset.sum_le_sum fun j _ => ?_
  have := (wrapped_le (n := n) hσ c ((j : ℕ) : ℝ) (hc j)).2
  refine le_trans (le_of_eq ?_) this
  congr 1
  refine tsum_congr fun z => ?_
  push_cast; rfl

/-- a product of two stars is a star half-way -/
theorem star_mul (hσ : 0 < σ) (c w t : ℝ) :
    Spec.star σ c t * Spec.star σ c (t - w)
      = Real.exp (-w ^ 2 / (4 * σ ^ 2)) * Real.exp (-(t - (c + w / 2)) ^ 2 / σ ^ 2) := by
  unfold Spec.star
  rw [← Real.exp_add, ← Real.exp_add]
  congr 1
  field_simp
  ring

omit [NeZero n] in
/-- the correlation of the samples of the star with the star itself, upper bound -/
theorem overlap_le (hσ : 0 < σ) (c w : ℝ) :
    ∑ j : Fin n, Spec.star σ c ((j : ℕ) : ℝ) * Spec.star σ c (((j : ℕ) : ℝ) - w)
      ≤ Real.exp (-w ^ 2 / (4 * σ ^ 2)) * (σ * Real.sqrt Real.pi * (1 + Spec.starTheta σ)) := by
  simp_rw [star_mul hσ]
  rw [← Finset.mul_sum]
  refine mul_le_mul_of_nonneg_left ?_ (Real.exp_pos _).le
  obtain ⟨h1, h2⟩ := theta_sum hσ (c + w / 2)
  have h3 := frame_sum_le (n := n) h1 (fun k => (Real.exp_pos _).le)
  have h4 := (abs_le.1 h2).2
  simp only [Int.cast_natCast] at h3
  linarith

/-- the correlation of the samples of the star with the star itself, lower bound -/
theorem overlap_ge (hσ : 0 < σ) (c w : ℝ) (hc : ∀ j : Fin n, |((j : ℕ) : ℝ) - c| ≤ n) :
    Real.exp (-w ^ 2 / (4 * σ ^ 2)) * (σ * Real.sqrt Real.pi * (1 - Spec.starTheta σ))
        - ∑ j : Fin n, Spec.spill n σ (((j : ℕ) : ℝ) - c)
      ≤ ∑ j : Fin n, Spec.star σ c ((j : ℕ) : ℝ) * Spec.star σ c (((j : ℕ) : ℝ) - w) := by
  have hs : Summable fun k : ℤ => Spec.star σ c k := by
    have := summable_gauss (n := 1) hσ (-c) 0
    refine this.congr fun k => ?_
    unfold Spec.star; congr 2; push_cast; ring
  have hp : Summable fun k : ℤ => Spec.star σ c k * Spec.star σ c (k - w) :=
    hs.of_nonneg_of_le (fun k => (mul_pos (gauss_pos _ _ _) (gauss_pos _ _ _)).le)
      (fun k => mul_le_of_le_one_right (gauss_pos _ _ _).le (gauss_le_one _ _ _))
  -- what is missing outside of the frame
  have hd := hs.sub hp
  have h1 := frame_sum_le (n := n) hd (fun k => by
    have := mul_le_of_le_one_right (gauss_pos σ c k).le (gauss_le_one σ c (k - w))
    linarith)
  rw [hs.tsum_sub hp, Finset.sum_sub_distrib] at h1
  simp only [Int.cast_natCast] at h1
  have h2 := outside_le (n := n) hσ c hc
  obtain ⟨-, h4⟩ := theta_sum hσ (c + w / 2)
  have h5 := (abs_le.1 h4).1
  have h6 : ∑' k : ℤ, Spec.star σ c k * Spec.star σ c (k - w)
      = Real.exp (-w ^ 2 / (4 * σ ^ 2)) * ∑' k : ℤ, Real.exp (-((k : ℝ) - (c + w / 2)) ^ 2 / σ ^ 2) := by
    rw [← tsum_mul_left]
    exact tsum_congr fun k => star_mul hσ c w k
  have h7 : Real.exp (-w ^ 2 / (4 * σ ^ 2)) * (σ * Real.sqrt Real.pi * (1 - Spec.starTheta σ))
      ≤ Real.exp (-w ^ 2 / (4 * σ ^ 2)) * ∑' k : ℤ, Real.exp (-((k : ℝ) - (c + w / 2)) ^ 2 / σ ^ 2) :=
    mul_le_mul_of_nonneg_left (by linarith) (Real.exp_pos _).le
  linarith

omit [NeZero n] in
theorem sum_star_le (hσ : 0 < σ) (c : ℝ) :
    ∑ j : Fin n, Spec.star σ c ((j : ℕ) : ℝ) ≤ Real.sqrt 2 * (σ * Real.sqrt Real.pi) * (1 + Spec.starTheta σ) := by
  have hs2 : 0 < Real.sqrt 2 := by positivity
  have hσ' : 0 < Real.sqrt 2 * σ := by positivity
  obtain ⟨h1, h2⟩ := theta_sum hσ' c
  have h3 := frame_sum_le (n := n) h1 (fun k => (Real.exp_pos _).le)
  have h4 := (abs_le.1 h2).2
  have e : (Real.sqrt 2 * σ) ^ 2 = 2 * σ ^ 2 := by rw [mul_pow, Real.sq_sqrt (by norm_num)]
  have h5 : ∑ j : Fin n, Spec.star σ c ((j : ℕ) : ℝ)
      = ∑ j : Fin n, Real.exp (-(((((j : ℕ) : ℤ)) : ℝ) - c) ^ 2 / (Real.sqrt 2 * σ) ^ 2) := by
    refine Finset.sum_congr rfl fun j _ => ?_
    unfold Spec.star; rw [e]; push_cast; rfl
  rw [h5]
  have ht : Spec.starTheta (Real.sqrt 2 * σ) ≤ Spec.starTheta σ := by
    have hp : 0 < Real.pi ^ 2 * σ ^ 2 := by have := Real.pi_pos; positivity
    refine ratio_mono (Real.exp_le_exp.2 ?_) (exp_neg_lt_one (by linarith))
    rw [e]; nlinarith
  have h6 : Real.sqrt 2 * σ * Real.sqrt Real.pi * Spec.starTheta (Real.sqrt 2 * σ)
      ≤ Real.sqrt 2 * σ * Real.sqrt Real.pi * Spec.starTheta σ := mul_le_mul_of_nonneg_left ht (by positivity)
  linarith

omit [NeZero n] in
theorem edge_spill (hσ : 0 < σ) {h : ℝ} (h0 : 0 ≤ h) (u : ℝ) (hu : |u| ≤ (n : ℝ) - 1 - h) :
    Spec.spill n σ u ≤ Spec.starEdge n σ h := by
  unfold Spec.spill Spec.starEdge
  have : Spec.star σ 0 (n - |u|) ≤ Spec.star σ 0 (h + 1) := by
    unfold Spec.star
    refine Real.exp_le_exp.2 (div_le_div_of_nonneg_right ?_ (by positivity))
    nlinarith
  linarith

/-- the distance of the centre to the edges of the frame is at least `h` -/
def Spec.inside (n : ℕ) (h c : ℝ) : Prop := h ≤ c ∧ c ≤ (n : ℝ) - 1 - h

omit [NeZero n] in
theorem inside_dist {h c : ℝ} (hc : Spec.inside n h c) (j : Fin n) : |((j : ℕ) : ℝ) - c| ≤ (n : ℝ) - 1 - h := by
  have hj : ((j : ℕ) : ℝ) + 1 ≤ n := by exact_mod_cast j.isLt
  have hj0 : (0 : ℝ) ≤ ((j : ℕ) : ℝ) := Nat.cast_nonneg _
  obtain ⟨h1, h2⟩ := hc
  rw [abs_le]; constructor <;> linarith

omit [NeZero n] in
theorem trunc_edge (hσ : 0 < σ) {h c : ℝ} (h0 : 0 ≤ h) (hc : Spec.inside n h c) :
    ∑ j : Fin n, Spec.spill n σ (((j : ℕ) : ℝ) - c) ≤ n * Spec.starEdge n σ h := by
  refine (Finset.sum_le_sum fun j _ => edge_spill hσ h0 _ (inside_dist hc j)).trans (le_of_eq ?_)
  rw [Finset.sum_const, Finset.card_univ, Fintype.card_fin, nsmul_eq_mul]

/-- the self-correlation of a sampled star along one axis -/
noncomputable def corr1 (n : ℕ) [NeZero n] (σ c t : ℝ) : ℂ :=
  ∑ j : Fin n, ((Spec.star σ c ((j : ℕ) : ℝ) : ℝ) : ℂ)
    * interpC (fun j : Fin n => ((Spec.star σ c ((j : ℕ) : ℝ) : ℝ) : ℂ)) (((j : ℕ) : ℝ) - t)

theorem corr1_near (hσ : 0 < σ) {h c : ℝ} (h0 : 0 ≤ h) (hc : Spec.inside n h c) (t : ℝ) :
    ‖corr1 n σ c t - ((∑ j : Fin n, Spec.star σ c ((j : ℕ) : ℝ) * ∑' k : ℤ, Spec.star σ c (((j : ℕ) : ℝ) - t - n * k) : ℝ) : ℂ)‖
      ≤ σ * Real.sqrt Real.pi * (Real.sqrt 2 * (1 + Spec.starTheta σ) * Spec.starBlur n σ h) := by
  have hcn : ∀ j : Fin n, |((j : ℕ) : ℝ) - c| ≤ n := fun j => (inside_dist hc j).trans (by linarith)
  have hT := trunc_edge hσ h0 hc
  have hB : ∀ u : ℝ, ‖interpC (fun j : Fin n => ((Spec.star σ c ((j : ℕ) : ℝ) : ℝ) : ℂ)) u
      - ((∑' k : ℤ, Spec.star σ c (u - n * k) : ℝ) : ℂ)‖ ≤ Spec.starBlur n σ h := fun u =>
    (interpC_gauss_periodic hσ c u hcn).trans (by unfold Spec.starBlur; linarith)
  unfold corr1
  rw [Complex.ofReal_sum, ← Finset.sum_sub_distrib]
  refine (norm_sum_le _ _).trans ?_
  have h1 : ∀ j : Fin n, ‖((Spec.star σ c ((j : ℕ) : ℝ) : ℝ) : ℂ)
      * interpC (fun j : Fin n => ((Spec.star σ c ((j : ℕ) : ℝ) : ℝ) : ℂ)) (((j : ℕ) : ℝ) - t)
      - ((Spec.star σ c ((j : ℕ) : ℝ) * ∑' k : ℤ, Spec.star σ c (((j : ℕ) : ℝ) - t - n * k) : ℝ) : ℂ)‖
      ≤ Spec.star σ c ((j : ℕ) : ℝ) * Spec.starBlur n σ h := by
    intro j
    rw [Complex.ofReal_mul, ← mul_sub, norm_mul, Complex.norm_real, Real.norm_of_nonneg (gauss_pos _ _ _).le]
    exact mul_le_mul_of_nonneg_left (hB _) (gauss_pos _ _ _).le
  refine (Finset.sum_le_sum fun j _ => h1 j).trans ?_
  rw [← Finset.sum_mul]
  have hB0 : 0 ≤ Spec.starBlur n σ h := (norm_nonneg _).trans (hB 0)
  refine (mul_le_mul_of_nonneg_right (sum_star_le hσ c) hB0).trans (le_of_eq (by ring))

theorem overlap_periodic (hσ : 0 < σ) (c t : ℝ) :
    ∑ j : Fin n, Spec.star σ c ((j : ℕ) : ℝ) * ∑' k : ℤ, Spec.star σ c (((j : ℕ) : ℝ) - t - n * k)
      = ∑' k : ℤ, ∑ j : Fin n, Spec.star σ c ((j : ℕ) : ℝ) * Spec.star σ c (((j : ℕ) : ℝ) - (t + n * k)) := by
  have hs : ∀ j : Fin n, Summable fun k : ℤ => Spec.star σ c ((j : ℕ) : ℝ) * Spec.star σ c (((j : ℕ) : ℝ) - (t + n * k)) := by
    intro j
    refine ((summable_gauss (n := n) hσ c (((j : ℕ) : ℝ) - t)).mul_left (Spec.star σ c ((j : ℕ) : ℝ))).congr fun k => ?_
    congr 2; ring
  rw [Summable.tsum_finsetSum fun j _ => hs j]
  refine Finset.sum_congr rfl fun j _ => ?_
  rw [← tsum_mul_left]
  refine tsum_congr fun k => ?_
  congr 2; ring

/-- the Gaussian law of the self-correlation -/
theorem corr1_law (hσ : 0 < σ) {h c : ℝ} (h0 : 0 ≤ h) (hc : Spec.inside n h c) (t : ℝ) (ht : |t| ≤ (n : ℝ) / 2) :
    ‖corr1 n σ c t - ((σ * Real.sqrt Real.pi * Real.exp (-t ^ 2 / (4 * σ ^ 2)) : ℝ) : ℂ)‖
      ≤ σ * Real.sqrt Real.pi * Spec.starEps n σ h := by
  have hn : (0 : ℝ) < n := Nat.cast_pos.2 (NeZero.pos n)
  have hM : 0 < σ * Real.sqrt Real.pi := by have := Real.pi_pos; positivity
  set M := σ * Real.sqrt Real.pi with hMd
  have hcn : ∀ j : Fin n, |((j : ℕ) : ℝ) - c| ≤ n := fun j => (inside_dist hc j).trans (by linarith)
  have hθ := starTheta_nonneg hσ
  have hnear := corr1_near hσ h0 hc t
  rw [overlap_periodic hσ, ← hMd] at hnear
  set G : ℤ → ℝ := fun k => ∑ j : Fin n, Spec.star σ c ((j : ℕ) : ℝ) * Spec.star σ c (((j : ℕ) : ℝ) - (t + n * k)) with hG
  have hG0 : ∀ k, 0 ≤ G k := fun k => Finset.sum_nonneg fun j _ => (mul_pos (gauss_pos _ _ _) (gauss_pos _ _ _)).le
  have hsG : Summable G := by
    refine summable_sum fun j _ => ?_
    refine ((summable_gauss (n := n) hσ c (((j : ℕ) : ℝ) - t)).mul_left (Spec.star σ c ((j : ℕ) : ℝ))).congr fun k => ?_
    congr 2; ring
  set p := Real.exp (-(n : ℝ) ^ 2 / (16 * σ ^ 2)) with hp
  have hp1 : p < 1 := exp_neg_lt_one (div_neg_of_neg_of_pos (by have := pow_pos hn 2; linarith) (by positivity))
  have hp0 : 0 ≤ p := (Real.exp_pos _).le
  set R := 2 * p / (1 - p) with hR
  have hR0 : 0 ≤ R := ratio_nonneg hp0 hp1
  have hup : ∑' k, G k ≤ M * (1 + Spec.starTheta σ) * (Real.exp (-t ^ 2 / (4 * σ ^ 2)) + R) := by
    have hb := ((hasSum_ite_eq (0 : ℤ) (Real.exp (-t ^ 2 / (4 * σ ^ 2)))).add (hasSum_int_geom hp0 hp1 1 one_pos)).mul_left
      (M * (1 + Spec.starTheta σ))
    have := hsG.tsum_le_tsum (fun k => ?_) hb.summable
    · rw [hb.tsum_eq, pow_one] at this
      exact this
    · refine (overlap_le (n := n) hσ c (t + n * k)).trans ?_
      rw [← hMd, mul_comm]
      refine mul_le_mul_of_nonneg_left ?_ (by positivity)
      by_cases hk : k = 0
      · subst hk; simp
      · have h1 : ¬ k.natAbs < 1 := by omega
        rw [if_neg hk, if_neg h1, zero_add, hp, ← Real.exp_nat_mul]
        refine Real.exp_le_exp.2 ?_
        have h2 : (1 : ℝ) ≤ (k.natAbs : ℝ) := by exact_mod_cast Nat.one_le_iff_ne_zero.2 (by omega)
        have h3 : ((k.natAbs : ℕ) : ℝ) = |(k : ℝ)| := by
          rw [← Int.cast_natCast (R := ℝ), Int.natCast_natAbs, Int.cast_abs]
        have h4 : (n : ℝ) * k.natAbs / 2 ≤ |t + n * k| := by
          have e1 : |(n : ℝ) * k| - |t| ≤ |t + n * k| := by
            have := abs_sub_abs_le_abs_sub ((n : ℝ) * k) (-t)
            rw [abs_neg, sub_neg_eq_add, add_comm ((n : ℝ) * k)] at this
            exact this
          rw [abs_mul, abs_of_pos hn, ← h3] at e1
          nlinarith
        have h5 : (n : ℝ) ^ 2 * k.natAbs / 4 ≤ (t + n * k) ^ 2 := by
          rw [← sq_abs (t + n * k)]
          have : ((n : ℝ) * k.natAbs / 2) ^ 2 ≤ |t + n * k| ^ 2 := pow_le_pow_left₀ (by positivity) h4 2
          have e2 : (k.natAbs : ℝ) ≤ (k.natAbs : ℝ) ^ 2 := by nlinarith
          nlinarith [sq_nonneg (n : ℝ)]
        have h6 : (k.natAbs : ℝ) * (-(n : ℝ) ^ 2 / (16 * σ ^ 2)) = -((n : ℝ) ^ 2 * k.natAbs / 4) / (4 * σ ^ 2) := by
          field_simp; ring
        rw [h6]
        exact div_le_div_of_nonneg_right (by linarith) (by positivity)
  have hlo : Real.exp (-t ^ 2 / (4 * σ ^ 2)) * (M * (1 - Spec.starTheta σ)) - n * Spec.starEdge n σ h ≤ ∑' k, G k := by
    have h1 := overlap_ge (n := n) hσ c t hcn
    have h2 := trunc_edge hσ h0 hc
    have h3 := hsG.le_tsum (0 : ℤ) (fun k _ => hG0 k)
    have h4 : G 0 = ∑ j : Fin n, Spec.star σ c ((j : ℕ) : ℝ) * Spec.star σ c (((j : ℕ) : ℝ) - t) := by
      rw [hG]; simp
    rw [h4] at h3
    rw [← hMd] at h1
    linarith
  have he1 : Real.exp (-t ^ 2 / (4 * σ ^ 2)) ≤ 1 := by
    rw [Real.exp_le_one_iff, neg_div]
    have : 0 ≤ t ^ 2 / (4 * σ ^ 2) := by positivity
    linarith
  have he0 := Real.exp_pos (-t ^ 2 / (4 * σ ^ 2))
  set X := Real.exp (-t ^ 2 / (4 * σ ^ 2)) with hX
  set B := Real.sqrt 2 * (1 + Spec.starTheta σ) * Spec.starBlur n σ h with hB
  have hBn : 0 ≤ M * B := (norm_nonneg _).trans hnear
  have hE0 : 0 ≤ n * Spec.starEdge n σ h := by
    have := trunc_edge hσ h0 hc
    refine le_trans (Finset.sum_nonneg fun j _ => ?_) this
    have := wrapped_le (n := n) hσ c ((j : ℕ) : ℝ) (hcn j)
    linarith [this.1, this.2]
  have hEM : M * (n * Spec.starEdge n σ h / M) = n * Spec.starEdge n σ h := by field_simp
  have hEM0 : 0 ≤ n * Spec.starEdge n σ h / M := div_nonneg hE0 hM.le
  have heps : Spec.starEps n σ h = Spec.starTheta σ + (1 + Spec.starTheta σ) * R + n * Spec.starEdge n σ h / M + B := rfl
  rw [heps]
  have h1 : |(∑' k, G k) - M * X| ≤ M * (Spec.starTheta σ + (1 + Spec.starTheta σ) * R + n * Spec.starEdge n σ h / M) := by
    have h2 : M * (Spec.starTheta σ * X) ≤ M * Spec.starTheta σ := mul_le_mul_of_nonneg_left (by nlinarith) hM.le
    have h4 : 0 ≤ M * ((1 + Spec.starTheta σ) * R) := by positivity
    have h5 : M * (Spec.starTheta σ + (1 + Spec.starTheta σ) * R + n * Spec.starEdge n σ h / M)
        = M * Spec.starTheta σ + M * ((1 + Spec.starTheta σ) * R) + n * Spec.starEdge n σ h := by
      rw [mul_add, mul_add, hEM]
    rw [h5, abs_le]
    constructor <;> linarith
  have h2 : corr1 n σ c t - ((M * X : ℝ) : ℂ) = (corr1 n σ c t - ((∑' k, G k : ℝ) : ℂ)) + (((∑' k, G k) - M * X : ℝ) : ℂ) := by
    push_cast; ring
  rw [h2]
  refine (norm_add_le _ _).trans ?_
  rw [Complex.norm_real, Real.norm_eq_abs]
  refine (add_le_add hnear h1).trans (le_of_eq (by ring))

end

/-! ## two dimensions -/

section two
variable {ny nx : ℕ} [NeZero ny] [NeZero nx]

theorem cc_interp (a : Fin ny × Fin nx → ℝ) (t u : ℝ) :
    Spec.cc a a t u = ∑ p, (a p : ℂ) * interp2C (fun p => (a p : ℂ)) (((p.1 : ℕ) : ℝ) - t) (((p.2 : ℕ) : ℝ) - u) := by
  unfold Spec.cc
  refine Finset.sum_congr rfl fun p _ => ?_
  rw [interp2C_displaced]
  rfl

theorem cc_star (σ cy cx t u : ℝ) :
    Spec.cc (fun p : Fin ny × Fin nx => Spec.star σ cy ((p.1 : ℕ) : ℝ) * Spec.star σ cx ((p.2 : ℕ) : ℝ))
        (fun p : Fin ny × Fin nx => Spec.star σ cy ((p.1 : ℕ) : ℝ) * Spec.star σ cx ((p.2 : ℕ) : ℝ)) t u
      = corr1 ny σ cy t * corr1 nx σ cx u := by
  rw [cc_interp]
  unfold corr1
  rw [Finset.sum_mul_sum, ← Finset.sum_product', Finset.univ_product_univ]
  refine Finset.sum_congr rfl fun p _ => ?_
  have h : (fun p : Fin ny × Fin nx => ((Spec.star σ cy ((p.1 : ℕ) : ℝ) * Spec.star σ cx ((p.2 : ℕ) : ℝ) : ℝ) : ℂ))
      = fun p => ((Spec.star σ cy ((p.1 : ℕ) : ℝ) : ℝ) : ℂ) * ((Spec.star σ cx ((p.2 : ℕ) : ℝ) : ℝ) : ℂ) := by
    funext p; push_cast; rfl
  rw [h, interp2C_mul (fun j : Fin ny => ((Spec.star σ cy ((j : ℕ) : ℝ) : ℝ) : ℂ))
    (fun j : Fin nx => ((Spec.star σ cx ((j : ℕ) : ℝ) : ℝ) : ℂ))]
  push_cast
  ring

end two

end ImgReg
