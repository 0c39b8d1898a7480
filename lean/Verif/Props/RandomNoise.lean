import Verif.Props.Noise
import Verif.Lemmas.AutoCorr
import Mathlib.MeasureTheory.Integral.Bochner.Basic
import Mathlib.Probability.Moments.SubGaussian
import Mathlib.Probability.Distributions.Gaussian.Real
import Mathlib.Probability.Independence.Integration

/-!
# Random noise: how likely `chi2_shift` is to return a wrong pixel (C126)
-/

open Complex Finset MeasureTheory

namespace ImgReg

namespace Spec

/-- the displacements `0 ≤ e < n` that are not `(dy, dx)` modulo the image size -/
def others (ny nx : ℕ) (dy dx : ℤ) : Finset (Fin ny × Fin nx) :=
  Finset.univ.filter fun e => ¬ (((e.1 : ℕ) : ℤ) ≡ dy [ZMOD ny] ∧ ((e.2 : ℕ) : ℤ) ≡ dx [ZMOD nx])

/-- how different `im1` rolled by `(ey, ex)` is from `im1` rolled by `(dy, dx)`: the sum of squared differences in units of `σ` -/
noncomputable def contrast {ny nx : ℕ} [NeZero ny] [NeZero nx] (im1 σ : Fin ny × Fin nx → ℝ) (dy dx ey ex : ℤ) : ℝ :=
  ∑ p, (roll2 ey ex im1 p - roll2 dy dx im1 p) ^ 2 / σ p ^ 2

end Spec

section
variable {ny nx : ℕ} [NeZero ny] [NeZero nx]

/-- every value of the chi-squared map of `im1` and a rolled, disturbed copy -/
theorem rolled_map (cfg : FFTConfig) (im1 im2 : Fin ny × Fin nx → ℝ)
    (err : ErrArg ny nx) (σ : Fin ny × Fin nx → ℝ) (hσ : ∀ p, σ p ≠ 0)
    (he : (∃ s, Spec.isScalarErr err s ∧ ∀ p, σ p = s) ∨ err = .image (realArr σ)) (ah : Bool) (hf : Spec.fits ah ny nx) :
    ∃ cm, chi2nMapBody cfg (realArr im1) (realArr im2) err false false ah = .ok cm ∧
      ∀ i, cm.chi2 i = ∑ p, (Spec.roll2 (Spec.lag ny i.1) (Spec.lag nx i.2) im1 p - im2 p) ^ 2 / σ p ^ 2 := by
  obtain ⟨cm, hcm, hchi⟩ := chi2nMapBody_chi2 cfg (realArr im1) (realArr im2) err false ah hf
  refine ⟨cm, hcm, fun i => ?_⟩
  rw [hchi, chi2_eq_roll]
  have pr : ∀ a : Fin ny × Fin nx → ℝ, prep false (realArr a) = a := by
    intro a; rw [prep_real]; funext p; simp
  rw [pr, pr]
  rcases he with ⟨s, hs, hs'⟩ | rfl
  · rw [scalarErr_errOf hs, scalarErr_maskOf hs, scalarErr_maskOf hs]
    simp only [hs']
  · have e1 : Spec.errOf (.image (realArr σ)) = σ := by
      funext p; simp [Spec.errOf, realArr, Spec.nan0, hσ p]
    have e2 : ∀ a : Fin ny × Fin nx → ℝ, Spec.maskOf (.image (realArr σ)) a = a := by
      intro a; funext p; simp [Spec.maskOf, realArr, Spec.nan0, hσ p]
    rw [e1, e2, e2]

/-- If, at `(dy, dx)`, the residual of the moved first image against the second is smaller than at every other displacement, that
displacement is the answer. -/
theorem clear_best (cfg : FFTConfig) (st : Stats) (hst : Spec.validStats st)
    (im1 im2 : Fin ny × Fin nx → ℝ) (hy : 2 ≤ ny) (dy dx : ℤ)
    (err : ErrArg ny nx) (σ : Fin ny × Fin nx → ℝ) (hσ : ∀ p, σ p ≠ 0)
    (he : (∃ s, Spec.isScalarErr err s ∧ ∀ p, σ p = s) ∨ err = .image (realArr σ))
    (nf : ℝ) (mas : ℕ) (mns : ℝ) (ah : Bool) (hf : Spec.fits ah ny nx)
    (dx' dy' : ℤ) (cx : dx' ≡ dx [ZMOD nx]) (lx : -(nx : ℤ) ≤ 2 * dx') (ux : 2 * dx' < nx)
    (cy : dy' ≡ dy [ZMOD ny]) (ly : -(ny : ℤ) ≤ 2 * dy') (uy : 2 * dy' < ny)
    (hgap : ∀ e : Fin ny × Fin nx, ¬ (((e.1 : ℕ) : ℤ) ≡ dy [ZMOD ny] ∧ ((e.2 : ℕ) : ℤ) ≡ dx [ZMOD nx]) →
      ∑ p, (Spec.roll2 dy dx im1 p - im2 p) ^ 2 / σ p ^ 2
        < ∑ p, (Spec.roll2 (e.1 : ℕ) (e.2 : ℕ) im1 p - im2 p) ^ 2 / σ p ^ 2) :
    chi2Shift cfg st (realArr im1) (realArr im2) err (.int 1) false nf false false false mas mns ah
      = .ok [.num dx', .num dy'] := by
  obtain ⟨cm, hcm, hchi⟩ := rolled_map cfg im1 im2 err σ hσ he ah hf
  have rep : ∀ (n : ℕ) [NeZero n] (d' : ℤ), -(n : ℤ) ≤ 2 * d' → 2 * d' < n → ∃ q : Fin n, ((q : ℕ) : ℤ) = ((n - 1) / 2 : ℕ) - d' := by
    intro n _ d' l u
    have hn := Nat.pos_of_ne_zero (NeZero.ne n)
    exact ⟨⟨(((n - 1) / 2 : ℕ) - d' : ℤ).toNat, by omega⟩, by simp only; omega⟩
  obtain ⟨qy, ey⟩ := rep ny dy' ly uy
  obtain ⟨qx, ex⟩ := rep nx dx' lx ux
  have lagy : Spec.lag ny qy = dy' := by unfold Spec.lag Spec.zeroLag; omega
  have lagx : Spec.lag nx qx = dx' := by unfold Spec.lag Spec.zeroLag; omega
  have hlt : ∀ i, i ≠ (qy, qx) → cm.chi2 (qy, qx) < cm.chi2 i := by
    intro i hi
    have hne : ¬ (Spec.lag ny i.1 ≡ dy [ZMOD ny] ∧ Spec.lag nx i.2 ≡ dx [ZMOD nx]) := by
      rintro ⟨c1, c2⟩
      apply hi
      have back : ∀ (n : ℕ) [NeZero n] (i q : Fin n) (d : ℤ), Spec.lag n i ≡ d [ZMOD n] → Spec.lag n q ≡ d [ZMOD n] → i = q := by
        intro n _ i q d h1 h2
        have h3 := (Int.ModEq.refl (Spec.zeroLag n : ℤ)).sub (h1.trans h2.symm)
        unfold Spec.lag at h3
        rw [sub_sub_cancel, sub_sub_cancel] at h3
        exact Fin.eq_of_modEq h3
      exact Prod.ext (back ny i.1 qy dy c1 (by rw [lagy]; exact cy)) (back nx i.2 qx dx c2 (by rw [lagx]; exact cx))
    have w1 := Spec.wrap_modEq ny (Spec.lag ny i.1)
    have w2 := Spec.wrap_modEq nx (Spec.lag nx i.2)
    have hg := hgap (Spec.wrap ny (Spec.lag ny i.1), Spec.wrap nx (Spec.lag nx i.2))
      (fun h => hne ⟨w1.symm.trans h.1, w2.symm.trans h.2⟩)
    rw [hchi, hchi, lagy, lagx, roll2_congr cy cx]
    rw [roll2_congr w1 w2] at hg
    exact hg
  refine (chi2ShiftB_one cfg .wrap st hst _ _ err false nf mas mns ah hy cm hcm (qy, qx) hlt).trans ?_
  have cast : ∀ (n : ℕ) (q : Fin n) (d : ℤ), ((q : ℕ) : ℤ) = ((n - 1) / 2 : ℕ) - d → (((n - 1) / 2 : ℕ) : ℝ) - ((q : ℕ) : ℝ) = (d : ℝ) := by
    intro n q d h
    have : (d : ℤ) = ((((n - 1) / 2 : ℕ) : ℤ)) - ((q : ℕ) : ℤ) := by omega
    rw [this, Int.cast_sub, Int.cast_natCast, Int.cast_natCast]
  rw [cast _ _ _ ey, cast _ _ _ ex]

variable {Ω : Type*} [MeasurableSpace Ω] (μ : Measure Ω)

omit [NeZero ny] [NeZero nx] in
/-- union bound over the wrong displacements -/
theorem wrong_le [IsFiniteMeasure μ] (dy dx : ℤ) {A : Ω → Prop} (B : Fin ny × Fin nx → Set Ω) (F : Fin ny × Fin nx → ℝ)
    (hA : ∀ ω, (∀ e ∈ Spec.others ny nx dy dx, ω ∉ B e) → A ω)
    (hB : ∀ e ∈ Spec.others ny nx dy dx, μ.real (B e) ≤ F e) :
    μ.real {ω | ¬ A ω} ≤ ∑ e ∈ Spec.others ny nx dy dx, F e := by
  have hsub : {ω | ¬ A ω} ⊆ ⋃ e ∈ Spec.others ny nx dy dx, B e := by
    intro ω hω
    by_contra hc
    apply hω
    apply hA
    intro e he hb
    apply hc
    simp only [Set.mem_iUnion]
    exact ⟨e, he, hb⟩
  refine (measureReal_mono hsub (measure_ne_top _ _)).trans ((measureReal_biUnion_finset_le _ _).trans ?_)
  exact Finset.sum_le_sum hB

/-- second moment of a linear form of uncorrelated noise -/
theorem moment_lin {ι : Type*} [Fintype ι] [DecidableEq ι] (n : Ω → ι → ℝ) (τ w : ι → ℝ)
    (hint : ∀ p q, Integrable (fun ω => n ω p * n ω q) μ)
    (hcov : ∀ p q, ∫ ω, n ω p * n ω q ∂μ = if p = q then τ p ^ 2 else 0) :
    Integrable (fun ω => (∑ p, n ω p * w p) ^ 2) μ ∧ ∫ ω, (∑ p, n ω p * w p) ^ 2 ∂μ = ∑ p, τ p ^ 2 * w p ^ 2 := by
  have e : (fun ω => (∑ p, n ω p * w p) ^ 2) = fun ω => ∑ p, ∑ q, (w p * w q) * (n ω p * n ω q) := by
    funext ω
    rw [sq, Finset.sum_mul_sum]
    exact Finset.sum_congr rfl fun p _ => Finset.sum_congr rfl fun q _ => by ring
  have i1 : ∀ p q, Integrable (fun ω => (w p * w q) * (n ω p * n ω q)) μ := fun p q => (hint p q).const_mul _
  rw [e]
  refine ⟨integrable_finsetSum _ fun p _ => integrable_finsetSum _ fun q _ => i1 p q, ?_⟩
  rw [integral_finsetSum _ fun p _ => integrable_finsetSum _ fun q _ => i1 p q]
  refine Finset.sum_congr rfl fun p _ => ?_
  rw [integral_finsetSum _ fun q _ => i1 p q]
  simp only [integral_const_mul, hcov, mul_ite, mul_zero, Finset.sum_ite_eq, Finset.mem_univ, if_true]
  ring

/-- Chebyshev -/
theorem cheb [IsFiniteMeasure μ] (X : Ω → ℝ) (V Δ : ℝ) (hΔ : 0 < Δ) (hX : Integrable (fun ω => X ω ^ 2) μ) (hV : ∫ ω, X ω ^ 2 ∂μ ≤ V) :
    μ.real {ω | Δ ≤ 2 * X ω} ≤ 4 * V / Δ ^ 2 := by
  have hm := mul_meas_ge_le_integral_of_nonneg (μ := μ) (f := fun ω => X ω ^ 2) (Filter.Eventually.of_forall fun ω => sq_nonneg _) hX (Δ ^ 2 / 4)
  have hsub : {ω | Δ ≤ 2 * X ω} ⊆ {ω | Δ ^ 2 / 4 ≤ X ω ^ 2} := by
    intro ω hω
    simp only [Set.mem_ofPred_eq] at hω ⊢
    nlinarith
  have h1 := measureReal_mono (μ := μ) hsub (measure_ne_top _ _)
  rw [le_div_iff₀ (by positivity)]
  nlinarith [sq_nonneg Δ]

omit [NeZero ny] [NeZero nx] in
/-- the residual at another displacement exceeds the one at the true displacement unless the noise has a large component along the
difference of the two rolled images -/
theorem gap_iff (a σ noise : Fin ny × Fin nx → ℝ) (b : Fin ny × Fin nx → ℝ) :
    (∑ p, (b p - a p - noise p) ^ 2 / σ p ^ 2) - ∑ p, (noise p) ^ 2 / σ p ^ 2
      = ∑ p, (b p - a p) ^ 2 / σ p ^ 2 - 2 * ∑ p, noise p * ((b p - a p) / σ p ^ 2) := by
  rw [Finset.mul_sum, ← Finset.sum_sub_distrib, ← Finset.sum_sub_distrib]
  exact Finset.sum_congr rfl fun p _ => by ring

/-- the event bound for one displacement set: shared part of the theorems with noise in the second image -/
theorem wrong_pixel_aux (cfg : FFTConfig) (st : Stats) (hst : Spec.validStats st) [IsFiniteMeasure μ]
    (im1 : Fin ny × Fin nx → ℝ) (n : Ω → Fin ny × Fin nx → ℝ) (hy : 2 ≤ ny) (dy dx : ℤ)
    (err : ErrArg ny nx) (σ : Fin ny × Fin nx → ℝ) (hσ : ∀ p, σ p ≠ 0)
    (he : (∃ s, Spec.isScalarErr err s ∧ ∀ p, σ p = s) ∨ err = .image (realArr σ))
    (nf : ℝ) (mas : ℕ) (mns : ℝ) (ah : Bool) (hf : Spec.fits ah ny nx) (F : Fin ny × Fin nx → ℝ)
    (hF : ∀ e ∈ Spec.others ny nx dy dx, μ.real {ω | Spec.contrast im1 σ dy dx (e.1 : ℕ) (e.2 : ℕ)
      ≤ 2 * ∑ p, n ω p * ((Spec.roll2 (e.1 : ℕ) (e.2 : ℕ) im1 p - Spec.roll2 dy dx im1 p) / σ p ^ 2)} ≤ F e) :
    ∃ dx' dy' : ℤ,
      (dx' ≡ dx [ZMOD nx] ∧ -(nx : ℤ) ≤ 2 * dx' ∧ 2 * dx' < nx) ∧ (dy' ≡ dy [ZMOD ny] ∧ -(ny : ℤ) ≤ 2 * dy' ∧ 2 * dy' < ny) ∧
      μ.real {ω | chi2Shift cfg st (realArr im1) (realArr fun p => Spec.roll2 dy dx im1 p + n ω p) err (.int 1) false nf false false
        false mas mns ah ≠ .ok [.num dx', .num dy']} ≤ ∑ e ∈ Spec.others ny nx dy dx, F e := by
  obtain ⟨dy', -, cy, ly, uy, -⟩ := exists_rep ny dy
  obtain ⟨dx', -, cx, lx, ux, -⟩ := exists_rep nx dx
  refine ⟨dx', dy', ⟨cx, lx, ux⟩, ⟨cy, ly, uy⟩, ?_⟩
  refine wrong_le μ dy dx _ F ?_ hF
  intro ω hω
  refine clear_best cfg st hst _ _ hy dy dx err σ hσ he nf mas mns ah hf dx' dy' cx lx ux cy ly uy ?_
  intro e hne
  have h := hω e (by simpa [Spec.others] using hne)
  simp only [Set.mem_ofPred_eq, not_le, Spec.contrast] at h
  have g := gap_iff (Spec.roll2 dy dx im1) σ (n ω) (Spec.roll2 (e.1 : ℕ) (e.2 : ℕ) im1)
  have e1 : ∑ p, (Spec.roll2 dy dx im1 p - (Spec.roll2 dy dx im1 p + n ω p)) ^ 2 / σ p ^ 2 = ∑ p, n ω p ^ 2 / σ p ^ 2 :=
    Finset.sum_congr rfl fun p _ => by ring
  have e2 : ∑ p, (Spec.roll2 (e.1 : ℕ) (e.2 : ℕ) im1 p - (Spec.roll2 dy dx im1 p + n ω p)) ^ 2 / σ p ^ 2
      = ∑ p, (Spec.roll2 (e.1 : ℕ) (e.2 : ℕ) im1 p - Spec.roll2 dy dx im1 p - n ω p) ^ 2 / σ p ^ 2 :=
    Finset.sum_congr rfl fun p _ => by ring
  rw [e1, e2]
  linarith

/-- Gaussian noise is sub-Gaussian -/
theorem gauss_sub [IsProbabilityMeasure μ] (x : Ω → ℝ) (v : NNReal) (h : μ.map x = ProbabilityTheory.gaussianReal 0 v) :
    ProbabilityTheory.HasSubgaussianMGF x v μ := by
  have hm : AEMeasurable x μ := aemeasurable_of_map_neZero (by rw [h]; infer_instance)
  refine ⟨fun t => ?_, fun t => ?_⟩
  · have h' := ProbabilityTheory.integrable_exp_mul_gaussianReal (μ := 0) (v := v) t
    rw [← h] at h'
    exact h'.comp_aemeasurable hm
  · rw [ProbabilityTheory.mgf_gaussianReal h t]
    simp

/-- tail of a linear form of independent sub-Gaussian noise -/
theorem lin_tail {ι : Type*} [Fintype ι] [IsProbabilityMeasure μ] (n : Ω → ι → ℝ) (c : ι → NNReal) (κ : ℝ) (hκ : 0 < κ)
    (hc : ∀ p, (c p : ℝ) ≤ κ)
    (hind : ProbabilityTheory.iIndepFun (fun p ω => n ω p) μ)
    (hsub : ∀ p, ProbabilityTheory.HasSubgaussianMGF (fun ω => n ω p) (c p) μ)
    (w : ι → ℝ) (S : ℝ) (hS : 0 < S) (hw : S = ∑ p, w p ^ 2) :
    μ.real {ω | S ≤ 2 * ∑ p, n ω p * w p} ≤ Real.exp (-(S / (8 * κ))) := by
  have hind' : ProbabilityTheory.iIndepFun (fun p ω => w p * n ω p) μ :=
    hind.comp (fun p x => w p * x) (fun p => measurable_const_mul _)
  have hk : ∀ p, 0 ≤ w p ^ 2 * κ := fun p => by positivity
  have hsub' : ∀ p, ProbabilityTheory.HasSubgaussianMGF (fun ω => w p * n ω p) (w p ^ 2 * κ).toNNReal μ := by
    intro p
    have h1 := (hsub p).const_mul (w p)
    refine ⟨h1.1, fun t => (h1.2 t).trans (Real.exp_le_exp.2 ?_)⟩
    rw [Real.coe_toNNReal _ (hk p)]
    have : ((⟨w p ^ 2, sq_nonneg _⟩ * c p : NNReal) : ℝ) = w p ^ 2 * (c p : ℝ) := rfl
    rw [this]
    have := mul_le_mul_of_nonneg_left (hc p) (sq_nonneg (w p))
    have := mul_le_mul_of_nonneg_right this (sq_nonneg t)
    linarith
  have h := ProbabilityTheory.HasSubgaussianMGF.measure_sum_ge_le_of_iIndepFun hind' (s := Finset.univ)
    (fun p _ => hsub' p) (ε := S / 2) (by positivity)
  have hset : {ω | S ≤ 2 * ∑ p, n ω p * w p} = {ω | S / 2 ≤ ∑ p, w p * n ω p} := by
    ext ω
    simp only [Set.mem_ofPred_eq, mul_comm (n ω _)]
    constructor <;> intro h <;> linarith
  rw [hset]
  refine h.trans (Real.exp_le_exp.2 ?_)
  rw [NNReal.coe_sum, Finset.sum_congr rfl fun p _ => Real.coe_toNNReal _ (hk p), ← Finset.sum_mul, ← hw]
  apply le_of_eq
  field_simp
  ring

/-- C126: the probability of a wrong answer, for noise with finite variance. `im2` is `im1` rolled by `(dy, dx)` plus random noise
whose pixels are uncorrelated, with second moments `τ²` at most `κ` times the squares of the errors `σ` passed to `chi2_shift`
(one nonzero number, or an error image without zero or NaN pixels). Let `Δ_e > 0` be the squared difference, in units of `σ`, between
`im1` rolled by `e` and by `(dy, dx)`. Then, except with probability at most the sum of `4κ/Δ_e` over the other displacements `e`,
`chi2_shift` with `upsample_factor=1` returns exactly the shift, reduced to `-n ≤ 2·d < n`. -/
theorem C126_wrong_pixel (cfg : FFTConfig) (st : Stats) (hst : Spec.validStats st) [IsProbabilityMeasure μ]
    (im1 : Fin ny × Fin nx → ℝ) (n : Ω → Fin ny × Fin nx → ℝ) (hy : 2 ≤ ny) (dy dx : ℤ)
    (err : ErrArg ny nx) (σ : Fin ny × Fin nx → ℝ) (hσ : ∀ p, σ p ≠ 0)
    (he : (∃ s, Spec.isScalarErr err s ∧ ∀ p, σ p = s) ∨ err = .image (realArr σ))
    (τ : Fin ny × Fin nx → ℝ) (κ : ℝ) (hτ : ∀ p, τ p ^ 2 ≤ κ * σ p ^ 2)
    (hint : ∀ p q, Integrable (fun ω => n ω p * n ω q) μ)
    (hcov : ∀ p q, ∫ ω, n ω p * n ω q ∂μ = if p = q then τ p ^ 2 else 0)
    (hsep : ∀ e ∈ Spec.others ny nx dy dx, 0 < Spec.contrast im1 σ dy dx (e.1 : ℕ) (e.2 : ℕ))
    (nf : ℝ) (mas : ℕ) (mns : ℝ) (ah : Bool) (hf : Spec.fits ah ny nx) :
    ∃ dx' dy' : ℤ,
      (dx' ≡ dx [ZMOD nx] ∧ -(nx : ℤ) ≤ 2 * dx' ∧ 2 * dx' < nx) ∧ (dy' ≡ dy [ZMOD ny] ∧ -(ny : ℤ) ≤ 2 * dy' ∧ 2 * dy' < ny) ∧
      μ.real {ω | chi2Shift cfg st (realArr im1) (realArr fun p => Spec.roll2 dy dx im1 p + n ω p) err (.int 1) false nf false false
        false mas mns ah ≠ .ok [.num dx', .num dy']}
        ≤ ∑ e ∈ Spec.others ny nx dy dx, 4 * κ / Spec.contrast im1 σ dy dx (e.1 : ℕ) (e.2 : ℕ) := by
  refine wrong_pixel_aux μ cfg st hst im1 n hy dy dx err σ hσ he nf mas mns ah hf _ fun e hmem => ?_
  have hΔ := hsep e hmem
  obtain ⟨i1, i2⟩ := moment_lin μ n τ (fun p => (Spec.roll2 (e.1 : ℕ) (e.2 : ℕ) im1 p - Spec.roll2 dy dx im1 p) / σ p ^ 2) hint hcov
  have hV : ∑ p, τ p ^ 2 * ((Spec.roll2 (e.1 : ℕ) (e.2 : ℕ) im1 p - Spec.roll2 dy dx im1 p) / σ p ^ 2) ^ 2
      ≤ κ * Spec.contrast im1 σ dy dx (e.1 : ℕ) (e.2 : ℕ) := by
    rw [Spec.contrast, Finset.mul_sum]
    refine Finset.sum_le_sum fun p _ => ?_
    refine (mul_le_mul_of_nonneg_right (hτ p) (sq_nonneg _)).trans (le_of_eq ?_)
    have := hσ p
    field_simp
  refine (cheb μ _ _ _ hΔ i1 (i2.le.trans hV)).trans (le_of_eq ?_)
  field_simp

/-- C126: the probability of a wrong answer, for independent sub-Gaussian noise (for instance Gaussian or bounded noise): it falls
exponentially with the contrast. Each noise pixel is sub-Gaussian with variance proxy `c` at most `κ` times the square of the error
at that pixel. -/
theorem C126_wrong_pixel_exp (cfg : FFTConfig) (st : Stats) (hst : Spec.validStats st) [IsProbabilityMeasure μ]
    (im1 : Fin ny × Fin nx → ℝ) (n : Ω → Fin ny × Fin nx → ℝ) (hy : 2 ≤ ny) (dy dx : ℤ)
    (err : ErrArg ny nx) (σ : Fin ny × Fin nx → ℝ) (hσ : ∀ p, σ p ≠ 0)
    (he : (∃ s, Spec.isScalarErr err s ∧ ∀ p, σ p = s) ∨ err = .image (realArr σ))
    (c : Fin ny × Fin nx → NNReal) (κ : ℝ) (hκ : 0 < κ) (hc : ∀ p, (c p : ℝ) ≤ κ * σ p ^ 2)
    (hind : ProbabilityTheory.iIndepFun (fun p ω => n ω p) μ)
    (hsub : ∀ p, ProbabilityTheory.HasSubgaussianMGF (fun ω => n ω p) (c p) μ)
    (hsep : ∀ e ∈ Spec.others ny nx dy dx, 0 < Spec.contrast im1 σ dy dx (e.1 : ℕ) (e.2 : ℕ))
    (nf : ℝ) (mas : ℕ) (mns : ℝ) (ah : Bool) (hf : Spec.fits ah ny nx) :
    ∃ dx' dy' : ℤ,
      (dx' ≡ dx [ZMOD nx] ∧ -(nx : ℤ) ≤ 2 * dx' ∧ 2 * dx' < nx) ∧ (dy' ≡ dy [ZMOD ny] ∧ -(ny : ℤ) ≤ 2 * dy' ∧ 2 * dy' < ny) ∧
      μ.real {ω | chi2Shift cfg st (realArr im1) (realArr fun p => Spec.roll2 dy dx im1 p + n ω p) err (.int 1) false nf false false
        false mas mns ah ≠ .ok [.num dx', .num dy']}
        ≤ ∑ e ∈ Spec.others ny nx dy dx, Real.exp (-(Spec.contrast im1 σ dy dx (e.1 : ℕ) (e.2 : ℕ) / (8 * κ))) := by
  refine wrong_pixel_aux μ cfg st hst im1 n hy dy dx err σ hσ he nf mas mns ah hf _ fun e hmem => ?_
  have hΔ := hsep e hmem
  generalize hw : (fun p => (Spec.roll2 (e.1 : ℕ) (e.2 : ℕ) im1 p - Spec.roll2 dy dx im1 p) / σ p ^ 2) = w
  have hV : ∑ p, w p ^ 2 * (κ * σ p ^ 2) = κ * Spec.contrast im1 σ dy dx (e.1 : ℕ) (e.2 : ℕ) := by
    rw [Spec.contrast, Finset.mul_sum, ← hw]
    refine Finset.sum_congr rfl fun p _ => ?_
    have := hσ p
    field_simp
  have hw' : ∀ p, (Spec.roll2 (e.1 : ℕ) (e.2 : ℕ) im1 p - Spec.roll2 dy dx im1 p) / σ p ^ 2 = w p := fun p => congrFun hw p
  simp only [hw']
  generalize Spec.contrast im1 σ dy dx (e.1 : ℕ) (e.2 : ℕ) = Δ at hΔ hV ⊢
  have hind' : ProbabilityTheory.iIndepFun (fun p ω => w p * n ω p) μ :=
    hind.comp (fun p x => w p * x) (fun p => measurable_const_mul _)
  have hk : ∀ p, 0 ≤ w p ^ 2 * (κ * σ p ^ 2) := fun p => by positivity
  have hsub' : ∀ p, ProbabilityTheory.HasSubgaussianMGF (fun ω => w p * n ω p) (w p ^ 2 * (κ * σ p ^ 2)).toNNReal μ := by
    intro p
    have h1 := (hsub p).const_mul (w p)
    refine ⟨h1.1, fun t => (h1.2 t).trans (Real.exp_le_exp.2 ?_)⟩
    rw [Real.coe_toNNReal _ (hk p)]
    have : ((⟨w p ^ 2, sq_nonneg _⟩ * c p : NNReal) : ℝ) = w p ^ 2 * (c p : ℝ) := rfl
    rw [this]
    have := mul_le_mul_of_nonneg_left (hc p) (sq_nonneg (w p))
    have := mul_le_mul_of_nonneg_right this (sq_nonneg t)
    linarith
  have h := ProbabilityTheory.HasSubgaussianMGF.measure_sum_ge_le_of_iIndepFun hind' (s := Finset.univ)
    (fun p _ => hsub' p) (ε := Δ / 2) (by positivity)
  have hset : {ω | Δ ≤ 2 * ∑ p, n ω p * w p} = {ω | Δ / 2 ≤ ∑ p, w p * n ω p} := by
    ext ω
    simp only [Set.mem_ofPred_eq, mul_comm (n ω _)]
    constructor <;> intro h <;> linarith
  rw [hset]
  refine h.trans (Real.exp_le_exp.2 ?_)
  rw [NNReal.coe_sum, Finset.sum_congr rfl fun p _ => Real.coe_toNNReal _ (hk p), hV]
  apply le_of_eq
  field_simp
  ring

/-- C126 for Gaussian noise: independent pixels, mean zero, variance at most `κ` times the square of the error at the pixel. -/
theorem C126_gaussian (cfg : FFTConfig) (st : Stats) (hst : Spec.validStats st) [IsProbabilityMeasure μ]
    (im1 : Fin ny × Fin nx → ℝ) (n : Ω → Fin ny × Fin nx → ℝ) (hy : 2 ≤ ny) (dy dx : ℤ)
    (err : ErrArg ny nx) (σ : Fin ny × Fin nx → ℝ) (hσ : ∀ p, σ p ≠ 0)
    (he : (∃ s, Spec.isScalarErr err s ∧ ∀ p, σ p = s) ∨ err = .image (realArr σ))
    (v : Fin ny × Fin nx → NNReal) (κ : ℝ) (hκ : 0 < κ) (hv : ∀ p, (v p : ℝ) ≤ κ * σ p ^ 2)
    (hind : ProbabilityTheory.iIndepFun (fun p ω => n ω p) μ)
    (hgauss : ∀ p, μ.map (fun ω => n ω p) = ProbabilityTheory.gaussianReal 0 (v p))
    (hsep : ∀ e ∈ Spec.others ny nx dy dx, 0 < Spec.contrast im1 σ dy dx (e.1 : ℕ) (e.2 : ℕ))
    (nf : ℝ) (mas : ℕ) (mns : ℝ) (ah : Bool) (hf : Spec.fits ah ny nx) :
    ∃ dx' dy' : ℤ,
      (dx' ≡ dx [ZMOD nx] ∧ -(nx : ℤ) ≤ 2 * dx' ∧ 2 * dx' < nx) ∧ (dy' ≡ dy [ZMOD ny] ∧ -(ny : ℤ) ≤ 2 * dy' ∧ 2 * dy' < ny) ∧
      μ.real {ω | chi2Shift cfg st (realArr im1) (realArr fun p => Spec.roll2 dy dx im1 p + n ω p) err (.int 1) false nf false false
        false mas mns ah ≠ .ok [.num dx', .num dy']}
        ≤ ∑ e ∈ Spec.others ny nx dy dx, Real.exp (-(Spec.contrast im1 σ dy dx (e.1 : ℕ) (e.2 : ℕ) / (8 * κ))) := by
  refine C126_wrong_pixel_exp μ cfg st hst im1 n hy dy dx err σ hσ he v κ hκ hv hind (fun p => gauss_sub μ _ _ (hgauss p)) hsep nf mas mns ah hf

/-- second moment of a linear form of the noise `n2` whose weights depend on the independent noise `n1` -/
theorem moment_two {ι : Type*} [Fintype ι] [DecidableEq ι] (n1 n2 : Ω → ι → ℝ) (s2 : ℝ) (g : ι → (ι → ℝ) → ℝ) (h : (ι → ℝ) → ℝ)
    (hg : ∀ p, Measurable (g p)) (hh : Measurable h)
    (hind : ProbabilityTheory.IndepFun n1 n2 μ)
    (i2 : ∀ p, Integrable (fun ω => n2 ω p) μ) (m2 : ∀ p, ∫ ω, n2 ω p ∂μ = 0)
    (hint : ∀ p q, Integrable (fun ω => n2 ω p * n2 ω q) μ)
    (hcov : ∀ p q, ∫ ω, n2 ω p * n2 ω q ∂μ = if p = q then s2 ^ 2 else 0)
    (ig : ∀ p q, Integrable (fun ω => g p (n1 ω) * g q (n1 ω)) μ) (igh : ∀ p, Integrable (fun ω => g p (n1 ω) * h (n1 ω)) μ)
    (ih : Integrable (fun ω => h (n1 ω) ^ 2) μ) :
    Integrable (fun ω => (∑ p, n2 ω p * g p (n1 ω) - h (n1 ω)) ^ 2) μ ∧
    ∫ ω, (∑ p, n2 ω p * g p (n1 ω) - h (n1 ω)) ^ 2 ∂μ
      = s2 ^ 2 * ∑ p, ∫ ω, g p (n1 ω) ^ 2 ∂μ + ∫ ω, h (n1 ω) ^ 2 ∂μ := by
  have e : (fun ω => (∑ p, n2 ω p * g p (n1 ω) - h (n1 ω)) ^ 2)
      = fun ω => (∑ p, ∑ q, (g p (n1 ω) * g q (n1 ω)) * (n2 ω p * n2 ω q))
          + ((∑ p, (-2) * ((g p (n1 ω) * h (n1 ω)) * n2 ω p)) + h (n1 ω) ^ 2) := by
    funext ω
    rw [sub_sq, sq (∑ p, n2 ω p * g p (n1 ω)), Finset.sum_mul_sum, ← Finset.mul_sum, sub_eq_add_neg, add_assoc]
    congr 1
    · exact Finset.sum_congr rfl fun p _ => Finset.sum_congr rfl fun q _ => by ring
    · congr 1
      rw [mul_assoc, Finset.sum_mul, ← neg_mul]
      congr 1
      exact Finset.sum_congr rfl fun p _ => by ring
  have hψ : ∀ p q : ι, Measurable (fun y : ι → ℝ => y p * y q) := fun p q => by fun_prop
  have d1 : ∀ p q, ProbabilityTheory.IndepFun (fun ω => g p (n1 ω) * g q (n1 ω)) (fun ω => n2 ω p * n2 ω q) μ := fun p q =>
    hind.comp ((hg p).mul (hg q)) (hψ p q)
  have hφ : ∀ p : ι, Measurable (fun y : ι → ℝ => y p) := fun p => by fun_prop
  have d2 : ∀ p, ProbabilityTheory.IndepFun (fun ω => g p (n1 ω) * h (n1 ω)) (fun ω => n2 ω p) μ := fun p =>
    hind.comp ((hg p).mul hh) (hφ p)
  have k1 : ∀ p q, Integrable (fun ω => (g p (n1 ω) * g q (n1 ω)) * (n2 ω p * n2 ω q)) μ := fun p q =>
    (d1 p q).integrable_mul (ig p q) (hint p q)
  have k2 : ∀ p, Integrable (fun ω => (-2) * ((g p (n1 ω) * h (n1 ω)) * n2 ω p)) μ := fun p =>
    ((d2 p).integrable_mul (igh p) (i2 p)).const_mul _
  have v1 : ∀ p q, ∫ ω, (g p (n1 ω) * g q (n1 ω)) * (n2 ω p * n2 ω q) ∂μ = if p = q then s2 ^ 2 * ∫ ω, g p (n1 ω) ^ 2 ∂μ else 0 := by
    intro p q
    have := (d1 p q).integral_mul_eq_mul_integral (ig p q).1 (hint p q).1
    refine (this.trans ?_)
    rw [hcov]
    split_ifs with hpq
    · subst hpq; rw [mul_comm]; simp only [← sq]
    · simp
  have v2 : ∀ p, ∫ ω, (g p (n1 ω) * h (n1 ω)) * n2 ω p ∂μ = 0 := by
    intro p
    refine ((d2 p).integral_mul_eq_mul_integral (igh p).1 (i2 p).1).trans ?_
    rw [m2, mul_zero]
  have s1 : Integrable (fun ω => ∑ p, ∑ q, (g p (n1 ω) * g q (n1 ω)) * (n2 ω p * n2 ω q)) μ :=
    integrable_finsetSum _ fun p _ => integrable_finsetSum _ fun q _ => k1 p q
  have s3 : Integrable (fun ω => ∑ p, (-2) * ((g p (n1 ω) * h (n1 ω)) * n2 ω p)) μ := integrable_finsetSum _ fun p _ => k2 p
  rw [e]
  refine ⟨s1.add (s3.add ih), ?_⟩
  refine (integral_add s1 (s3.add ih)).trans ?_
  refine (congrArg _ (integral_add s3 ih)).trans ?_
  rw [integral_finsetSum _ fun p _ => integrable_finsetSum _ fun q _ => k1 p q,
    integral_finsetSum _ fun p _ => k2 p]
  simp only [integral_const_mul, v2, mul_zero, Finset.sum_const_zero, zero_add]
  congr 1
  rw [Finset.mul_sum]
  refine Finset.sum_congr rfl fun p _ => ?_
  rw [integral_finsetSum _ fun q _ => k1 p q]
  simp only [v1, Finset.sum_ite_eq, Finset.mem_univ, if_true]

/-- a roll is a rearrangement of the pixels, and different rolls take a pixel from different places -/
theorem roll2_at (ey ex : ℤ) (a : Fin ny × Fin nx → ℝ) (p : Fin ny × Fin nx) :
    Spec.roll2 ey ex a p = a (Spec.move (-ey) (-ex) p) := by
  unfold Spec.roll2 Spec.move
  simp only [sub_eq_add_neg]

/-- C126 with noise in both images: `im1 = f + n1` and `im2 = f` rolled by `(dy, dx)` plus `n2`, where the noise of either image is
uncorrelated from pixel to pixel with mean 0 and standard deviations `s1` and `s2`, and the two noises are independent. With
`D_e > 0` the squared distance between `f` rolled by `e` and by `(dy, dx)`, and `N` the number of pixels, `chi2_shift` with a scalar
(or no) error and `upsample_factor=1` returns exactly the shift except with probability at most the sum, over the other
displacements `e`, of `4 (D_e (s1² + s2²) + 2 N s1² s2²) / D_e²`. -/
theorem C126_both_noisy (cfg : FFTConfig) (st : Stats) (hst : Spec.validStats st) [IsProbabilityMeasure μ]
    (f : Fin ny × Fin nx → ℝ) (n1 n2 : Ω → Fin ny × Fin nx → ℝ) (hy : 2 ≤ ny) (dy dx : ℤ)
    (err : ErrArg ny nx) (s : ℝ) (hs : s ≠ 0) (herr : Spec.isScalarErr err s) (s1 s2 : ℝ)
    (hind : ProbabilityTheory.IndepFun n1 n2 μ)
    (hn1 : ∀ p, MemLp (fun ω => n1 ω p) 2 μ) (hn2 : ∀ p, MemLp (fun ω => n2 ω p) 2 μ)
    (hm1 : ∀ p, ∫ ω, n1 ω p ∂μ = 0) (hm2 : ∀ p, ∫ ω, n2 ω p ∂μ = 0)
    (hc1 : ∀ p q, ∫ ω, n1 ω p * n1 ω q ∂μ = if p = q then s1 ^ 2 else 0)
    (hc2 : ∀ p q, ∫ ω, n2 ω p * n2 ω q ∂μ = if p = q then s2 ^ 2 else 0)
    (hsep : ∀ e ∈ Spec.others ny nx dy dx, 0 < Spec.contrast f (fun _ => 1) dy dx (e.1 : ℕ) (e.2 : ℕ))
    (nf : ℝ) (mas : ℕ) (mns : ℝ) (ah : Bool) (hf : Spec.fits ah ny nx) :
    ∃ dx' dy' : ℤ,
      (dx' ≡ dx [ZMOD nx] ∧ -(nx : ℤ) ≤ 2 * dx' ∧ 2 * dx' < nx) ∧ (dy' ≡ dy [ZMOD ny] ∧ -(ny : ℤ) ≤ 2 * dy' ∧ 2 * dy' < ny) ∧
      μ.real {ω | chi2Shift cfg st (realArr fun p => f p + n1 ω p) (realArr fun p => Spec.roll2 dy dx f p + n2 ω p) err (.int 1) false
        nf false false false mas mns ah ≠ .ok [.num dx', .num dy']}
        ≤ ∑ e ∈ Spec.others ny nx dy dx, 4 * (Spec.contrast f (fun _ => 1) dy dx (e.1 : ℕ) (e.2 : ℕ) * (s1 ^ 2 + s2 ^ 2)
            + 2 * (ny * nx) * (s1 ^ 2 * s2 ^ 2)) / Spec.contrast f (fun _ => 1) dy dx (e.1 : ℕ) (e.2 : ℕ) ^ 2 := by
  obtain ⟨dy', -, cy, ly, uy, -⟩ := exists_rep ny dy
  obtain ⟨dx', -, cx, lx, ux, -⟩ := exists_rep nx dx
  refine ⟨dx', dy', ⟨cx, lx, ux⟩, ⟨cy, ly, uy⟩, ?_⟩
  -- the noise term of the comparison with displacement `e`
  let D : Fin ny × Fin nx → Fin ny × Fin nx → ℝ := fun e p => Spec.roll2 (e.1 : ℕ) (e.2 : ℕ) f p - Spec.roll2 dy dx f p
  let G : Fin ny × Fin nx → Fin ny × Fin nx → (Fin ny × Fin nx → ℝ) → ℝ := fun e p x =>
    D e p + Spec.roll2 (e.1 : ℕ) (e.2 : ℕ) x p - Spec.roll2 dy dx x p
  let H : Fin ny × Fin nx → (Fin ny × Fin nx → ℝ) → ℝ := fun e x => ∑ p, D e p * Spec.roll2 (e.1 : ℕ) (e.2 : ℕ) x p
  refine wrong_le μ dy dx (fun e => {ω | Spec.contrast f (fun _ => 1) dy dx (e.1 : ℕ) (e.2 : ℕ)
      ≤ 2 * (∑ p, n2 ω p * G e p (n1 ω) - H e (n1 ω))}) _ ?_ ?_
  · intro ω hω
    refine clear_best cfg st hst _ _ hy dy dx err (fun _ => s) (fun _ => hs) (.inl ⟨s, herr, fun _ => rfl⟩) nf mas mns ah hf
      dx' dy' cx lx ux cy ly uy ?_
    intro e hne
    have h := hω e (by simpa [Spec.others] using hne)
    simp only [Set.mem_ofPred_eq, not_le, Spec.contrast] at h
    rw [← Finset.sum_div, ← Finset.sum_div]
    apply div_lt_div_of_pos_right _ (by positivity)
    have hadd : ∀ (a b : ℤ) (x : Fin ny × Fin nx → ℝ) p, Spec.roll2 a b (fun p => f p + x p) p = Spec.roll2 a b f p + Spec.roll2 a b x p :=
      fun a b x p => rfl
    simp only [hadd]
    have hen : ∑ p, Spec.roll2 (e.1 : ℕ) (e.2 : ℕ) (n1 ω) p ^ 2 = ∑ p, Spec.roll2 dy dx (n1 ω) p ^ 2 := by
      have := Spec.roll2_sum (e.1 : ℕ) (e.2 : ℕ) (fun p => n1 ω p ^ 2)
      have := Spec.roll2_sum dy dx (fun p => n1 ω p ^ 2)
      exact Eq.trans (Spec.roll2_sum (e.1 : ℕ) (e.2 : ℕ) (fun p => n1 ω p ^ 2)) (Spec.roll2_sum dy dx (fun p => n1 ω p ^ 2)).symm
    have key : ∑ p, (Spec.roll2 (e.1 : ℕ) (e.2 : ℕ) f p + Spec.roll2 (e.1 : ℕ) (e.2 : ℕ) (n1 ω) p - (Spec.roll2 dy dx f p + n2 ω p)) ^ 2
        - ∑ p, (Spec.roll2 dy dx f p + Spec.roll2 dy dx (n1 ω) p - (Spec.roll2 dy dx f p + n2 ω p)) ^ 2
        = ∑ p, D e p ^ 2 - 2 * (∑ p, n2 ω p * G e p (n1 ω) - H e (n1 ω))
          + (∑ p, Spec.roll2 (e.1 : ℕ) (e.2 : ℕ) (n1 ω) p ^ 2 - ∑ p, Spec.roll2 dy dx (n1 ω) p ^ 2) := by
      simp only [H, G]
      rw [mul_sub, Finset.mul_sum, Finset.mul_sum, ← Finset.sum_sub_distrib, ← Finset.sum_sub_distrib,
        ← Finset.sum_sub_distrib, ← Finset.sum_sub_distrib, ← Finset.sum_add_distrib]
      refine Finset.sum_congr rfl fun p _ => ?_
      simp only [D]
      ring
    have hD : ∑ p, (Spec.roll2 (e.1 : ℕ) (e.2 : ℕ) f p - Spec.roll2 dy dx f p) ^ 2 / 1 ^ 2 = ∑ p, D e p ^ 2 :=
      Finset.sum_congr rfl fun p _ => by simp [D]
    rw [hD] at h
    linarith
  · intro e hmem
    have hΔ := hsep e hmem
    have hD : Spec.contrast f (fun _ => 1) dy dx (e.1 : ℕ) (e.2 : ℕ) = ∑ p, D e p ^ 2 := by
      unfold Spec.contrast
      exact Finset.sum_congr rfl fun p _ => by simp [D]
    have mr : ∀ (a b : ℤ) p, Measurable (fun x : Fin ny × Fin nx → ℝ => Spec.roll2 a b x p) := fun a b p => by
      unfold Spec.roll2; exact measurable_pi_apply _
    have lr : ∀ (a b : ℤ) p, MemLp (fun ω => Spec.roll2 a b (n1 ω) p) 2 μ := fun a b p => hn1 _
    have lG : ∀ p, MemLp (fun ω => G e p (n1 ω)) 2 μ := fun p => ((memLp_const (D e p)).add (lr _ _ p)).sub (lr _ _ p)
    have lH : MemLp (fun ω => H e (n1 ω)) 2 μ := memLp_finsetSum _ fun p _ => (lr _ _ p).const_mul (D e p)
    obtain ⟨i1, i2⟩ := moment_two μ n1 n2 s2 (G e) (H e)
      (fun p => ((measurable_const).add (mr _ _ p)).sub (mr _ _ p))
      (Finset.measurable_sum _ fun p _ => (mr _ _ p).const_mul _) hind
      (fun p => (hn2 p).integrable (by norm_num)) hm2 (fun p q => (hn2 p).integrable_mul (hn2 q)) hc2
      (fun p q => (lG p).integrable_mul (lG q)) (fun p => (lG p).integrable_mul lH) lH.integrable_sq
    have vH : ∫ ω, H e (n1 ω) ^ 2 ∂μ = s1 ^ 2 * ∑ p, D e p ^ 2 := by
      have h1 : ∀ p q, Integrable (fun ω => Spec.roll2 (e.1 : ℕ) (e.2 : ℕ) (n1 ω) p * Spec.roll2 (e.1 : ℕ) (e.2 : ℕ) (n1 ω) q) μ :=
        fun p q => (lr _ _ p).integrable_mul (lr _ _ q)
      obtain ⟨-, h2⟩ := moment_lin μ (fun ω => Spec.roll2 (e.1 : ℕ) (e.2 : ℕ) (n1 ω)) (fun _ => s1) (D e) h1 (by
        intro p q
        simp only [roll2_at, hc1]
        simp only [(Spec.move_bijective _ _).1.eq_iff])
      have h3 : (fun ω => H e (n1 ω) ^ 2) = fun ω => (∑ p, Spec.roll2 (e.1 : ℕ) (e.2 : ℕ) (n1 ω) p * D e p) ^ 2 := by
        funext ω
        simp only [H, mul_comm]
      rw [h3, h2, Finset.mul_sum]
    have vG : ∀ p, ∫ ω, G e p (n1 ω) ^ 2 ∂μ = D e p ^ 2 + 2 * s1 ^ 2 := by
      intro p
      generalize hu : Spec.move (-(((e.1 : ℕ) : ℤ))) (-(((e.2 : ℕ) : ℤ))) p = u
      generalize hv : Spec.move (-dy) (-dx) p = v
      have huv : u ≠ v := by
        rintro rfl
        rw [← hu] at hv
        unfold Spec.move at hv
        simp only [Spec.others, Finset.mem_filter, Finset.mem_univ, true_and] at hmem
        have back : ∀ (n : ℕ) [NeZero n] (i : Fin n) (a b : ℤ), Spec.wrap n (((i : ℕ) : ℤ) + -a) = Spec.wrap n (((i : ℕ) : ℤ) + -b) → b ≡ a [ZMOD n] := by
          intro n _ i a b h
          rw [Spec.wrap_eq_iff] at h
          have h2 := (h.trans (Spec.wrap_modEq n _))
          have h3 := (Int.ModEq.refl ((i : ℕ) : ℤ)).sub h2
          rw [sub_add_cancel_left, sub_add_cancel_left, neg_neg, neg_neg] at h3
          exact h3.symm
        exact hmem ⟨back ny p.1 _ _ (congrArg Prod.fst hv), back nx p.2 _ _ (congrArg Prod.snd hv)⟩
      have hG : (fun ω => G e p (n1 ω) ^ 2) = fun ω => D e p ^ 2 + ((2 * D e p) * n1 ω u + ((-2 * D e p) * n1 ω v
          + ((n1 ω u * n1 ω u) + ((n1 ω v * n1 ω v) + (-2) * (n1 ω u * n1 ω v))))) := by
        funext ω
        simp only [G, roll2_at, hu, hv]
        ring
      have a1 := (hn1 u).integrable (q := 2) (by norm_num)
      have a2 := (hn1 v).integrable (q := 2) (by norm_num)
      have b1 := (hn1 u).integrable_mul (hn1 u)
      have b2 := (hn1 v).integrable_mul (hn1 v)
      have b3 := (hn1 u).integrable_mul (hn1 v)
      have c1 := b3.const_mul (-2)
      have c2 := b2.add c1
      have c3 := b1.add c2
      have c4 := (a2.const_mul (-2 * D e p)).add c3
      have c5 := (a1.const_mul (2 * D e p)).add c4
      rw [hG]
      refine (integral_add (integrable_const _) c5).trans ?_
      refine (congrArg _ ((integral_add (a1.const_mul (2 * D e p)) c4).trans (congrArg _ ((integral_add (a2.const_mul (-2 * D e p)) c3).trans
        (congrArg _ ((integral_add b1 c2).trans (congrArg _ (integral_add b2 c1)))))))).trans ?_
      simp only [integral_const_mul, hm1, Pi.mul_apply, hc1, huv, if_true, if_false, integral_const, probReal_univ, smul_eq_mul]
      ring
    have hV : ∫ ω, (∑ p, n2 ω p * G e p (n1 ω) - H e (n1 ω)) ^ 2 ∂μ
        ≤ Spec.contrast f (fun _ => 1) dy dx (e.1 : ℕ) (e.2 : ℕ) * (s1 ^ 2 + s2 ^ 2) + 2 * (ny * nx) * (s1 ^ 2 * s2 ^ 2) := by
      rw [i2, vH, hD]
      simp only [vG, Finset.sum_add_distrib, Finset.sum_const, Finset.card_univ, Fintype.card_prod, Fintype.card_fin]
      apply le_of_eq
      push_cast [nsmul_eq_mul]
      ring
    exact cheb μ _ _ _ hΔ i1 hV

/-- C126: the expected chi-squared map. With noise of mean 0 and standard deviation `τ` in the second image (the pixels may be
correlated), the expected value of every entry of the map that `chi2n_map` returns is the entry without noise plus the sum of
`τ²/σ²` over the pixels: when the errors are right (`τ = σ`), the noise-free value plus the number of pixels. -/
theorem C126_expected_map (cfg : FFTConfig) [IsProbabilityMeasure μ]
    (im1 im2 : Fin ny × Fin nx → ℝ) (n : Ω → Fin ny × Fin nx → ℝ)
    (err : ErrArg ny nx) (σ : Fin ny × Fin nx → ℝ) (hσ : ∀ p, σ p ≠ 0)
    (he : (∃ s, Spec.isScalarErr err s ∧ ∀ p, σ p = s) ∨ err = .image (realArr σ)) (τ : Fin ny × Fin nx → ℝ)
    (hn : ∀ p, MemLp (fun ω => n ω p) 2 μ) (hm : ∀ p, ∫ ω, n ω p ∂μ = 0) (hv : ∀ p, ∫ ω, n ω p ^ 2 ∂μ = τ p ^ 2)
    (ah : Bool) (hf : Spec.fits ah ny nx) :
    ∃ (c0 : Fin ny × Fin nx → ℝ) (c : Ω → Fin ny × Fin nx → ℝ),
      chi2nMap cfg (realArr im1) (realArr im2) err false false false ah = .ok (.only c0) ∧
      (∀ ω, chi2nMap cfg (realArr im1) (realArr fun p => im2 p + n ω p) err false false false ah = .ok (.only (c ω))) ∧
      ∀ i, Integrable (fun ω => c ω i) μ ∧ ∫ ω, c ω i ∂μ = c0 i + ∑ p, τ p ^ 2 / σ p ^ 2 := by
  have hmap : ∀ b : Fin ny × Fin nx → ℝ, chi2nMap cfg (realArr im1) (realArr b) err false false false ah = .ok (.only fun i =>
      ∑ p, (Spec.roll2 (Spec.lag ny i.1) (Spec.lag nx i.2) im1 p - b p) ^ 2 / σ p ^ 2) := by
    intro b
    obtain ⟨cm, hcm, hchi⟩ := rolled_map cfg im1 b err σ hσ he ah hf
    rw [chi2nMap, chi2nMapB_same]
    rw [show chi2nMapBodyB cfg .wrap (realArr im1) (realArr b) err false false ah = .ok cm from hcm]
    rw [← funext hchi]
    rfl
  refine ⟨_, fun ω => _, hmap im2, fun ω => hmap _, fun i => ?_⟩
  set a := Spec.roll2 (Spec.lag ny i.1) (Spec.lag nx i.2) im1
  have e : (fun ω => ∑ p, (a p - (im2 p + n ω p)) ^ 2 / σ p ^ 2)
      = fun ω => ∑ p, ((a p - im2 p) ^ 2 / σ p ^ 2 + ((-2 * (a p - im2 p) / σ p ^ 2) * n ω p + (1 / σ p ^ 2) * n ω p ^ 2)) := by
    funext ω
    exact Finset.sum_congr rfl fun p _ => by ring
  have i1 : ∀ p, Integrable (fun ω => (-2 * (a p - im2 p) / σ p ^ 2) * n ω p) μ := fun p =>
    ((hn p).integrable (q := 2) (by norm_num)).const_mul _
  have i2 : ∀ p, Integrable (fun ω => (1 / σ p ^ 2) * n ω p ^ 2) μ := fun p => (hn p).integrable_sq.const_mul _
  have i3 : ∀ p, Integrable (fun ω => (a p - im2 p) ^ 2 / σ p ^ 2
      + ((-2 * (a p - im2 p) / σ p ^ 2) * n ω p + (1 / σ p ^ 2) * n ω p ^ 2)) μ := fun p =>
    (integrable_const _).add ((i1 p).add (i2 p))
  beta_reduce
  rw [e]
  refine ⟨integrable_finsetSum _ fun p _ => i3 p, ?_⟩
  rw [integral_finsetSum _ fun p _ => i3 p, ← Finset.sum_add_distrib]
  refine Finset.sum_congr rfl fun p _ => ?_
  refine (integral_add (integrable_const _) ((i1 p).add (i2 p))).trans ?_
  refine (congrArg _ (integral_add (i1 p) (i2 p))).trans ?_
  rw [integral_const_mul, integral_const_mul, hm, hv]
  simp only [integral_const, probReal_univ, smul_eq_mul]
  ring

end

/-! ### Examples: Gaussian noise on a 4×5 image with one bright pixel -/

/-- independent Gaussian noise of variance `v` in every pixel -/
noncomputable def gaussNoise (ny nx : ℕ) (v : NNReal) : Measure (Fin ny × Fin nx → ℝ) :=
  Measure.pi fun _ => ProbabilityTheory.gaussianReal 0 v

instance (ny nx : ℕ) (v : NNReal) : IsProbabilityMeasure (gaussNoise ny nx v) := by
  unfold gaussNoise; infer_instance

theorem gaussNoise_map (ny nx : ℕ) (v : NNReal) (p : Fin ny × Fin nx) :
    MeasurePreserving (fun ω : Fin ny × Fin nx → ℝ => ω p) (gaussNoise ny nx v) (ProbabilityTheory.gaussianReal 0 v) :=
  measurePreserving_eval (fun _ : Fin ny × Fin nx => ProbabilityTheory.gaussianReal 0 v) p

theorem gaussNoise_indep (ny nx : ℕ) (v : NNReal) :
    ProbabilityTheory.iIndepFun (fun p (ω : Fin ny × Fin nx → ℝ) => ω p) (gaussNoise ny nx v) :=
  ProbabilityTheory.iIndepFun_pi (μ := fun _ : Fin ny × Fin nx => ProbabilityTheory.gaussianReal 0 v) (X := fun _ x => x)
    (fun _ => aemeasurable_id')

theorem gaussNoise_memLp (ny nx : ℕ) (v : NNReal) (p : Fin ny × Fin nx) :
    MemLp (fun ω : Fin ny × Fin nx → ℝ => ω p) 2 (gaussNoise ny nx v) :=
  (ProbabilityTheory.memLp_id_gaussianReal 2).comp_measurePreserving (gaussNoise_map ny nx v p)

theorem gaussNoise_mean (ny nx : ℕ) (v : NNReal) (p : Fin ny × Fin nx) : ∫ ω, ω p ∂(gaussNoise ny nx v) = 0 := by
  have h := (gaussNoise_map ny nx v p)
  have := integral_map (μ := gaussNoise ny nx v) h.measurable.aemeasurable (f := fun x : ℝ => x) (by fun_prop)
  rw [h.map_eq, ProbabilityTheory.integral_id_gaussianReal] at this
  exact this.symm

theorem gaussNoise_cov (ny nx : ℕ) (v : NNReal) (p q : Fin ny × Fin nx) :
    ∫ ω, ω p * ω q ∂(gaussNoise ny nx v) = if p = q then Real.sqrt v ^ 2 else 0 := by
  split_ifs with h
  · subst h
    have hm := (gaussNoise_map ny nx v p)
    have := integral_map (μ := gaussNoise ny nx v) hm.measurable.aemeasurable (f := fun x : ℝ => x * x) (by fun_prop)
    rw [hm.map_eq] at this
    rw [← this, Real.sq_sqrt (NNReal.coe_nonneg v)]
    have hv := ProbabilityTheory.variance_fun_id_gaussianReal (μ := 0) (v := v)
    rw [ProbabilityTheory.variance_eq_integral (by fun_prop), ProbabilityTheory.integral_id_gaussianReal] at hv
    simpa [sq] using hv
  · have hi := (gaussNoise_indep ny nx v).indepFun h
    have := hi.integral_mul_eq_mul_integral (gaussNoise_memLp ny nx v p).1 (gaussNoise_memLp ny nx v q).1
    refine Eq.trans this ?_
    rw [gaussNoise_mean, zero_mul]

/-- a single bright pixel -/
def bright (k : ℝ) : Fin 4 × Fin 5 → ℝ := fun p => if p = (0, 0) then k else 0

theorem bright_roll (k : ℝ) (dy dx : ℤ) (p : Fin 4 × Fin 5) :
    Spec.roll2 dy dx (bright k) p = if p = Spec.move dy dx (0, 0) then k else 0 := by
  have h : Spec.move (-dy) (-dx) p = (0, 0) ↔ p = Spec.move dy dx (0, 0) := by
    constructor
    · intro h
      rw [← h, move_move, add_neg_cancel, add_neg_cancel, move_zero]
    · intro h
      rw [h, move_move, neg_add_cancel, neg_add_cancel, move_zero]
  rw [roll2_at, bright]
  simp only [h]

theorem bright_contrast (k s : ℝ) (dy dx : ℤ) (e : Fin 4 × Fin 5) (he : e ∈ Spec.others 4 5 dy dx) :
    Spec.contrast (bright k) (fun _ => s) dy dx (e.1 : ℕ) (e.2 : ℕ) = 2 * k ^ 2 / s ^ 2 := by
  have hne : Spec.move (e.1 : ℕ) (e.2 : ℕ) ((0, 0) : Fin 4 × Fin 5) ≠ Spec.move dy dx (0, 0) := by
    intro h
    simp only [Spec.others, Finset.mem_filter, Finset.mem_univ, true_and] at he
    apply he
    have back : ∀ (n : ℕ) [NeZero n] (a b : ℤ), Spec.wrap n ((((0 : Fin n) : ℕ) : ℤ) + a) = Spec.wrap n ((((0 : Fin n) : ℕ) : ℤ) + b) → a ≡ b [ZMOD n] := by
      intro n _ a b h
      rw [Spec.wrap_eq_iff] at h
      have h2 := h.trans (Spec.wrap_modEq n _)
      simpa using h2
    exact ⟨back 4 _ _ (congrArg Prod.fst h), back 5 _ _ (congrArg Prod.snd h)⟩
  unfold Spec.contrast
  simp only [bright_roll]
  generalize Spec.move (e.1 : ℕ) (e.2 : ℕ) ((0, 0) : Fin 4 × Fin 5) = a at hne ⊢
  generalize Spec.move dy dx ((0, 0) : Fin 4 × Fin 5) = b at hne ⊢
  have : ∀ p : Fin 4 × Fin 5, ((if p = a then k else 0) - if p = b then k else 0) ^ 2 / s ^ 2
      = (if p = a then k ^ 2 / s ^ 2 else 0) + if p = b then k ^ 2 / s ^ 2 else 0 := by
    intro p
    by_cases h1 : p = a
    · have h2 : p ≠ b := h1 ▸ hne
      simp [h1, h1 ▸ h2]
    · by_cases h2 : p = b <;> simp [h1, h2, hne.symm]
  simp only [this, Finset.sum_add_distrib, Finset.sum_ite_eq', Finset.mem_univ, if_true]
  ring

theorem others_card (dy dx : ℤ) : (Spec.others 4 5 dy dx).card ≤ 20 :=
  (Finset.card_le_univ _).trans (by simp)

/-- C126_gaussian, C126_wrong_pixel_exp: a pixel of height 20 in noise of standard deviation 1: a wrong answer has probability at most
`20 e⁻¹⁰⁰`. -/
example (cfg : FFTConfig) (dy dx : ℤ) :
    ∃ dx' dy' : ℤ, dx' ≡ dx [ZMOD 5] ∧ dy' ≡ dy [ZMOD 4] ∧
      (gaussNoise 4 5 1).real {ω | chi2Shift cfg none (realArr (bright 20)) (realArr fun p => Spec.roll2 dy dx (bright 20) p + ω p)
        .none (.int 1) false 0 false false false 5 1 true ≠ .ok [.num dx', .num dy']} ≤ 20 * Real.exp (-100) := by
  obtain ⟨dx', dy', h1, h2, h3⟩ := C126_gaussian (gaussNoise 4 5 1) cfg none trivial (bright 20) (fun ω => ω) (by norm_num) dy dx
    .none (fun _ => 1) (by simp) (.inl ⟨1, rfl, fun _ => rfl⟩) (fun _ => 1) 1 one_pos (by simp) (gaussNoise_indep 4 5 1)
    (fun p => (gaussNoise_map 4 5 1 p).map_eq) (fun e he => by rw [bright_contrast 20 1 dy dx e he]; norm_num) 0 5 1 true (.inl rfl)
  refine ⟨dx', dy', h1.1, h2.1, h3.trans ?_⟩
  rw [Finset.sum_congr rfl fun e he => by rw [bright_contrast 20 1 dy dx e he]]
  rw [Finset.sum_const, nsmul_eq_mul]
  refine mul_le_mul (by exact_mod_cast others_card dy dx) (by norm_num) (Real.exp_pos _).le (by norm_num)

/-- C126_wrong_pixel, with the error under-estimated by a factor of 2 (`κ = 4`): probability at most 1/10 for a pixel of height 20. -/
example (cfg : FFTConfig) (dy dx : ℤ) :
    ∃ dx' dy' : ℤ, dx' ≡ dx [ZMOD 5] ∧ dy' ≡ dy [ZMOD 4] ∧
      (gaussNoise 4 5 1).real {ω | chi2Shift cfg none (realArr (bright 20)) (realArr fun p => Spec.roll2 dy dx (bright 20) p + ω p)
        (.scalar (1 / 2)) (.int 1) false 0 false false false 5 1 true ≠ .ok [.num dx', .num dy']} ≤ 1 / 10 := by
  obtain ⟨dx', dy', h1, h2, h3⟩ := C126_wrong_pixel (gaussNoise 4 5 1) cfg none trivial (bright 20) (fun ω => ω) (by norm_num) dy dx
    (.scalar (1 / 2)) (fun _ => 1 / 2) (by norm_num) (.inl ⟨1 / 2, rfl, fun _ => rfl⟩) (fun _ => Real.sqrt (1 : NNReal)) 4 (by norm_num)
    (fun p q => (gaussNoise_memLp 4 5 1 p).integrable_mul (gaussNoise_memLp 4 5 1 q)) (gaussNoise_cov 4 5 1)
    (fun e he => by rw [bright_contrast 20 (1 / 2) dy dx e he]; norm_num) 0 5 1 true (.inl rfl)
  refine ⟨dx', dy', h1.1, h2.1, h3.trans ?_⟩
  rw [Finset.sum_congr rfl fun e he => by rw [bright_contrast 20 (1 / 2) dy dx e he]]
  rw [Finset.sum_const, nsmul_eq_mul]
  have : ((Spec.others 4 5 dy dx).card : ℝ) ≤ 20 := by exact_mod_cast others_card dy dx
  norm_num
  linarith

/-- C126_both_noisy: Gaussian noise of standard deviation 1 in both images. -/
example (cfg : FFTConfig) (dy dx : ℤ) :
    ∃ dx' dy' : ℤ, dx' ≡ dx [ZMOD 5] ∧ dy' ≡ dy [ZMOD 4] ∧
      ((gaussNoise 4 5 1).prod (gaussNoise 4 5 1)).real {ω | chi2Shift cfg none (realArr fun p => bright 20 p + ω.1 p)
        (realArr fun p => Spec.roll2 dy dx (bright 20) p + ω.2 p)
        .none (.int 1) false 0 false false false 5 1 true ≠ .ok [.num dx', .num dy']} ≤ 1 / 4 := by
  have m1 : MeasurePreserving Prod.fst ((gaussNoise 4 5 1).prod (gaussNoise 4 5 1)) (gaussNoise 4 5 1) := measurePreserving_fst
  have m2 : MeasurePreserving Prod.snd ((gaussNoise 4 5 1).prod (gaussNoise 4 5 1)) (gaussNoise 4 5 1) := measurePreserving_snd
  have meas : ∀ p q : Fin 4 × Fin 5, AEStronglyMeasurable (fun x : Fin 4 × Fin 5 → ℝ => x p * x q) (gaussNoise 4 5 1) := fun p q =>
    Measurable.aestronglyMeasurable (by fun_prop)
  have meas1 : ∀ p : Fin 4 × Fin 5, AEStronglyMeasurable (fun x : Fin 4 × Fin 5 → ℝ => x p) (gaussNoise 4 5 1) := fun p =>
    Measurable.aestronglyMeasurable (by fun_prop)
  have tr : ∀ {f : (Fin 4 × Fin 5 → ℝ) → ℝ} {π : (Fin 4 × Fin 5 → ℝ) × (Fin 4 × Fin 5 → ℝ) → (Fin 4 × Fin 5 → ℝ)},
      MeasurePreserving π ((gaussNoise 4 5 1).prod (gaussNoise 4 5 1)) (gaussNoise 4 5 1) → AEStronglyMeasurable f (gaussNoise 4 5 1) →
      ∫ ω, f (π ω) ∂((gaussNoise 4 5 1).prod (gaussNoise 4 5 1)) = ∫ x, f x ∂(gaussNoise 4 5 1) := by
    intro f π hπ hf
    have := integral_map hπ.measurable.aemeasurable (f := f) (by rw [hπ.map_eq]; exact hf)
    rw [hπ.map_eq] at this
    exact this.symm
  obtain ⟨dx', dy', h1, h2, h3⟩ := C126_both_noisy ((gaussNoise 4 5 1).prod (gaussNoise 4 5 1)) cfg none trivial (bright 20)
    (fun ω => ω.1) (fun ω => ω.2) (by norm_num) dy dx .none 1 one_ne_zero rfl (Real.sqrt (1 : NNReal)) (Real.sqrt (1 : NNReal))
    (ProbabilityTheory.indepFun_prod measurable_id measurable_id)
    (fun p => (gaussNoise_memLp 4 5 1 p).comp_measurePreserving m1) (fun p => (gaussNoise_memLp 4 5 1 p).comp_measurePreserving m2)
    (fun p => (tr m1 (meas1 p)).trans (gaussNoise_mean 4 5 1 p)) (fun p => (tr m2 (meas1 p)).trans (gaussNoise_mean 4 5 1 p))
    (fun p q => (tr m1 (meas p q)).trans (gaussNoise_cov 4 5 1 p q)) (fun p q => (tr m2 (meas p q)).trans (gaussNoise_cov 4 5 1 p q))
    (fun e he => by rw [bright_contrast 20 1 dy dx e he]; norm_num) 0 5 1 true (.inl rfl)
  refine ⟨dx', dy', h1.1, h2.1, h3.trans ?_⟩
  rw [Finset.sum_congr rfl fun e he => by rw [bright_contrast 20 1 dy dx e he]]
  rw [Finset.sum_const, nsmul_eq_mul]
  have : ((Spec.others 4 5 dy dx).card : ℝ) ≤ 20 := by exact_mod_cast others_card dy dx
  norm_num
  linarith

/-- C126_expected_map: Gaussian noise. -/
example (cfg : FFTConfig) (im1 im2 : Fin 4 × Fin 5 → ℝ) :
    ∃ (c0 : Fin 4 × Fin 5 → ℝ) (c : (Fin 4 × Fin 5 → ℝ) → Fin 4 × Fin 5 → ℝ),
      (∀ ω, chi2nMap cfg (realArr im1) (realArr fun p => im2 p + ω p) .none false false false true = .ok (.only (c ω))) ∧
      ∀ i, ∫ ω, c ω i ∂(gaussNoise 4 5 1) = c0 i + 20 := by
  obtain ⟨c0, c, -, h, h'⟩ := C126_expected_map (gaussNoise 4 5 1) cfg im1 im2 (fun ω => ω) .none (fun _ => 1) (by simp)
    (.inl ⟨1, rfl, fun _ => rfl⟩) (fun _ => Real.sqrt (1 : NNReal)) (gaussNoise_memLp 4 5 1) (gaussNoise_mean 4 5 1)
    (fun p => by have := gaussNoise_cov 4 5 1 p p; simpa [sq] using this) true (.inl rfl)
  refine ⟨c0, c, h, fun i => (h' i).2.trans ?_⟩
  norm_num

end ImgReg
