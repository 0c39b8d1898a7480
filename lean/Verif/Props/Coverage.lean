import Verif.Props.RandomNoise
import Verif.Props.Chi2More

/-!
# What the error bars of `chi2_shift` cover (C137)
-/

open Complex Finset MeasureTheory

namespace ImgReg

namespace Spec

/-- the displacements along an axis of `n` pixels that can appear in the zoomed map of `chi2_shift` with upsampling factor `u`:
minus (offset of a pixel `q` of the map from its centre, plus half a pixel for even `n`, plus the offset of grid point `i` from the middle of
the `s`-point grid, in units of `1/u`), for all pixels and all grid points -/
noncomputable def searchedAxis (n s u : ℕ) : Finset ℝ :=
  open Classical in
  (Finset.univ : Finset (Fin n × Fin s)).image fun k =>
    -(((k.1 : ℕ) : ℝ) - ((n - 1) / 2 : ℕ) + (if n % 2 = 0 then 1 / 2 else 0) + (((k.2 : ℕ) : ℝ) - ((s : ℝ) - 1) / 2) / u)

/-- the displacements (rows, columns) that can appear in the zoomed map: a `2u × 2u` grid if `u` is at least the number of rows, otherwise
a grid of the size of the images -/
noncomputable def searched (ny nx u : ℕ) : Finset (ℝ × ℝ) :=
  searchedAxis ny (if ny ≤ u then 2 * u else ny) u ×ˢ searchedAxis nx (if ny ≤ u then 2 * u else nx) u

/-- how different two (complex) images are: sum of squared differences in units of `s` -/
noncomputable def mismatch {ny nx : ℕ} (a b : Fin ny × Fin nx → ℂ) (s : ℝ) : ℝ := ∑ p, ‖a p - b p‖ ^ 2 / s ^ 2

end Spec

section
variable {ny nx : ℕ} [NeZero ny] [NeZero nx]

omit [NeZero ny] [NeZero nx] in
/-- what the error bars mean, from the data of a successful call -/
theorem covered {s1 s2 : ℕ} [NeZero s1] [NeZero s2] (st : Stats) (hst : Spec.validStats st) (u : ℝ) (hu0 : 0 < u) (qy : Fin ny) (qx : Fin nx)
    (xv yv c : Fin s1 × Fin s2 → ℝ)
    (hyv : yv = fun i => Spec.gridShift ny qy u s1 i.1) (hxv : xv = fun i => Spec.gridShift nx qx u s2 i.2)
    (er : Errors) (her : chi2mapToErrors st c u 1 2 = .ok er) (i : Fin s1 × Fin s2)
    (hi : c i - c (Np.argmin c) < Spec.oneSigma st) :
    |-xv (Np.argmin c) - -xv i| ≤ 2 * ((er.xLow + er.xHigh) / 2) ∧ |-yv (Np.argmin c) - -yv i| ≤ 2 * ((er.yLow + er.yHigh) / 2) := by
  obtain ⟨er', p, h, hp, n1, n2, n3, n4, hall, -⟩ := C37_bounding_box st c u 1 2 hu0 (sigma_pos st hst)
  rw [her] at h
  obtain rfl : er = er' := by injection h
  rw [sigma_one] at *
  obtain rfl : Np.argmin c = p := Np.IsFirstMin.unique (Np.argmin_spec c) hp
  obtain ⟨h1, h2, h3, h4⟩ := hall i hi
  have hx : -xv (Np.argmin c) - -xv i = (((i.2 : ℕ) : ℝ) - (((Np.argmin c).2 : ℕ) : ℝ)) / u := by
    rw [hxv]; simp only [Spec.gridShift]; ring
  have hy : -yv (Np.argmin c) - -yv i = (((i.1 : ℕ) : ℝ) - (((Np.argmin c).1 : ℕ) : ℝ)) / u := by
    rw [hyv]; simp only [Spec.gridShift]; ring
  have e1 : (((Np.argmin c).2 : ℕ) - ((i.2 : ℕ) : ℝ)) / u = -((((i.2 : ℕ) : ℝ) - (((Np.argmin c).2 : ℕ) : ℝ)) / u) := by ring
  have e2 : (((Np.argmin c).1 : ℕ) - ((i.1 : ℕ) : ℝ)) / u = -((((i.1 : ℕ) : ℝ) - (((Np.argmin c).1 : ℕ) : ℝ)) / u) := by ring
  rw [hx, hy, abs_le, abs_le]
  refine ⟨⟨by linarith, by linarith⟩, ⟨by linarith, by linarith⟩⟩

/-- C137: every displacement of the returned grid whose chi-squared exceeds the minimum by less than the one-sigma threshold lies within
twice the reported error bars of the reported shift, in both directions (any images, errors and upsampling arguments). -/
theorem C137_region (cfg : FFTConfig) (st : Stats) (hst : Spec.validStats st)
    (im1 im2 : Fin ny × Fin nx → Pix) (err : ErrArg ny nx) (us : UsFactor) (zm : Bool) (nf : ℝ)
    (mas : ℕ) (mns : ℝ) (ah : Bool) (hf : Spec.fits ah ny nx) (hus : Spec.validUs ny mas us) :
    ∃ (rx ry ex ey : ℝ) (s1 s2 : ℕ) (xv yv c : Fin s1 × Fin s2 → ℝ) (best : Fin s1 × Fin s2),
      chi2Shift cfg st im1 im2 err us zm nf false true true mas mns ah
        = .ok [.num rx, .num ry, .num ex, .num ey, .arrays s1 s2 xv yv c] ∧
      rx = -xv best ∧ ry = -yv best ∧ (∀ i, c best ≤ c i) ∧
      ∀ i, c i - c best < Spec.oneSigma st → |rx - -xv i| ≤ 2 * ex ∧ |ry - -yv i| ≤ 2 * ey := by
  obtain ⟨cm, hcm, s1, s2, i1, i2, hg, u, hu, hu0, yv, xv, hyv, hxv, c, hc, er, her, hres⟩ :=
    chi2Shift_ok cfg st hst im1 im2 err us zm nf mas mns ah hf hus
  exact ⟨_, _, _, _, s1, s2, xv, yv, c, Np.argmin c, (hres true true).trans rfl, rfl, rfl, (Np.argmin_spec c).1,
    fun i hi => covered st hst u hu0 _ _ xv yv c hyv hxv er her i hi⟩

theorem prep_false_real (a : Fin ny × Fin nx → ℝ) : prep false (realArr a) = a := by
  rw [prep_real]; funext p; simp

/-- C137, no probability: if the second image is the Fourier-shifted first image plus a disturbance that is small compared with the error
(sum of squares in units of the error below the one-sigma threshold), and the displacement is one of the grid points examined, the
displacement lies within twice the reported error bars. -/
theorem C137_small_noise (cfg cfg' : FFTConfig) (st : Stats) (hst : Spec.validStats st)
    (im1 im2 : Fin ny × Fin nx → ℝ) (dy dx : ℝ)
    (o : Fin ny × Fin nx → ℂ) (ho : shift2d cfg' (rArr im1) dx dy 0 false false = .cplx (cArr o))
    (err : ErrArg ny nx) (s : ℝ) (herr : Spec.isScalarErr err s)
    (hnoise : ∑ p, ‖(im2 p : ℂ) - o p‖ ^ 2 / s ^ 2 < Spec.oneSigma st)
    (us : UsFactor) (nf : ℝ) (mas : ℕ) (mns : ℝ) (ah : Bool) (hf : Spec.fits ah ny nx) (hus : Spec.validUs ny mas us) :
    ∃ (rx ry ex ey : ℝ) (s1 s2 : ℕ) (xv yv c : Fin s1 × Fin s2 → ℝ),
      chi2Shift cfg st (realArr im1) (realArr im2) err us false nf false true true mas mns ah
        = .ok [.num rx, .num ry, .num ex, .num ey, .arrays s1 s2 xv yv c] ∧
      ((∃ i, xv i = -dx ∧ yv i = -dy) → |rx - dx| ≤ 2 * ex ∧ |ry - dy| ≤ 2 * ey) := by
  obtain ⟨cm, hcm, hchi, s1, s2, i1, i2, hg, u, huu, hu0, yv, xv, hyv, hxv, c, hc, er, her, hres⟩ :=
    chi2Shift_scalar cfg st hst (realArr im1) (realArr im2) err s herr us false nf mas mns ah hf hus
  refine ⟨_, _, _, _, s1, s2, xv, yv, c, (hres true true).trans rfl, ?_⟩
  rintro ⟨i, hx, hy⟩
  have h := covered st hst u hu0 _ _ xv yv c hyv hxv er her i ?_
  · rwa [hx, hy, neg_neg, neg_neg] at h
  · have h0 : 0 ≤ c (Np.argmin c) := by rw [hc]; exact resid_nonneg _ _ _ _ _
    have e : c i = ∑ p, ‖(im2 p : ℂ) - o p‖ ^ 2 / s ^ 2 := by
      rw [hc]
      simp only [hx, hy, prep_false_real]
      unfold Spec.resid
      rw [← Finset.sum_div, resid_swap_real, Finset.sum_div, shift2d_cplx ho]
      exact Finset.sum_congr rfl fun p _ => by rw [norm_sub_rev]
    rw [e]
    linarith

variable {Ω : Type*} [MeasurableSpace Ω] (μ : Measure Ω)

/-- Chebyshev for a linear form -/
theorem lin_cheb {ι : Type*} [Fintype ι] [DecidableEq ι] [IsFiniteMeasure μ] (n : Ω → ι → ℝ) (τ w : ι → ℝ)
    (hint : ∀ p q, Integrable (fun ω => n ω p * n ω q) μ)
    (hcov : ∀ p q, ∫ ω, n ω p * n ω q ∂μ = if p = q then τ p ^ 2 else 0)
    (A V : ℝ) (hA : 0 < A) (hV : ∑ p, τ p ^ 2 * w p ^ 2 ≤ V) :
    μ.real {ω | A ≤ 2 * ∑ p, n ω p * w p} ≤ 4 * V / A ^ 2 := by
  obtain ⟨i1, i2⟩ := moment_lin μ n τ w hint hcov
  exact cheb μ _ _ _ hA i1 (i2.le.trans hV)

/-- tail of a linear form of independent sub-Gaussian noise, at any level -/
theorem lin_tail_at {ι : Type*} [Fintype ι] [IsProbabilityMeasure μ] (n : Ω → ι → ℝ) (c : ι → NNReal)
    (hind : ProbabilityTheory.iIndepFun (fun p ω => n ω p) μ)
    (hsub : ∀ p, ProbabilityTheory.HasSubgaussianMGF (fun ω => n ω p) (c p) μ)
    (w : ι → ℝ) (A V : ℝ) (hA : 0 < A) (hV0 : 0 < V) (hV : ∑ p, (c p : ℝ) * w p ^ 2 ≤ V) :
    μ.real {ω | A ≤ 2 * ∑ p, n ω p * w p} ≤ Real.exp (-(A ^ 2 / (8 * V))) := by
  have hind' : ProbabilityTheory.iIndepFun (fun p ω => w p * n ω p) μ :=
    hind.comp (fun p x => w p * x) (fun p => measurable_const_mul _)
  have hsub' : ∀ p, ProbabilityTheory.HasSubgaussianMGF (fun ω => w p * n ω p) (⟨w p ^ 2, sq_nonneg _⟩ * c p) μ :=
    fun p => (hsub p).const_mul (w p)
  have hset : {ω | A ≤ 2 * ∑ p, n ω p * w p} = {ω | A / 2 ≤ ∑ p, w p * n ω p} := by
    ext ω
    simp only [Set.mem_ofPred_eq, mul_comm (n ω _)]
    constructor <;> intro h <;> linarith
  have h := ProbabilityTheory.HasSubgaussianMGF.sum_of_iIndepFun hind' (s := Finset.univ) (fun p _ => hsub' p)
  have hsum : ((∑ p, (⟨w p ^ 2, sq_nonneg _⟩ * c p : NNReal) : NNReal) : ℝ) = ∑ p, (c p : ℝ) * w p ^ 2 := by
    rw [NNReal.coe_sum]
    refine Finset.sum_congr rfl fun p _ => ?_
    have : ((⟨w p ^ 2, sq_nonneg _⟩ * c p : NNReal) : ℝ) = w p ^ 2 * (c p : ℝ) := rfl
    rw [this, mul_comm]
  have h' : ProbabilityTheory.HasSubgaussianMGF (fun ω => ∑ p, w p * n ω p) V.toNNReal μ := by
    refine ⟨h.1, fun t => (h.2 t).trans (Real.exp_le_exp.2 ?_)⟩
    rw [Real.coe_toNNReal _ hV0.le, hsum]
    have := mul_le_mul_of_nonneg_right hV (sq_nonneg t)
    linarith
  rw [hset]
  refine (h'.measure_ge_le (ε := A / 2) (by positivity)).trans (Real.exp_le_exp.2 ?_)
  rw [Real.coe_toNNReal _ hV0.le]
  apply le_of_eq
  field_simp
  ring

omit [NeZero ny] [NeZero nx] in
/-- expansion of the residual around the true displacement -/
theorem gap_cplx (a g : Fin ny × Fin nx → ℂ) (noise : Fin ny × Fin nx → ℝ) (s : ℝ) :
    (∑ p, ‖a p - (g p + (noise p : ℂ))‖ ^ 2 / s ^ 2) - ∑ p, ‖g p - (g p + (noise p : ℂ))‖ ^ 2 / s ^ 2
      = Spec.mismatch a g s - 2 * ∑ p, noise p * ((a p - g p).re / s ^ 2) := by
  unfold Spec.mismatch
  rw [Finset.mul_sum, ← Finset.sum_sub_distrib, ← Finset.sum_sub_distrib]
  refine Finset.sum_congr rfl fun p _ => ?_
  rw [← Complex.normSq_eq_norm_sq, ← Complex.normSq_eq_norm_sq, ← Complex.normSq_eq_norm_sq, Complex.normSq_apply, Complex.normSq_apply,
    Complex.normSq_apply]
  simp only [Complex.sub_re, Complex.sub_im, Complex.add_re, Complex.add_im, Complex.ofReal_re, Complex.ofReal_im]
  ring

/-- the event that the error bars miss the true displacement is covered by one event for each wrong displacement -/
theorem miss_le (cfg cfg' : FFTConfig) (st : Stats) (hst : Spec.validStats st) [IsFiniteMeasure μ]
    (im1 g : Fin ny × Fin nx → ℝ) (n : Ω → Fin ny × Fin nx → ℝ)
    (o : ℝ → ℝ → Fin ny × Fin nx → ℂ)
    (ho : ∀ dy dx, shift2d cfg' (rArr im1) dx dy 0 false false = .cplx (cArr (o dy dx)))
    (dy dx : ℝ) (hg : ∀ p, o dy dx p = (g p : ℂ))
    (err : ErrArg ny nx) (s : ℝ) (herr : Spec.isScalarErr err s)
    (u : ℕ) (hu : 0 < u) (nf : ℝ) (mas : ℕ) (mns : ℝ) (ah : Bool) (hf : Spec.fits ah ny nx) (F : ℝ × ℝ → ℝ)
    (hF : ∀ e ∈ Spec.searched ny nx u, 0 < Spec.mismatch (o e.1 e.2) (o dy dx) s →
      μ.real {ω | Spec.mismatch (o e.1 e.2) (o dy dx) s + Spec.oneSigma st
        ≤ 2 * ∑ p, n ω p * ((o e.1 e.2 p - o dy dx p).re / s ^ 2)} ≤ F e) :
    μ.real {ω | ∃ (rx ry ex ey : ℝ) (s1 s2 : ℕ) (xv yv c : Fin s1 × Fin s2 → ℝ),
        chi2Shift cfg st (realArr im1) (realArr fun p => g p + n ω p) err (.int u) false nf false true true mas mns ah
          = .ok [.num rx, .num ry, .num ex, .num ey, .arrays s1 s2 xv yv c] ∧
        (∃ i, xv i = -dx ∧ yv i = -dy) ∧ ¬ (|rx - dx| ≤ 2 * ex ∧ |ry - dy| ≤ 2 * ey)}
      ≤ ∑ e ∈ (Spec.searched ny nx u).filter fun e => 0 < Spec.mismatch (o e.1 e.2) (o dy dx) s, F e := by
  have hsub : {ω | ∃ (rx ry ex ey : ℝ) (s1 s2 : ℕ) (xv yv c : Fin s1 × Fin s2 → ℝ),
        chi2Shift cfg st (realArr im1) (realArr fun p => g p + n ω p) err (.int u) false nf false true true mas mns ah
          = .ok [.num rx, .num ry, .num ex, .num ey, .arrays s1 s2 xv yv c] ∧
        (∃ i, xv i = -dx ∧ yv i = -dy) ∧ ¬ (|rx - dx| ≤ 2 * ex ∧ |ry - dy| ≤ 2 * ey)}
      ⊆ ⋃ e ∈ (Spec.searched ny nx u).filter fun e => 0 < Spec.mismatch (o e.1 e.2) (o dy dx) s,
        {ω | Spec.mismatch (o e.1 e.2) (o dy dx) s + Spec.oneSigma st
          ≤ 2 * ∑ p, n ω p * ((o e.1 e.2 p - o dy dx p).re / s ^ 2)} := by
    rintro ω ⟨rx, ry, ex, ey, s1', s2', xv', yv', c', hrun, hi', hmiss⟩
    obtain ⟨cm, hcm, hchi, s1, s2, i1, i2, hgs, u', huu, hu0, yv, xv, hyv, hxv, c, hc, er, her, hres⟩ :=
      chi2Shift_scalar cfg st hst (realArr im1) (realArr fun p => g p + n ω p) err s herr (.int u) false nf mas mns ah hf hu
    have h := (hres true true).symm.trans hrun
    injection h with h
    simp only [Spec.layout, if_true, List.cons_append, List.nil_append, List.cons.injEq, RetVal.num.injEq, RetVal.arrays.injEq,
      and_true] at h
    obtain ⟨h1, h2, h3, h4, rfl, rfl, h567⟩ := h
    obtain ⟨rfl, rfl, rfl⟩ := by simpa using h567
    obtain ⟨i, hx, hy⟩ := hi'
    have hcv : ∀ j, c j = ∑ p, ‖o (-yv j) (-xv j) p - (o dy dx p + (n ω p : ℂ))‖ ^ 2 / s ^ 2 := by
      intro j
      rw [hc]
      simp only [prep_false_real]
      unfold Spec.resid
      have sw := resid_swap_real im1 (fun p => g p + n ω p) (-yv j) (-xv j)
      rw [neg_neg, neg_neg] at sw
      rw [← Finset.sum_div, sw, Finset.sum_div, shift2d_cplx (ho (-yv j) (-xv j))]
      refine Finset.sum_congr rfl fun p _ => ?_
      rw [hg]
      push_cast
      rfl
    have hct : c i = ∑ p, ‖o dy dx p - (o dy dx p + (n ω p : ℂ))‖ ^ 2 / s ^ 2 := by
      rw [hcv, hx, hy, neg_neg, neg_neg]
    have hbig : Spec.oneSigma st ≤ c i - c (Np.argmin c) := by
      by_contra hlt
      apply hmiss
      have h := covered st hst u' hu0 _ _ xv yv c hyv hxv er her i (not_le.1 hlt)
      rw [hx, hy, neg_neg, neg_neg] at h
      rw [← h1, ← h2, ← h3, ← h4]
      exact h
    have hgap := gap_cplx (o (-yv (Np.argmin c)) (-xv (Np.argmin c))) (o dy dx) (n ω) s
    rw [← hcv, ← hct] at hgap
    simp only [Set.mem_iUnion]
    refine ⟨(-yv (Np.argmin c), -xv (Np.argmin c)), Finset.mem_filter.2 ⟨?_, ?_⟩, ?_⟩
    · have hu' : u' = (u : ℝ) := huu
      simp only [Spec.gridSize] at hgs
      have e1 : s1 = if ny ≤ u then 2 * u else ny := by split_ifs at hgs ⊢ <;> exact (Prod.mk.inj hgs).1
      have e2 : s2 = if ny ≤ u then 2 * u else nx := by split_ifs at hgs ⊢ <;> exact (Prod.mk.inj hgs).2
      unfold Spec.searched
      rw [← e1, ← e2, Finset.mem_product]
      refine ⟨Finset.mem_image.2 ⟨((Np.argmin cm.chi2).1, (Np.argmin c).1), Finset.mem_univ _, ?_⟩,
        Finset.mem_image.2 ⟨((Np.argmin cm.chi2).2, (Np.argmin c).2), Finset.mem_univ _, ?_⟩⟩
      · rw [hyv, hu']; rfl
      · rw [hxv, hu']; rfl
    · have hpos := sigma_pos st hst
      by_contra hle
      have h0 : Spec.mismatch (o (-yv (Np.argmin c)) (-xv (Np.argmin c))) (o dy dx) s = 0 :=
        le_antisymm (not_lt.1 hle) (Finset.sum_nonneg fun p _ => by positivity)
      have hz : ∀ p, (o (-yv (Np.argmin c)) (-xv (Np.argmin c)) p - o dy dx p).re / s ^ 2 = 0 := by
        intro p
        have h1 := (Finset.sum_eq_zero_iff_of_nonneg (fun p _ => by positivity)).1 h0 p (Finset.mem_univ p)
        rcases div_eq_zero_iff.1 h1 with h2 | h2
        · rw [pow_eq_zero_iff two_ne_zero, norm_eq_zero] at h2
          rw [h2]; simp
        · rw [h2, div_zero]
      simp only [hz, mul_zero, Finset.sum_const_zero, h0] at hgap
      rw [sigma_one] at hpos
      linarith
    · simp only [Set.mem_ofPred_eq]
      linarith
  refine (measureReal_mono hsub (measure_ne_top _ _)).trans ((measureReal_biUnion_finset_le _ _).trans ?_)
  exact Finset.sum_le_sum fun e he => hF e (Finset.mem_filter.1 he).1 (Finset.mem_filter.1 he).2

omit [NeZero ny] [NeZero nx] in
/-- variance of the linear form in the noise, against the mismatch -/
theorem mismatch_var (a b : Fin ny × Fin nx → ℂ) (s κ : ℝ) (hs : s ≠ 0) (hκ : 0 ≤ κ) (v : Fin ny × Fin nx → ℝ) (hv : ∀ p, v p ≤ κ * s ^ 2) :
    ∑ p, v p * ((a p - b p).re / s ^ 2) ^ 2 ≤ κ * Spec.mismatch a b s := by
  unfold Spec.mismatch
  rw [Finset.mul_sum]
  refine Finset.sum_le_sum fun p _ => ?_
  refine (mul_le_mul_of_nonneg_right (hv p) (sq_nonneg _)).trans ?_
  have h1 : (a p - b p).re ^ 2 ≤ ‖a p - b p‖ ^ 2 := by
    rw [← Complex.normSq_eq_norm_sq, Complex.normSq_apply]
    nlinarith [mul_self_nonneg (a p - b p).im]
  have h2 : κ * s ^ 2 * ((a p - b p).re / s ^ 2) ^ 2 = κ * ((a p - b p).re ^ 2 / s ^ 2) := by field_simp
  rw [h2]
  exact mul_le_mul_of_nonneg_left (div_le_div_of_nonneg_right h1 (sq_nonneg _)) hκ

/-- C137: how often the error bars miss, for uncorrelated noise. The second image is the first, shifted by `(dy, dx)` (any real numbers for
which the Fourier shift is a real image `g`), plus random noise whose pixels are uncorrelated, with second moments at most `κ s²` where `s`
is the error passed to `chi2_shift`. Write `D_e` for the squared difference, in units of `s`, between the first image shifted by `e` and
shifted by `(dy, dx)`, and `T` for the one-sigma threshold. Then the probability that `(dy, dx)` is a point of the zoomed grid and still lies
outside twice the reported error bars is at most the sum of `4κD_e/(D_e+T)²` over the displacements `e` the grid can hold, apart from those
that leave the image equal (`D_e = 0`). -/
theorem C137_coverage (cfg cfg' : FFTConfig) (st : Stats) (hst : Spec.validStats st) [IsFiniteMeasure μ]
    (im1 g : Fin ny × Fin nx → ℝ) (n : Ω → Fin ny × Fin nx → ℝ)
    (o : ℝ → ℝ → Fin ny × Fin nx → ℂ)
    (ho : ∀ dy dx, shift2d cfg' (rArr im1) dx dy 0 false false = .cplx (cArr (o dy dx)))
    (dy dx : ℝ) (hg : ∀ p, o dy dx p = (g p : ℂ))
    (err : ErrArg ny nx) (s : ℝ) (hs : s ≠ 0) (herr : Spec.isScalarErr err s)
    (τ : Fin ny × Fin nx → ℝ) (κ : ℝ) (hκ : 0 ≤ κ) (hτ : ∀ p, τ p ^ 2 ≤ κ * s ^ 2)
    (hint : ∀ p q, Integrable (fun ω => n ω p * n ω q) μ)
    (hcov : ∀ p q, ∫ ω, n ω p * n ω q ∂μ = if p = q then τ p ^ 2 else 0)
    (u : ℕ) (hu : 0 < u) (nf : ℝ) (mas : ℕ) (mns : ℝ) (ah : Bool) (hf : Spec.fits ah ny nx) :
    μ.real {ω | ∃ (rx ry ex ey : ℝ) (s1 s2 : ℕ) (xv yv c : Fin s1 × Fin s2 → ℝ),
        chi2Shift cfg st (realArr im1) (realArr fun p => g p + n ω p) err (.int u) false nf false true true mas mns ah
          = .ok [.num rx, .num ry, .num ex, .num ey, .arrays s1 s2 xv yv c] ∧
        (∃ i, xv i = -dx ∧ yv i = -dy) ∧ ¬ (|rx - dx| ≤ 2 * ex ∧ |ry - dy| ≤ 2 * ey)}
      ≤ ∑ e ∈ (Spec.searched ny nx u).filter fun e => 0 < Spec.mismatch (o e.1 e.2) (o dy dx) s,
        4 * κ * Spec.mismatch (o e.1 e.2) (o dy dx) s / (Spec.mismatch (o e.1 e.2) (o dy dx) s + Spec.oneSigma st) ^ 2 := by
  refine miss_le μ cfg cfg' st hst im1 g n o ho dy dx hg err s herr u hu nf mas mns ah hf _ fun e _ hD => ?_
  have hT := sigma_pos st hst
  rw [sigma_one] at hT
  refine (lin_cheb μ n τ _ hint hcov _ _ (by linarith) (mismatch_var (o e.1 e.2) (o dy dx) s κ hs hκ _ hτ)).trans (le_of_eq ?_)
  rw [mul_assoc]

/-- C137 for independent sub-Gaussian noise: the bound is the sum of `exp(-(D_e+T)²/(8κD_e))`. -/
theorem C137_coverage_exp (cfg cfg' : FFTConfig) (st : Stats) (hst : Spec.validStats st) [IsProbabilityMeasure μ]
    (im1 g : Fin ny × Fin nx → ℝ) (n : Ω → Fin ny × Fin nx → ℝ)
    (o : ℝ → ℝ → Fin ny × Fin nx → ℂ)
    (ho : ∀ dy dx, shift2d cfg' (rArr im1) dx dy 0 false false = .cplx (cArr (o dy dx)))
    (dy dx : ℝ) (hg : ∀ p, o dy dx p = (g p : ℂ))
    (err : ErrArg ny nx) (s : ℝ) (hs : s ≠ 0) (herr : Spec.isScalarErr err s)
    (v : Fin ny × Fin nx → NNReal) (κ : ℝ) (hκ : 0 < κ) (hv : ∀ p, (v p : ℝ) ≤ κ * s ^ 2)
    (hind : ProbabilityTheory.iIndepFun (fun p ω => n ω p) μ)
    (hsub : ∀ p, ProbabilityTheory.HasSubgaussianMGF (fun ω => n ω p) (v p) μ)
    (u : ℕ) (hu : 0 < u) (nf : ℝ) (mas : ℕ) (mns : ℝ) (ah : Bool) (hf : Spec.fits ah ny nx) :
    μ.real {ω | ∃ (rx ry ex ey : ℝ) (s1 s2 : ℕ) (xv yv c : Fin s1 × Fin s2 → ℝ),
        chi2Shift cfg st (realArr im1) (realArr fun p => g p + n ω p) err (.int u) false nf false true true mas mns ah
          = .ok [.num rx, .num ry, .num ex, .num ey, .arrays s1 s2 xv yv c] ∧
        (∃ i, xv i = -dx ∧ yv i = -dy) ∧ ¬ (|rx - dx| ≤ 2 * ex ∧ |ry - dy| ≤ 2 * ey)}
      ≤ ∑ e ∈ (Spec.searched ny nx u).filter fun e => 0 < Spec.mismatch (o e.1 e.2) (o dy dx) s,
        Real.exp (-((Spec.mismatch (o e.1 e.2) (o dy dx) s + Spec.oneSigma st) ^ 2
          / (8 * (κ * Spec.mismatch (o e.1 e.2) (o dy dx) s)))) := by
  refine miss_le μ cfg cfg' st hst im1 g n o ho dy dx hg err s herr u hu nf mas mns ah hf _ fun e _ hD => ?_
  have hT := sigma_pos st hst
  rw [sigma_one] at hT
  exact lin_tail_at μ n v hind hsub _ _ _ (by linarith) (by positivity) (mismatch_var (o e.1 e.2) (o dy dx) s κ hs hκ.le _ hv)

/-- C137 for Gaussian noise: independent pixels, mean zero, variance at most `κ` times the square of the error. -/
theorem C137_coverage_gaussian (cfg cfg' : FFTConfig) (st : Stats) (hst : Spec.validStats st) [IsProbabilityMeasure μ]
    (im1 g : Fin ny × Fin nx → ℝ) (n : Ω → Fin ny × Fin nx → ℝ)
    (o : ℝ → ℝ → Fin ny × Fin nx → ℂ)
    (ho : ∀ dy dx, shift2d cfg' (rArr im1) dx dy 0 false false = .cplx (cArr (o dy dx)))
    (dy dx : ℝ) (hg : ∀ p, o dy dx p = (g p : ℂ))
    (err : ErrArg ny nx) (s : ℝ) (hs : s ≠ 0) (herr : Spec.isScalarErr err s)
    (v : Fin ny × Fin nx → NNReal) (κ : ℝ) (hκ : 0 < κ) (hv : ∀ p, (v p : ℝ) ≤ κ * s ^ 2)
    (hind : ProbabilityTheory.iIndepFun (fun p ω => n ω p) μ)
    (hgauss : ∀ p, μ.map (fun ω => n ω p) = ProbabilityTheory.gaussianReal 0 (v p))
    (u : ℕ) (hu : 0 < u) (nf : ℝ) (mas : ℕ) (mns : ℝ) (ah : Bool) (hf : Spec.fits ah ny nx) :
    μ.real {ω | ∃ (rx ry ex ey : ℝ) (s1 s2 : ℕ) (xv yv c : Fin s1 × Fin s2 → ℝ),
        chi2Shift cfg st (realArr im1) (realArr fun p => g p + n ω p) err (.int u) false nf false true true mas mns ah
          = .ok [.num rx, .num ry, .num ex, .num ey, .arrays s1 s2 xv yv c] ∧
        (∃ i, xv i = -dx ∧ yv i = -dy) ∧ ¬ (|rx - dx| ≤ 2 * ex ∧ |ry - dy| ≤ 2 * ey)}
      ≤ ∑ e ∈ (Spec.searched ny nx u).filter fun e => 0 < Spec.mismatch (o e.1 e.2) (o dy dx) s,
        Real.exp (-((Spec.mismatch (o e.1 e.2) (o dy dx) s + Spec.oneSigma st) ^ 2
          / (8 * (κ * Spec.mismatch (o e.1 e.2) (o dy dx) s)))) :=
  C137_coverage_exp μ cfg cfg' st hst im1 g n o ho dy dx hg err s hs herr v κ hκ hv hind (fun p => gauss_sub μ _ _ (hgauss p)) u hu nf mas
    mns ah hf

end

/-! ### Examples -/

theorem shift2d_cshift {ny nx : ℕ} [NeZero ny] [NeZero nx] (cfg : FFTConfig) (im : Fin ny × Fin nx → ℝ) (dx dy : ℝ) :
    shift2d cfg (rArr im) dx dy 0 false false = .cplx (cArr (cshift dy dx im)) := by
  rw [shift2d_eq, denan_rArr]
  simp only [shiftKernel_zero]
  rw [shiftReturn_cplx]
  rfl

theorem searched_int (e : ℝ × ℝ) (h : e ∈ Spec.searched 4 5 1) : ∃ a b : ℤ, e = ((a : ℝ), (b : ℝ)) := by
  unfold Spec.searched Spec.searchedAxis at h
  rw [Finset.mem_product] at h
  obtain ⟨h1, h2⟩ := h
  simp only [Finset.mem_image, Finset.mem_univ, true_and] at h1 h2
  obtain ⟨⟨q1, i1⟩, h1⟩ := h1
  obtain ⟨⟨q2, i2⟩, h2⟩ := h2
  refine ⟨-(((q1 : ℕ) : ℤ) - 2 + ((i1 : ℕ) : ℤ)), -(((q2 : ℕ) : ℤ) - 4 + ((i2 : ℕ) : ℤ)), Prod.ext ?_ ?_⟩
  · rw [← h1]; push_cast; norm_num; ring
  · rw [← h2]; push_cast; norm_num; ring

theorem searched_card : (Spec.searched 4 5 1).card ≤ 400 := by
  unfold Spec.searched
  rw [Finset.card_product]
  have h1 : (Spec.searchedAxis 4 (if 4 ≤ 1 then 2 * 1 else 4) 1).card ≤ 16 :=
    Finset.card_image_le.trans (by simp)
  have h2 : (Spec.searchedAxis 5 (if 4 ≤ 1 then 2 * 1 else 5) 1).card ≤ 25 :=
    Finset.card_image_le.trans (by simp)
  exact (Nat.mul_le_mul h1 h2).trans (by norm_num)

theorem bright_mismatch (k s : ℝ) (dy dx a b : ℤ) (h : 0 < Spec.mismatch (cshift (a : ℝ) (b : ℝ) (bright k)) (cshift (dy : ℝ) (dx : ℝ) (bright k)) s) :
    Spec.mismatch (cshift (a : ℝ) (b : ℝ) (bright k)) (cshift (dy : ℝ) (dx : ℝ) (bright k)) s = 2 * k ^ 2 / s ^ 2 := by
  have e : Spec.mismatch (cshift (a : ℝ) (b : ℝ) (bright k)) (cshift (dy : ℝ) (dx : ℝ) (bright k)) s
      = Spec.contrast (bright k) (fun _ => s) dy dx ((Spec.wrap 4 a : Fin 4) : ℕ) ((Spec.wrap 5 b : Fin 5) : ℕ) := by
    unfold Spec.mismatch Spec.contrast
    refine Finset.sum_congr rfl fun p _ => ?_
    rw [cshift_int, cshift_int, roll2_congr (Spec.wrap_modEq 4 a) (Spec.wrap_modEq 5 b), ← Complex.ofReal_sub, Complex.norm_real,
      Real.norm_eq_abs, sq_abs]
  rw [e] at h ⊢
  by_cases hm : (Spec.wrap 4 a, Spec.wrap 5 b) ∈ Spec.others 4 5 dy dx
  · exact bright_contrast k s dy dx (Spec.wrap 4 a, Spec.wrap 5 b) hm
  · exfalso
    simp only [Spec.others, Finset.mem_filter, Finset.mem_univ, true_and, not_not] at hm
    refine h.ne' ?_
    unfold Spec.contrast
    rw [roll2_congr hm.1 hm.2]
    simp

/-- C137_coverage_gaussian (and through it C137_coverage_exp): a pixel of height 20 in Gaussian noise of standard deviation 1, whole-pixel
displacement. -/
example (cfg : FFTConfig) (dy dx : ℤ) :
    (gaussNoise 4 5 1).real {ω | ∃ (rx ry ex ey : ℝ) (s1 s2 : ℕ) (xv yv c : Fin s1 × Fin s2 → ℝ),
        chi2Shift cfg none (realArr (bright 20)) (realArr fun p => Spec.roll2 dy dx (bright 20) p + ω p) .none (.int 1) false 0 false true true
          5 1 true = .ok [.num rx, .num ry, .num ex, .num ey, .arrays s1 s2 xv yv c] ∧
        (∃ i, xv i = -(dx : ℝ) ∧ yv i = -(dy : ℝ)) ∧ ¬ (|rx - dx| ≤ 2 * ex ∧ |ry - dy| ≤ 2 * ey)} ≤ 400 * Real.exp (-100) := by
  refine (C137_coverage_gaussian (gaussNoise 4 5 1) cfg cfg none trivial (bright 20) (Spec.roll2 dy dx (bright 20)) (fun ω => ω)
    (fun a b => cshift a b (bright 20)) (fun a b => shift2d_cshift cfg _ b a) dy dx (fun p => cshift_int dy dx _ p) .none 1 one_ne_zero rfl
    (fun _ => 1) 1 one_pos (by simp) (gaussNoise_indep 4 5 1) (fun p => (gaussNoise_map 4 5 1 p).map_eq) 1 one_pos 0 5 1 true
    (.inl rfl)).trans ?_
  have hle : ∀ e ∈ (Spec.searched 4 5 1).filter fun e => 0 < Spec.mismatch (cshift e.1 e.2 (bright 20)) (cshift (dy : ℝ) (dx : ℝ) (bright 20)) 1,
      Real.exp (-((Spec.mismatch (cshift e.1 e.2 (bright 20)) (cshift (dy : ℝ) (dx : ℝ) (bright 20)) 1 + Spec.oneSigma none) ^ 2
          / (8 * (1 * Spec.mismatch (cshift e.1 e.2 (bright 20)) (cshift (dy : ℝ) (dx : ℝ) (bright 20)) 1)))) ≤ Real.exp (-100) := by
    intro e he
    obtain ⟨h1, h2⟩ := Finset.mem_filter.1 he
    obtain ⟨a, b, rfl⟩ := searched_int e h1
    rw [bright_mismatch 20 1 dy dx a b h2]
    have hT := sigma_pos none trivial
    rw [sigma_one] at hT
    refine Real.exp_le_exp.2 (neg_le_neg ?_)
    rw [le_div_iff₀ (by norm_num)]
    norm_num
    nlinarith
  refine (Finset.sum_le_sum hle).trans ?_
  rw [Finset.sum_const, nsmul_eq_mul]
  have hc : (((Spec.searched 4 5 1).filter fun e => 0 < Spec.mismatch (cshift e.1 e.2 (bright 20)) (cshift (dy : ℝ) (dx : ℝ) (bright 20)) 1).card : ℝ)
      ≤ 400 := by exact_mod_cast (Finset.card_filter_le _ _).trans searched_card
  exact mul_le_mul_of_nonneg_right hc (Real.exp_pos _).le

/-- C137_coverage: the same image with uncorrelated noise of finite variance: at most 400 · 4 · 800/(800+T)² ≤ 2 (a bound that becomes useful
for brighter pixels; here height 100, probability at most 1/10). -/
example (cfg : FFTConfig) (dy dx : ℤ) :
    (gaussNoise 4 5 1).real {ω | ∃ (rx ry ex ey : ℝ) (s1 s2 : ℕ) (xv yv c : Fin s1 × Fin s2 → ℝ),
        chi2Shift cfg none (realArr (bright 100)) (realArr fun p => Spec.roll2 dy dx (bright 100) p + ω p) .none (.int 1) false 0 false true true
          5 1 true = .ok [.num rx, .num ry, .num ex, .num ey, .arrays s1 s2 xv yv c] ∧
        (∃ i, xv i = -(dx : ℝ) ∧ yv i = -(dy : ℝ)) ∧ ¬ (|rx - dx| ≤ 2 * ex ∧ |ry - dy| ≤ 2 * ey)} ≤ 1 / 10 := by
  refine (C137_coverage (gaussNoise 4 5 1) cfg cfg none trivial (bright 100) (Spec.roll2 dy dx (bright 100)) (fun ω => ω)
    (fun a b => cshift a b (bright 100)) (fun a b => shift2d_cshift cfg _ b a) dy dx (fun p => cshift_int dy dx _ p) .none 1 one_ne_zero rfl
    (fun _ => Real.sqrt (1 : NNReal)) 1 zero_le_one (by simp)
    (fun p q => (gaussNoise_memLp 4 5 1 p).integrable_mul (gaussNoise_memLp 4 5 1 q)) (gaussNoise_cov 4 5 1) 1 one_pos 0 5 1 true
    (.inl rfl)).trans ?_
  have hle : ∀ e ∈ (Spec.searched 4 5 1).filter fun e => 0 < Spec.mismatch (cshift e.1 e.2 (bright 100)) (cshift (dy : ℝ) (dx : ℝ) (bright 100)) 1,
      4 * 1 * Spec.mismatch (cshift e.1 e.2 (bright 100)) (cshift (dy : ℝ) (dx : ℝ) (bright 100)) 1
        / (Spec.mismatch (cshift e.1 e.2 (bright 100)) (cshift (dy : ℝ) (dx : ℝ) (bright 100)) 1 + Spec.oneSigma none) ^ 2 ≤ 1 / 4000 := by
    intro e he
    obtain ⟨h1, h2⟩ := Finset.mem_filter.1 he
    obtain ⟨a, b, rfl⟩ := searched_int e h1
    rw [bright_mismatch 100 1 dy dx a b h2]
    have hT := sigma_pos none trivial
    rw [sigma_one] at hT
    rw [div_le_div_iff₀ (by positivity) (by norm_num)]
    norm_num
    nlinarith
  refine (Finset.sum_le_sum hle).trans ?_
  rw [Finset.sum_const, nsmul_eq_mul]
  have hc : (((Spec.searched 4 5 1).filter fun e => 0 < Spec.mismatch (cshift e.1 e.2 (bright 100)) (cshift (dy : ℝ) (dx : ℝ) (bright 100)) 1).card : ℝ)
      ≤ 400 := by exact_mod_cast (Finset.card_filter_le _ _).trans searched_card
  linarith

/-- C137_small_noise, C137_region: the bright pixel moved down one row with a disturbance of 1 in one pixel. -/
example (cfg : FFTConfig) :
    ∃ (rx ry ex ey : ℝ) (s1 s2 : ℕ) (xv yv c : Fin s1 × Fin s2 → ℝ),
      chi2Shift cfg none (realArr (bright 20)) (realArr fun p => Spec.roll2 1 0 (bright 20) p + if p = (2, 2) then 1 else 0) .none (.int 1) false 0
        false true true 5 1 true = .ok [.num rx, .num ry, .num ex, .num ey, .arrays s1 s2 xv yv c] ∧
      ((∃ i, xv i = -0 ∧ yv i = -1) → |rx - 0| ≤ 2 * ex ∧ |ry - 1| ≤ 2 * ey) := by
  refine C137_small_noise cfg cfg none trivial (bright 20) _ 1 0 (fun p => (Spec.roll2 1 0 (bright 20) p : ℝ)) ?_ .none 1 rfl ?_ (.int 1) 0 5 1 true
    (.inl rfl) one_pos
  · have h := shift2d_cshift cfg (bright 20) ((0 : ℤ) : ℝ) ((1 : ℤ) : ℝ)
    have e : cshift ((1 : ℤ) : ℝ) ((0 : ℤ) : ℝ) (bright 20) = fun p => ((Spec.roll2 1 0 (bright 20) p : ℝ) : ℂ) :=
      funext fun p => cshift_int 1 0 _ p
    rw [e] at h
    simpa using h
  · have : ∀ p : Fin 4 × Fin 5, ‖((Spec.roll2 1 0 (bright 20) p + if p = (2, 2) then 1 else 0 : ℝ) : ℂ) - (Spec.roll2 1 0 (bright 20) p : ℝ)‖ ^ 2
        / (1 : ℝ) ^ 2 = if p = (2, 2) then 1 else 0 := by
      intro p
      rw [← Complex.ofReal_sub, Complex.norm_real, add_sub_cancel_left]
      split_ifs <;> simp
    rw [Finset.sum_congr rfl fun p _ => this p]
    simp only [Finset.sum_ite_eq', Finset.mem_univ, if_true, Spec.oneSigma]
    norm_num

end ImgReg
