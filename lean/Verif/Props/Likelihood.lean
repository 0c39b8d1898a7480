import Verif.Props.Coverage
import Verif.Props.Optimal

/-!
# The map of `chi2_shift` as a likelihood (C138)
-/

open Complex Finset ProbabilityTheory

namespace ImgReg

namespace Spec

/-- the likelihood of an observed image when its pixels are independent normal variables with the pixels of `model` as means and standard
deviation `s` -/
noncomputable def likelihood {ny nx : ℕ} (model : Fin ny × Fin nx → ℝ) (s : ℝ) (observed : Fin ny × Fin nx → ℝ) : ℝ :=
  ∏ p, gaussianPDFReal (model p) (s ^ 2).toNNReal (observed p)

end Spec

section
variable {ny nx : ℕ} [NeZero ny] [NeZero nx]

omit [NeZero ny] [NeZero nx] in
theorem likelihood_pos (a b : Fin ny × Fin nx → ℝ) (s : ℝ) (hs : s ≠ 0) : 0 < Spec.likelihood a s b :=
  Finset.prod_pos fun p _ => gaussianPDFReal_pos _ _ _ (by simpa [Real.toNNReal_eq_zero] using hs)

omit [NeZero ny] [NeZero nx] in
theorem log_likelihood (a b : Fin ny × Fin nx → ℝ) (s : ℝ) (hs : s ≠ 0) :
    Real.log (Spec.likelihood b s b) - Real.log (Spec.likelihood a s b) = (∑ p, (a p - b p) ^ 2 / s ^ 2) / 2 := by
  have key : ∀ a : Fin ny × Fin nx → ℝ, Spec.likelihood a s b
      = (∏ _p : Fin ny × Fin nx, (Real.sqrt (2 * Real.pi * s ^ 2))⁻¹) * Real.exp (-(∑ p, (a p - b p) ^ 2 / s ^ 2) / 2) := by
    intro a
    unfold Spec.likelihood gaussianPDFReal
    simp only [Real.coe_toNNReal _ (sq_nonneg _)]
    rw [Finset.prod_mul_distrib, ← Real.exp_sum]
    congr 2
    rw [← Finset.sum_neg_distrib, Finset.sum_div]
    refine Finset.sum_congr rfl fun p _ => ?_
    have : s ^ 2 ≠ 0 := pow_ne_zero 2 hs
    field_simp
    ring
  have hpos : 0 < ∏ _p : Fin ny × Fin nx, (Real.sqrt (2 * Real.pi * s ^ 2))⁻¹ :=
    Finset.prod_pos fun p _ => by have := sq_pos_of_ne_zero hs; positivity
  rw [key, key, Real.log_mul hpos.ne' (Real.exp_ne_zero _), Real.log_mul hpos.ne' (Real.exp_ne_zero _), Real.log_exp, Real.log_exp]
  simp only [sub_self]
  simp
  ring

/-- the shifted image of odd size is real -/
theorem cshift_real (oy : Odd ny) (ox : Odd nx) (x : Fin ny × Fin nx → ℝ) (dy dx : ℝ) (p : Fin ny × Fin nx) : (cshift dy dx x p).im = 0 := by
  have h := filt_real (fun k : Fin ny × Fin nx => ex (-freq2 dx dy k)) x (fun k => by rw [freq2_neg _ _ _ oy ox, neg_neg, ← conj_ex]; simp) p
  have : ((cshift dy dx x p).re : ℂ) = cshift dy dx x p := h
  rw [← this]
  exact Complex.ofReal_im _

/-- C138: the returned chi-squared map is a log-likelihood. Scalar errors, any `upsample_factor`: at every grid point the value is twice the
amount by which the log-likelihood of the second image falls short of a perfect match, when its pixels are independent normal variables
with standard deviation `s` around the first image shifted (real part, what `shift2d` returns by default) by the displacement of the grid
point, plus the energy of the imaginary part that `shift2d` drops, in units of the error. -/
theorem C138_likelihood_map (cfg cfg' : FFTConfig) (st : Stats) (hst : Spec.validStats st)
    (im1 im2 : Fin ny × Fin nx → ℝ) (err : ErrArg ny nx) (s : ℝ) (hs : s ≠ 0) (herr : Spec.isScalarErr err s)
    (us : UsFactor) (nf : ℝ) (mas : ℕ) (mns : ℝ) (ah : Bool) (hf : Spec.fits ah ny nx) (hus : Spec.validUs ny mas us) :
    ∃ (rx ry ex ey : ℝ) (s1 s2 : ℕ) (xv yv c : Fin s1 × Fin s2 → ℝ) (re im : Fin s1 × Fin s2 → Fin ny × Fin nx → ℝ),
      chi2Shift cfg st (realArr im1) (realArr im2) err us false nf false true true mas mns ah
        = .ok [.num rx, .num ry, .num ex, .num ey, .arrays s1 s2 xv yv c] ∧
      (∀ i, shift2d cfg' (rArr im1) (-xv i) (-yv i) 0 false true = .real (realArr (re i)) ∧
        shift2d cfg' (rArr im1) (-xv i) (-yv i) 0 false false = .cplx (cArr fun p => (re i p : ℂ) + im i p * I)) ∧
      ∀ i, c i = 2 * (Real.log (Spec.likelihood im2 s im2) - Real.log (Spec.likelihood (re i) s im2)) + (∑ p, im i p ^ 2) / s ^ 2 := by
  obtain ⟨cm, hcm, hchi, s1, s2, i1, i2, hg, u, huu, hu0, yv, xv, hyv, hxv, c, hc, er, her, hres⟩ :=
    chi2Shift_scalar cfg st hst (realArr im1) (realArr im2) err s herr us false nf mas mns ah hf hus
  refine ⟨_, _, _, _, s1, s2, xv, yv, c, fun i p => (cshift (-yv i) (-xv i) im1 p).re, fun i p => (cshift (-yv i) (-xv i) im1 p).im,
    (hres true true).trans rfl, fun i => ⟨?_, ?_⟩, fun i => ?_⟩
  · rw [shift2d_eq, denan_rArr]
    simp only [shiftKernel_zero]
    rw [shiftReturn_real]
    rfl
  · rw [shift2d_cshift]
    congr 2
    funext p
    rw [Complex.re_add_im]
  · rw [log_likelihood _ _ _ hs, hc]
    simp only [prep_false_real]
    unfold Spec.resid
    have sw := resid_swap_real im1 im2 (-yv i) (-xv i)
    rw [neg_neg, neg_neg] at sw
    rw [← Finset.sum_div, sw, Finset.sum_div, mul_div_cancel₀ _ two_ne_zero, Finset.sum_div, ← Finset.sum_add_distrib]
    refine Finset.sum_congr rfl fun p _ => ?_
    rw [← Complex.normSq_eq_norm_sq, Complex.normSq_apply]
    simp only [Complex.sub_re, Complex.sub_im, Complex.ofReal_re, Complex.ofReal_im]
    ring

/-- C138, odd image sizes: the returned shift is a maximum-likelihood estimate among the displacements of the grid, and every displacement of
the grid whose log-likelihood is within half the one-sigma threshold of the best lies within twice the reported errors of it. -/
theorem C138_maximum_likelihood (cfg cfg' : FFTConfig) (st : Stats) (hst : Spec.validStats st) (oy : Odd ny) (ox : Odd nx)
    (im1 im2 : Fin ny × Fin nx → ℝ) (err : ErrArg ny nx) (s : ℝ) (hs : s ≠ 0) (herr : Spec.isScalarErr err s)
    (us : UsFactor) (nf : ℝ) (mas : ℕ) (mns : ℝ) (ah : Bool) (hf : Spec.fits ah ny nx) (hus : Spec.validUs ny mas us) :
    ∃ (rx ry ex ey : ℝ) (s1 s2 : ℕ) (xv yv c : Fin s1 × Fin s2 → ℝ) (re : Fin s1 × Fin s2 → Fin ny × Fin nx → ℝ) (best : Fin s1 × Fin s2),
      chi2Shift cfg st (realArr im1) (realArr im2) err us false nf false true true mas mns ah
        = .ok [.num rx, .num ry, .num ex, .num ey, .arrays s1 s2 xv yv c] ∧
      (∀ i, shift2d cfg' (rArr im1) (-xv i) (-yv i) 0 false true = .real (realArr (re i))) ∧
      rx = -xv best ∧ ry = -yv best ∧
      (∀ i, Spec.likelihood (re i) s im2 ≤ Spec.likelihood (re best) s im2) ∧
      ∀ i, Real.log (Spec.likelihood (re best) s im2) - Real.log (Spec.likelihood (re i) s im2) < Spec.oneSigma st / 2 →
        |rx - -xv i| ≤ 2 * ex ∧ |ry - -yv i| ≤ 2 * ey := by
  obtain ⟨rx, ry, ex, ey, s1, s2, xv, yv, c, re, im, hrun, hsh, hc⟩ :=
    C138_likelihood_map cfg cfg' st hst im1 im2 err s hs herr us nf mas mns ah hf hus
  obtain ⟨rx', ry', ex', ey', s1', s2', xv', yv', c', best, hrun', hrx, hry, hmin, hreg⟩ :=
    C137_region cfg st hst (realArr im1) (realArr im2) err us false nf mas mns ah hf hus
  have h := hrun.symm.trans hrun'
  injection h with h
  simp only [List.cons.injEq, RetVal.num.injEq, RetVal.arrays.injEq, and_true] at h
  obtain ⟨rfl, rfl, rfl, rfl, rfl, rfl, h567⟩ := h
  obtain ⟨rfl, rfl, rfl⟩ := by simpa using h567
  have him : ∀ i p, im i p = 0 := by
    intro i p
    have h1 := shift2d_cplx (hsh i).2
    have h2 := congrArg Complex.im (congrFun h1 p)
    rw [cshift_real oy ox] at h2
    simpa using h2
  have hc' : ∀ i, c i = 2 * (Real.log (Spec.likelihood im2 s im2) - Real.log (Spec.likelihood (re i) s im2)) := by
    intro i
    rw [hc]
    simp [him]
  refine ⟨rx, ry, ex, ey, s1, s2, xv, yv, c, re, best, hrun, fun i => (hsh i).1, hrx, hry, fun i => ?_, fun i hi => hreg i ?_⟩
  · have := hmin i
    rw [hc', hc'] at this
    exact (Real.log_le_log_iff (likelihood_pos _ _ _ hs) (likelihood_pos _ _ _ hs)).1 (by linarith)
  · rw [hc', hc']
    linarith

end

/-- C138: a 3×5 image and the default automatic factor meet the hypotheses -/
example (cfg : FFTConfig) (im1 im2 : Fin 3 × Fin 5 → ℝ) :
    ∃ (rx ry ex ey : ℝ) (s1 s2 : ℕ) (xv yv c : Fin s1 × Fin s2 → ℝ) (re : Fin s1 × Fin s2 → Fin 3 × Fin 5 → ℝ) (best : Fin s1 × Fin s2),
      chi2Shift cfg none (realArr im1) (realArr im2) (.scalar (1 / 2)) .auto false 0 false true true 512 1 true
        = .ok [.num rx, .num ry, .num ex, .num ey, .arrays s1 s2 xv yv c] ∧
      rx = -xv best ∧ ry = -yv best ∧ ∀ i, Spec.likelihood (re i) (1 / 2) im2 ≤ Spec.likelihood (re best) (1 / 2) im2 := by
  obtain ⟨rx, ry, ex, ey, s1, s2, xv, yv, c, re, best, h, -, h1, h2, h3, -⟩ := C138_maximum_likelihood cfg cfg none trivial
    ⟨1, rfl⟩ ⟨2, rfl⟩ im1 im2 (.scalar (1 / 2)) (1 / 2) (by norm_num) rfl .auto 0 512 1 true (.inl rfl) (by norm_num [Spec.validUs])
  exact ⟨rx, ry, ex, ey, s1, s2, xv, yv, c, re, best, h, h1, h2, h3⟩

/-- an image of two rows, `1` and `-1` -/
def twoRows : Fin 2 × Fin 3 → ℝ := fun p => if p.1 = 0 then 1 else -1

theorem twoRows_shift (dy dx : ℝ) (p : Fin 2 × Fin 3) : cshift dy dx twoRows p = ex (dy / 2) * (twoRows p : ℂ) := by
  have hx : (fun i : Fin 2 × Fin 3 => (twoRows i : ℂ)) = fun i => e ((1 : Fin 2), (0 : Fin 3)) i := by
    funext i
    rw [e_prod]
    have h2 : ex (1 / 2) = -1 := by
      unfold ex
      rw [show (2 * (Real.pi : ℂ) * I * ((1 / 2 : ℝ) : ℂ)) = Real.pi * I by push_cast; ring]
      exact Complex.exp_pi_mul_I
    have h0 : e (0 : Fin 3) i.2 = 1 := e_zero_left _
    rw [h0, e_fin]
    obtain ⟨a, b⟩ := i
    fin_cases a
    · simp [twoRows]
    · simpa [twoRows] using h2.symm
  unfold cshift
  rw [hx, filt_char]
  have hf : freq2 dx dy ((1 : Fin 2), (0 : Fin 3)) = -(dy / 2) := by
    unfold freq2
    rw [Np.fftfreq_eq, Np.fftfreq_eq, Np.fftfreqInt_eq _ _ (Fin.isLt _), Np.fftfreqInt_eq _ _ (Fin.isLt _)]
    norm_num
    ring
  rw [hf, neg_neg]
  exact congrArg _ (congrFun hx p).symm

/-- C138, the odd size is needed: for a 2×3 image of alternating rows and its half-bright copy, the shift that `chi2_shift` returns with
`upsample_factor=3` is not a maximum-likelihood estimate: the default real shift of the first image by another displacement of the same
grid reproduces the second image, the one by the returned displacement does not. -/
theorem C138_even_not_ml (cfg cfg' : FFTConfig) :
    ∃ (im1 im2 : Fin 2 × Fin 3 → ℝ) (rx ry ex ey : ℝ) (s1 s2 : ℕ) (xv yv c : Fin s1 × Fin s2 → ℝ) (best other : Fin s1 × Fin s2)
      (re : Fin s1 × Fin s2 → Fin 2 × Fin 3 → ℝ),
      chi2Shift cfg none (realArr im1) (realArr im2) .none (.int 3) false 0 false true true 512 1 true
        = .ok [.num rx, .num ry, .num ex, .num ey, .arrays s1 s2 xv yv c] ∧
      rx = -xv best ∧ ry = -yv best ∧
      (∀ i, shift2d cfg' (rArr im1) (-xv i) (-yv i) 0 false true = .real (realArr (re i))) ∧
      re other = im2 ∧ Spec.likelihood (re best) 1 im2 < Spec.likelihood (re other) 1 im2 := by
  obtain ⟨cm, hcm, hchi, s1, s2, i1, i2, hg, u, huu, hu0, yv, xv, hyv, hxv, c, hc, er, her, hres⟩ :=
    chi2Shift_scalar cfg none trivial (realArr twoRows) (realArr fun p => twoRows p / 2) .none 1 rfl (.int 3) false 0 512 1 true (.inl rfl)
      (by norm_num [Spec.validUs])
  have hval : ∀ t x : ℝ, Spec.resid (prep false (realArr twoRows)) (prep false (realArr fun p => twoRows p / 2)) 1 t x
      = 6 * (5 / 4 - Real.cos (Real.pi * t)) := by
    intro t x
    simp only [prep_false_real]
    unfold Spec.resid
    have sw := resid_swap_real twoRows (fun p => twoRows p / 2) (-t) (-x)
    rw [neg_neg, neg_neg] at sw
    rw [← Finset.sum_div, sw]
    have : ∀ p, ‖cshift (-t) (-x) twoRows p - ((twoRows p / 2 : ℝ) : ℂ)‖ ^ 2 = 5 / 4 - Real.cos (Real.pi * t) := by
      intro p
      rw [twoRows_shift, ← Complex.normSq_eq_norm_sq, Complex.normSq_apply]
      simp only [Complex.sub_re, Complex.sub_im, Complex.re_mul_ofReal, Complex.im_mul_ofReal, Complex.ofReal_re, Complex.ofReal_im, ex_re, ex_im]
      have hsq : twoRows p ^ 2 = 1 := by unfold twoRows; split_ifs <;> norm_num
      have e1 : 2 * Real.pi * (-t / 2) = -(Real.pi * t) := by ring
      rw [e1, Real.cos_neg, Real.sin_neg]
      have h1 := Real.sin_sq_add_cos_sq (Real.pi * t)
      linear_combination hsq * (Real.sin (Real.pi * t) ^ 2 + (Real.cos (Real.pi * t) - 1 / 2) ^ 2) + h1
    rw [Finset.sum_congr rfl fun p _ => this p]
    simp
    ring
  have hq : (Np.argmin cm.chi2).1 = 0 := by
    have hm := (Np.argmin_spec cm.chi2).1 ((0 : Fin 2), (Np.argmin cm.chi2).2)
    by_contra hne
    have h1 : (Np.argmin cm.chi2).1 = 1 := by omega
    rw [hchi, hchi, hval, hval, h1] at hm
    have l0 : Spec.lag 2 (0 : Fin 2) = 0 := by decide
    have l1 : Spec.lag 2 (1 : Fin 2) = -1 := by decide
    rw [l0, l1] at hm
    norm_num at hm
  have hu' : u = 3 := by rw [huu]; simp [Spec.usUsed]
  obtain ⟨rfl, rfl⟩ : s1 = 6 ∧ s2 = 6 := by simpa [Spec.gridSize] using hg
  have hy : ∀ i : Fin 6 × Fin 6, yv i = (((i.1 : ℕ) : ℝ) - 1) / 3 := by
    intro i
    rw [hyv, hu', hq]
    simp only [Spec.gridShift, Spec.zeroLag, Spec.halfPix]
    norm_num
    ring
  have hre : ∀ (i : Fin 6 × Fin 6) p, (cshift (-yv i) (-xv i) twoRows p).re = Real.cos (Real.pi * yv i) * twoRows p := by
    intro i p
    rw [twoRows_shift, Complex.re_mul_ofReal, ex_re, show 2 * Real.pi * (-yv i / 2) = -(Real.pi * yv i) by ring, Real.cos_neg]
  have hbest : yv (Np.argmin c) = 0 := by
    have hm := (Np.argmin_spec c).1 ((1 : Fin 6), (0 : Fin 6))
    have hcv : ∀ i, c i = 6 * (5 / 4 - Real.cos (Real.pi * yv i)) := fun i => by rw [hc]; exact hval _ _
    rw [hcv, hcv] at hm
    have e1 : yv ((1 : Fin 6), (0 : Fin 6)) = 0 := by rw [hy]; norm_num
    rw [e1, mul_zero, Real.cos_zero] at hm
    have hcos : Real.cos (Real.pi * yv (Np.argmin c)) = 1 := le_antisymm (Real.cos_le_one _) (by linarith)
    have hr := hy (Np.argmin c)
    have hlo : (0 : ℝ) ≤ ((((Np.argmin c).1 : Fin 6) : ℕ) : ℝ) := Nat.cast_nonneg _
    have hhi : ((((Np.argmin c).1 : Fin 6) : ℕ) : ℝ) ≤ 5 := by exact_mod_cast Nat.le_of_lt_succ (Np.argmin c).1.isLt
    have hpi := Real.pi_pos
    have := (Real.cos_eq_one_iff_of_lt_of_lt (x := Real.pi * yv (Np.argmin c)) (by nlinarith) (by nlinarith)).1 hcos
    exact (mul_eq_zero.1 this).resolve_left hpi.ne'
  have hoth : Real.cos (Real.pi * yv ((0 : Fin 6), (0 : Fin 6))) = 1 / 2 := by
    rw [hy, show Real.pi * (((((((0 : Fin 6), (0 : Fin 6)).1 : Fin 6) : ℕ) : ℝ) - 1) / 3) = -(Real.pi / 3) by norm_num; ring, Real.cos_neg,
      Real.cos_pi_div_three]
  refine ⟨twoRows, fun p => twoRows p / 2, _, _, _, _, 6, 6, xv, yv, c, Np.argmin c, (0, 0),
    fun i p => (cshift (-yv i) (-xv i) twoRows p).re, (hres true true).trans rfl, rfl, rfl, fun i => ?_, ?_, ?_⟩
  · rw [shift2d_eq, denan_rArr]
    simp only [shiftKernel_zero]
    rw [shiftReturn_real]
    rfl
  · funext p
    beta_reduce
    rw [hre, hoth]; ring
  · have e1 : (fun p => (cshift (-yv ((0 : Fin 6), (0 : Fin 6))) (-xv ((0 : Fin 6), (0 : Fin 6))) twoRows p).re) = fun p => twoRows p / 2 := by
      funext p; rw [hre, hoth]; ring
    have e2 : (fun p => (cshift (-yv (Np.argmin c)) (-xv (Np.argmin c)) twoRows p).re) = twoRows := by
      funext p; rw [hre, hbest, mul_zero, Real.cos_zero, one_mul]
    beta_reduce
    rw [e1, e2]
    refine (Real.log_lt_log_iff (likelihood_pos _ _ _ one_ne_zero) (likelihood_pos _ _ _ one_ne_zero)).1 ?_
    have h := log_likelihood twoRows (fun p => twoRows p / 2) 1 one_ne_zero
    have hs : ∑ p, (twoRows p - twoRows p / 2) ^ 2 / (1 : ℝ) ^ 2 = 6 / 4 := by
      have : ∀ p, (twoRows p - twoRows p / 2) ^ 2 / (1 : ℝ) ^ 2 = 1 / 4 := by
        intro p; unfold twoRows; split_ifs <;> norm_num
      rw [Finset.sum_congr rfl fun p _ => this p]
      simp
      norm_num
    rw [hs] at h
    linarith

end ImgReg
