import Verif.Props.RandomNoise
import Mathlib.Probability.Distributions.Gaussian.Real

/-!
# C128: the answer of `chi2_shift` is optimal

Nothing is assumed about how the two images are related.
-/

open Complex Finset MeasureTheory ProbabilityTheory

namespace ImgReg

section
variable {ny nx : ℕ} [NeZero ny] [NeZero nx]

/-- The upsampling factors for which the search grid of `chi2_shift` contains the best whole-pixel displacement: below the number of
rows the grid has the size of the image, from there on it has `2 u` points along each axis. -/
def Spec.gridHasWhole (ny nx u : ℕ) : Prop :=
  (u < ny ∧ (Odd ny ∨ Odd u) ∧ (Odd nx ∨ (Odd u ∧ u < nx))) ∨ (ny ≤ u ∧ Even ny ∧ Even nx ∧ Odd u)

omit [NeZero ny] [NeZero nx] in
theorem gridShift_whole (n : ℕ) [NeZero n] (a : Fin n) (u s : ℕ) (hu : 0 < u)
    (h : (Odd n ∧ Odd s) ∨ (Even n ∧ Even s ∧ Odd u ∧ u < s)) :
    ∃ i : Fin s, Spec.gridShift n a u s i + ((Spec.zeroLag n : ℕ) : ℝ) = ((a : ℕ) : ℝ) := by
  have hu' : (u : ℝ) ≠ 0 := Nat.cast_ne_zero.2 hu.ne'
  unfold Spec.gridShift Spec.halfPix
  rcases h with ⟨hn, ⟨k, rfl⟩⟩ | ⟨hn, ⟨k, rfl⟩, ⟨j, rfl⟩, hlt⟩
  · refine ⟨⟨k, by omega⟩, ?_⟩
    rw [if_neg (by rw [Nat.odd_iff] at hn; omega)]
    push_cast
    field_simp
    ring
  · refine ⟨⟨k - j - 1, by omega⟩, ?_⟩
    rw [if_pos (Nat.even_iff.1 hn)]
    have : ((k - j - 1 : ℕ) : ℝ) = (k : ℝ) - j - 1 := by
      rw [Nat.sub_sub, Nat.cast_sub (by omega)]; push_cast; ring
    rw [this]
    push_cast at hu' ⊢
    field_simp
    ring

/-- the answer is at least as good as every pixel of the chi-squared map -/
theorem map_best (cfg : FFTConfig) (bd : CorrBoundary) (st : Stats) (hst : Spec.validStats st)
    (im1 im2 : Fin ny × Fin nx → Pix) (err : ErrArg ny nx) (u : ℕ) (hu : 0 < u) (hg : Spec.gridHasWhole ny nx u) (zm : Bool) (nf : ℝ)
    (mas : ℕ) (mns : ℝ) (ah : Bool)
    (cm : Chi2Map ny nx) (hcm : chi2nMapBodyB cfg bd im1 im2 err zm false ah = .ok cm) :
    ∃ rx ry : ℝ,
      chi2ShiftB cfg bd st im1 im2 err (.int u) zm nf false false false mas mns ah = .ok [.num rx, .num ry] ∧
      (u = 1 → ∃ dx dy : ℤ, rx = dx ∧ ry = dy) ∧
      ∀ i, (interp2C (fun i => (cm.chi2 i : ℂ)) (((Spec.zeroLag ny : ℕ) : ℝ) - ry) (((Spec.zeroLag nx : ℕ) : ℝ) - rx)).re ≤ cm.chi2 i := by
  obtain ⟨s1, s2, i1, i2, hs, v, hv, -, yv, xv, hyv, hxv, c, hc, er, -, hres⟩ :=
    chi2ShiftB_ok cfg bd st hst im1 im2 err (.int u) zm nf mas mns ah hu cm hcm
  have hv' : v = u := by rw [hv]; rfl
  subst hv'
  refine ⟨-xv (Np.argmin c), -yv (Np.argmin c), (hres false false).trans rfl, ?_, fun i => ?_⟩
  · intro h1
    subst h1
    have hy : ¬ ny ≤ 1 := by
      intro h
      have h0 := Nat.pos_of_ne_zero (NeZero.ne ny)
      rcases hg with h' | h'
      · omega
      · have := Nat.even_iff.1 h'.2.1; omega
    have hss : (s1, s2) = (ny, nx) := by
      rw [hs]; simp only [Spec.gridSize]
      rw [if_neg hy]
    have whole : ∀ (n s : ℕ) [NeZero n] (a : Fin n) (i : Fin s), s = n →
        ∃ z : ℤ, -Spec.gridShift n a ((1 : ℕ) : ℝ) s i = z := by
      intro n s _ a i h
      subst h
      refine ⟨-(((a : ℕ) : ℤ) + ((i : ℕ) : ℤ) - 2 * (Spec.zeroLag s : ℤ)), ?_⟩
      unfold Spec.gridShift
      rw [halfPix_eq]; push_cast; ring
    obtain ⟨zx, hx⟩ := whole nx s2 (Np.argmin cm.chi2).2 (Np.argmin c).2 (Prod.mk.inj hss).2
    obtain ⟨zy, hy⟩ := whole ny s1 (Np.argmin cm.chi2).1 (Np.argmin c).1 (Prod.mk.inj hss).1
    exact ⟨zx, zy, by rw [hxv]; exact hx, by rw [hyv]; exact hy⟩
  · have hpar : ((Odd ny ∧ Odd s1) ∨ (Even ny ∧ Even s1 ∧ Odd u ∧ u < s1)) ∧ ((Odd nx ∧ Odd s2) ∨ (Even nx ∧ Even s2 ∧ Odd u ∧ u < s2)) := by
      simp only [Spec.gridSize] at hs
      rcases hg with ⟨h1, h2, h3⟩ | ⟨h1, h2, h3, h4⟩
      · rw [if_neg (by omega)] at hs
        obtain ⟨rfl, rfl⟩ := Prod.mk.inj hs
        constructor
        · rcases Nat.even_or_odd s1 with e | e
          · exact .inr ⟨e, e, h2.resolve_left (Nat.not_odd_iff_even.2 e), h1⟩
          · exact .inl ⟨e, e⟩
        · rcases Nat.even_or_odd s2 with e | e
          · have := h3.resolve_left (Nat.not_odd_iff_even.2 e)
            exact .inr ⟨e, e, this⟩
          · exact .inl ⟨e, e⟩
      · rw [if_pos h1] at hs
        obtain ⟨rfl, rfl⟩ := Prod.mk.inj hs
        exact ⟨.inr ⟨h2, even_two_mul u, h4, by omega⟩, .inr ⟨h3, even_two_mul u, h4, by omega⟩⟩
    obtain ⟨jy, hjy⟩ := gridShift_whole ny (Np.argmin cm.chi2).1 u s1 hu hpar.1
    obtain ⟨jx, hjx⟩ := gridShift_whole nx (Np.argmin cm.chi2).2 u s2 hu hpar.2
    have hmin : c (Np.argmin c) ≤ c (jy, jx) := (Np.argmin_spec c).1 _
    have hj : c (jy, jx) = cm.chi2 (Np.argmin cm.chi2) := by
      rw [hc, hyv, hxv]
      simp only [hjy, hjx]
      have := interp2C_int (fun i => (cm.chi2 i : ℂ)) (((Np.argmin cm.chi2).1 : ℕ) : ℤ) (((Np.argmin cm.chi2).2 : ℕ) : ℤ)
      simp only [Int.cast_natCast] at this
      rw [this, Spec.wrap_val, Spec.wrap_val, Complex.ofReal_re]
    have hb : c (Np.argmin c) = (interp2C (fun i => (cm.chi2 i : ℂ)) (((Spec.zeroLag ny : ℕ) : ℝ) - -yv (Np.argmin c))
        (((Spec.zeroLag nx : ℕ) : ℝ) - -xv (Np.argmin c))).re := by
      rw [sub_neg_eq_add, sub_neg_eq_add, add_comm _ (yv _), add_comm _ (xv _)]
      exact congrFun hc (Np.argmin c)
    rw [← hb]
    exact hmin.trans (hj.le.trans ((Np.argmin_spec cm.chi2).1 i))

/-- the chi-squared map for real images, with or without the means -/
theorem rolled_map_zm (cfg : FFTConfig) (im1 im2 a b : Fin ny × Fin nx → ℝ) (zm : Bool)
    (ha : ∀ p, a p = im1 p - if zm then Spec.mean im1 else 0) (hb : ∀ p, b p = im2 p - if zm then Spec.mean im2 else 0)
    (err : ErrArg ny nx) (σ : Fin ny × Fin nx → ℝ) (hσ : ∀ p, σ p ≠ 0)
    (he : (∃ s, Spec.isScalarErr err s ∧ ∀ p, σ p = s) ∨ err = .image (realArr σ)) (ah : Bool) (hf : Spec.fits ah ny nx) :
    ∃ cm, chi2nMapBody cfg (realArr im1) (realArr im2) err zm false ah = .ok cm ∧
      ∀ i, cm.chi2 i = Spec.chi2 a b σ (Spec.lag ny i.1) (Spec.lag nx i.2) := by
  obtain ⟨cm, hcm, hchi⟩ := chi2nMapBody_chi2 cfg (realArr im1) (realArr im2) err zm ah hf
  refine ⟨cm, hcm, fun i => ?_⟩
  rw [hchi]
  have pa : prep zm (realArr im1) = a := by rw [prep_real]; funext p; rw [ha]
  have pb : prep zm (realArr im2) = b := by rw [prep_real]; funext p; rw [hb]
  rw [pa, pb]
  rcases he with ⟨s, hs, hs'⟩ | rfl
  · rw [scalarErr_errOf hs, scalarErr_maskOf hs, scalarErr_maskOf hs]
    have : σ = fun _ => s := funext hs'
    rw [this]
  · have e1 : Spec.errOf (.image (realArr σ)) = σ := by
      funext p; simp [Spec.errOf, realArr, Spec.nan0, hσ p]
    have e2 : ∀ a : Fin ny × Fin nx → ℝ, Spec.maskOf (.image (realArr σ)) a = a := by
      intro a; funext p; simp [Spec.maskOf, realArr, Spec.nan0, hσ p]
    rw [e1, e2, e2]

/-- every displacement is represented in the map -/
theorem chi2_at_wrap (a b σ : Fin ny × Fin nx → ℝ) (ey ex : ℤ) :
    Spec.chi2 a b σ (Spec.lag ny (Spec.wrap ny ((Spec.zeroLag ny : ℤ) - ey))) (Spec.lag nx (Spec.wrap nx ((Spec.zeroLag nx : ℤ) - ex)))
      = ∑ p, (Spec.roll2 ey ex a p - b p) ^ 2 / σ p ^ 2 := by
  rw [chi2_eq_roll]
  have h1 : Spec.lag ny (Spec.wrap ny ((Spec.zeroLag ny : ℤ) - ey)) ≡ ey [ZMOD ny] := Spec.lag_wrap ny ey
  have h2 : Spec.lag nx (Spec.wrap nx ((Spec.zeroLag nx : ℤ) - ex)) ≡ ex [ZMOD nx] := Spec.lag_wrap nx ex
  rw [roll2_congr h1 h2]

/-- C128: with `upsample_factor=1` `chi2_shift` returns a whole-pixel displacement, and among all whole-pixel displacements (periodic) it is
one at which the moved first image is closest to the second, in units of the error: the least weighted sum of squares. -/
theorem C128_best_whole_pixel (cfg : FFTConfig) (st : Stats) (hst : Spec.validStats st)
    (im1 im2 a b : Fin ny × Fin nx → ℝ) (hy : 2 ≤ ny) (zm : Bool)
    (ha : ∀ p, a p = im1 p - if zm then Spec.mean im1 else 0) (hb : ∀ p, b p = im2 p - if zm then Spec.mean im2 else 0)
    (err : ErrArg ny nx) (σ : Fin ny × Fin nx → ℝ) (hσ : ∀ p, σ p ≠ 0)
    (he : (∃ s, Spec.isScalarErr err s ∧ ∀ p, σ p = s) ∨ err = .image (realArr σ))
    (nf : ℝ) (mas : ℕ) (mns : ℝ) (ah : Bool) (hf : Spec.fits ah ny nx) :
    ∃ dx dy : ℤ,
      chi2Shift cfg st (realArr im1) (realArr im2) err (.int 1) zm nf false false false mas mns ah = .ok [.num dx, .num dy] ∧
      ∀ ey ex : ℤ, ∑ p, (Spec.roll2 dy dx a p - b p) ^ 2 / σ p ^ 2 ≤ ∑ p, (Spec.roll2 ey ex a p - b p) ^ 2 / σ p ^ 2 := by
  obtain ⟨cm, hcm, hchi⟩ := rolled_map_zm cfg im1 im2 a b zm ha hb err σ hσ he ah hf
  have hg : Spec.gridHasWhole ny nx 1 := by
    refine .inl ⟨by omega, .inr odd_one, ?_⟩
    have h0 := Nat.pos_of_ne_zero (NeZero.ne nx)
    rcases Nat.lt_or_ge 1 nx with h | h
    · exact .inr ⟨odd_one, h⟩
    · exact .inl (by rw [Nat.odd_iff]; omega)
  obtain ⟨rx, ry, hres, hint, hle⟩ := map_best cfg .wrap st hst _ _ err 1 one_pos hg zm nf mas mns ah cm hcm
  obtain ⟨dx, dy, rfl, rfl⟩ := hint rfl
  refine ⟨dx, dy, hres, fun ey ex => ?_⟩
  have h := hle (Spec.wrap ny ((Spec.zeroLag ny : ℤ) - ey), Spec.wrap nx ((Spec.zeroLag nx : ℤ) - ex))
  have e : ∀ (n : ℕ) (d : ℤ), ((Spec.zeroLag n : ℕ) : ℝ) - (d : ℝ) = (((Spec.zeroLag n : ℤ) - d : ℤ) : ℝ) := by
    intro n d; push_cast; rfl
  rw [e, e, interp2C_int, Complex.ofReal_re, hchi, hchi, chi2_at_wrap, chi2_at_wrap] at h
  exact h

/-- C128, maximum likelihood: if the pixels of the second image are independent normal variables whose means are the pixels of the moved first
image and whose standard deviations are the errors, the returned displacement is one that maximises the probability density of what was
observed. -/
theorem C128_maximum_likelihood (cfg : FFTConfig) (st : Stats) (hst : Spec.validStats st)
    (im1 im2 : Fin ny × Fin nx → ℝ) (hy : 2 ≤ ny)
    (err : ErrArg ny nx) (σ : Fin ny × Fin nx → ℝ) (hσ : ∀ p, σ p ≠ 0)
    (he : (∃ s, Spec.isScalarErr err s ∧ ∀ p, σ p = s) ∨ err = .image (realArr σ))
    (nf : ℝ) (mas : ℕ) (mns : ℝ) (ah : Bool) (hf : Spec.fits ah ny nx) :
    ∃ dx dy : ℤ,
      chi2Shift cfg st (realArr im1) (realArr im2) err (.int 1) false nf false false false mas mns ah = .ok [.num dx, .num dy] ∧
      ∀ ey ex : ℤ, ∏ p, gaussianPDFReal (Spec.roll2 ey ex im1 p) (σ p ^ 2).toNNReal (im2 p)
        ≤ ∏ p, gaussianPDFReal (Spec.roll2 dy dx im1 p) (σ p ^ 2).toNNReal (im2 p) := by
  obtain ⟨dx, dy, h, hle⟩ := C128_best_whole_pixel cfg st hst im1 im2 im1 im2 hy false (fun p => by simp) (fun p => by simp) err σ hσ he nf
    mas mns ah hf
  refine ⟨dx, dy, h, fun ey ex => ?_⟩
  have key : ∀ dy dx : ℤ, ∏ p, gaussianPDFReal (Spec.roll2 dy dx im1 p) (σ p ^ 2).toNNReal (im2 p)
      = (∏ p, (Real.sqrt (2 * Real.pi * σ p ^ 2))⁻¹) * Real.exp (-(∑ p, (Spec.roll2 dy dx im1 p - im2 p) ^ 2 / σ p ^ 2) / 2) := by
    intro dy dx
    unfold gaussianPDFReal
    simp only [Real.coe_toNNReal _ (sq_nonneg _)]
    rw [Finset.prod_mul_distrib, ← Real.exp_sum]
    congr 2
    rw [← Finset.sum_neg_distrib, Finset.sum_div]
    refine Finset.sum_congr rfl fun p _ => ?_
    have : σ p ^ 2 ≠ 0 := pow_ne_zero 2 (hσ p)
    field_simp
    ring
  rw [key, key]
  refine mul_le_mul_of_nonneg_left (Real.exp_le_exp.2 ?_) (Finset.prod_nonneg fun p _ => inv_nonneg.2 (Real.sqrt_nonneg _))
  have := hle ey ex
  linarith

/-- C128 for sub-pixel answers (scalar errors): whenever the search grid contains the best whole-pixel displacement, the second image shifted
back by the returned amount is at least as close to the first as for every whole-pixel displacement. -/
theorem C128_no_worse_than_whole_pixels (cfg cfg' : FFTConfig) (st : Stats) (hst : Spec.validStats st)
    (im1 im2 a b : Fin ny × Fin nx → ℝ) (u : ℕ) (hu : 0 < u) (hg : Spec.gridHasWhole ny nx u) (zm : Bool)
    (ha : ∀ p, a p = im1 p - if zm then Spec.mean im1 else 0) (hb : ∀ p, b p = im2 p - if zm then Spec.mean im2 else 0)
    (err : ErrArg ny nx) (s : ℝ) (hs : s ≠ 0) (herr : Spec.isScalarErr err s)
    (nf : ℝ) (mas : ℕ) (mns : ℝ) (ah : Bool) (hf : Spec.fits ah ny nx) :
    ∃ (rx ry : ℝ) (y : Fin ny × Fin nx → ℂ),
      chi2Shift cfg st (realArr im1) (realArr im2) err (.int u) zm nf false false false mas mns ah = .ok [.num rx, .num ry] ∧
      shift2d cfg' (rArr b) (-rx) (-ry) 0 false false = .cplx (cArr y) ∧
      ∀ ey ex : ℤ, ∑ p, ‖(a p : ℂ) - y p‖ ^ 2 / s ^ 2 ≤ ∑ p, (Spec.roll2 ey ex a p - b p) ^ 2 / s ^ 2 := by
  obtain ⟨cm, hcm, hchi⟩ := rolled_map_zm cfg im1 im2 a b zm ha hb err (fun _ => s) (fun _ => hs) (.inl ⟨s, herr, fun _ => rfl⟩) ah hf
  obtain ⟨rx, ry, hres, -, hle⟩ := map_best cfg .wrap st hst _ _ err u hu hg zm nf mas mns ah cm hcm
  refine ⟨rx, ry, cshift (-ry) (-rx) b, hres, ?_, fun ey ex => ?_⟩
  · rw [shift2d_eq, denan_rArr]
    simp only [shiftKernel_zero]
    rw [shiftReturn_cplx]; rfl
  · have h := hle (Spec.wrap ny ((Spec.zeroLag ny : ℤ) - ey), Spec.wrap nx ((Spec.zeroLag nx : ℤ) - ex))
    have e : (fun i => ((cm.chi2 i : ℝ) : ℂ)) = fun i =>
        ((Spec.chi2 a b (fun _ => s) (Spec.lag ny i.1) (Spec.lag nx i.2) : ℝ) : ℂ) := by
      funext i; rw [hchi]
    rw [e, interp2C_chi2, hchi, chi2_at_wrap, sub_sub_cancel_left, sub_sub_cancel_left] at h
    exact h

/-- the grid condition holds e.g. for all odd factors below both sizes, for every factor below the number of rows if both sizes are odd, and
for factor 1 -/
example : Spec.gridHasWhole 10 12 5 ∧ Spec.gridHasWhole 9 7 8 ∧ Spec.gridHasWhole 4 4 7 ∧ ¬ Spec.gridHasWhole 10 12 4 := by
  refine ⟨.inl ⟨by norm_num, .inr (by decide), .inr ⟨by decide, by norm_num⟩⟩, .inl ⟨by norm_num, .inl (by decide), .inl (by decide)⟩,
    .inr ⟨by norm_num, by decide, by decide, by decide⟩, ?_⟩
  unfold Spec.gridHasWhole
  decide

/-- the returned whole-pixel displacement and the best entry of the map -/
theorem fill_best (cfg : FFTConfig) (pad : ℕ × ℕ → ℕ × ℕ → ℕ × ℕ) (hp : Spec.padsEnough pad) (st : Stats)
    (hst : Spec.validStats st) (ah : Bool) (h : Spec.fits ah (pad (ny, nx) (ny, nx)).1 (pad (ny, nx) (ny, nx)).2) (hy : 2 ≤ ny)
    (im1 im2 : Fin ny × Fin nx → Pix) (err : ErrArg ny nx) (nf : ℝ) (mas : ℕ) (mns : ℝ) (F : ℤ → ℤ → ℝ) (c : Fin ny × Fin nx → ℝ)
    (hc : chi2nMapB cfg (.fill pad) im1 im2 err false false false ah = .ok (.only c))
    (hF : ∀ i : Fin ny × Fin nx, c i = F (((ny - 1) / 2 : ℕ) - ((i.1 : ℕ) : ℤ)) (((nx - 1) / 2 : ℕ) - ((i.2 : ℕ) : ℤ))) :
    ∃ dx dy dx' dy' : ℤ,
      chi2ShiftB cfg (.fill pad) st im1 im2 err (.int 1) false nf false false false mas mns ah = .ok [.num dx, .num dy] ∧
      (dx' ≡ dx [ZMOD nx] ∧ -(nx : ℤ) ≤ 2 * dx' ∧ 2 * dx' < nx) ∧ (dy' ≡ dy [ZMOD ny] ∧ -(ny : ℤ) ≤ 2 * dy' ∧ 2 * dy' < ny) ∧
      ∀ ey ex : ℤ, -(ny : ℤ) ≤ 2 * ey → 2 * ey < ny → -(nx : ℤ) ≤ 2 * ex → 2 * ex < nx → F dy' dx' ≤ F ey ex := by
  obtain ⟨cm, hcm, -⟩ := chi2nMapBodyB_fill cfg pad hp pos_of_neZero im1 im2 err false false ah h
  obtain rfl : cm.chi2 = c := by
    rw [chi2nMapB_same, hcm] at hc
    simpa [bind, Except.bind, pure, Except.pure] using hc
  have hg : Spec.gridHasWhole ny nx 1 := by
    refine .inl ⟨by omega, .inr odd_one, ?_⟩
    have h0 := Nat.pos_of_ne_zero (NeZero.ne nx)
    rcases Nat.lt_or_ge 1 nx with h | h
    · exact .inr ⟨odd_one, h⟩
    · exact .inl (by rw [Nat.odd_iff]; omega)
  obtain ⟨rx, ry, hres, hint, hle⟩ := map_best cfg (.fill pad) st hst _ _ err 1 one_pos hg false nf mas mns ah cm hcm
  obtain ⟨dx, dy, rfl, rfl⟩ := hint rfl
  have rng : ∀ (n : ℕ) [NeZero n] (i : Fin n), -(n : ℤ) ≤ 2 * ((((n - 1) / 2 : ℕ) : ℤ) - ((i : ℕ) : ℤ)) ∧
      2 * ((((n - 1) / 2 : ℕ) : ℤ) - ((i : ℕ) : ℤ)) < n := by
    intro n _ i
    have hn := Nat.pos_of_ne_zero (NeZero.ne n)
    have := i.2
    omega
  have e : ∀ (n : ℕ) (d : ℤ), ((Spec.zeroLag n : ℕ) : ℝ) - (d : ℝ) = (((Spec.zeroLag n : ℤ) - d : ℤ) : ℝ) := by
    intro n d; push_cast; rfl
  refine ⟨dx, dy, ((nx - 1) / 2 : ℕ) - ((Spec.wrap nx ((Spec.zeroLag nx : ℤ) - dx) : ℕ) : ℤ),
    ((ny - 1) / 2 : ℕ) - ((Spec.wrap ny ((Spec.zeroLag ny : ℤ) - dy) : ℕ) : ℤ), hres,
    ⟨Spec.lag_wrap nx dx, rng nx _⟩, ⟨Spec.lag_wrap ny dy, rng ny _⟩, fun ey ex l1 u1 l2 u2 => ?_⟩
  have rep : ∀ (n : ℕ) [NeZero n] (d' : ℤ), -(n : ℤ) ≤ 2 * d' → 2 * d' < n → ∃ q : Fin n, (((n - 1) / 2 : ℕ) : ℤ) - ((q : ℕ) : ℤ) = d' := by
    intro n _ d' l u
    have hn := Nat.pos_of_ne_zero (NeZero.ne n)
    exact ⟨⟨(((n - 1) / 2 : ℕ) - d' : ℤ).toNat, by omega⟩, by simp only; omega⟩
  obtain ⟨qy, hqy⟩ := rep ny ey l1 u1
  obtain ⟨qx, hqx⟩ := rep nx ex l2 u2
  have hh := hle (qy, qx)
  rw [e, e, interp2C_int, Complex.ofReal_re, hF, hF] at hh
  simp only [hqy, hqx] at hh
  exact hh

/-- C128 with `boundary='fill'` and an error image: up to whole image sizes, the returned displacement is one at which the first image, moved
with zeros moving in, is closest to the second one among all displacements by at most half an image. -/
theorem C128_fill_error_image (cfg : FFTConfig) (pad : ℕ × ℕ → ℕ × ℕ → ℕ × ℕ) (hp : Spec.padsEnough pad) (st : Stats)
    (hst : Spec.validStats st) (ah : Bool) (h : Spec.fits ah (pad (ny, nx) (ny, nx)).1 (pad (ny, nx) (ny, nx)).2) (hy : 2 ≤ ny)
    (im1 im2 σ : Fin ny × Fin nx → ℝ) (hσ : ∀ p, σ p ≠ 0) (nf : ℝ) (mas : ℕ) (mns : ℝ) :
    ∃ dx dy dx' dy' : ℤ,
      chi2ShiftB cfg (.fill pad) st (realArr im1) (realArr im2) (.image (realArr σ)) (.int 1) false nf false false false mas mns ah
        = .ok [.num dx, .num dy] ∧
      (dx' ≡ dx [ZMOD nx] ∧ -(nx : ℤ) ≤ 2 * dx' ∧ 2 * dx' < nx) ∧ (dy' ≡ dy [ZMOD ny] ∧ -(ny : ℤ) ≤ 2 * dy' ∧ 2 * dy' < ny) ∧
      ∀ ey ex : ℤ, -(ny : ℤ) ≤ 2 * ey → 2 * ey < ny → -(nx : ℤ) ≤ 2 * ex → 2 * ex < nx →
        ∑ q : Fin ny × Fin nx, (Spec.plane im1 (((q.1 : ℕ) : ℤ) - dy') (((q.2 : ℕ) : ℤ) - dx') - im2 q) ^ 2 / σ q ^ 2
          ≤ ∑ q : Fin ny × Fin nx, (Spec.plane im1 (((q.1 : ℕ) : ℤ) - ey) (((q.2 : ℕ) : ℤ) - ex) - im2 q) ^ 2 / σ q ^ 2 := by
  obtain ⟨c, hc, hF⟩ := C93_error_image cfg pad hp ah h (realArr im1) (realArr im2) (realArr σ)
  have nn : ∀ im : Fin ny × Fin nx → ℝ, Spec.nan0 (realArr im) = im := fun _ => rfl
  simp only [nn, hσ, if_false] at hF
  exact fill_best cfg pad hp st hst ah h hy _ _ _ nf mas mns
    (fun ey ex => ∑ q : Fin ny × Fin nx, (Spec.plane im1 (((q.1 : ℕ) : ℤ) - ey) (((q.2 : ℕ) : ℤ) - ex) - im2 q) ^ 2 / σ q ^ 2) c hc hF

/-- C128 with `boundary='fill'` and a scalar error: the same with the sum of squares over the whole plane, both images continued by zeros. -/
theorem C128_fill_scalar (cfg : FFTConfig) (pad : ℕ × ℕ → ℕ × ℕ → ℕ × ℕ) (hp : Spec.padsEnough pad) (st : Stats)
    (hst : Spec.validStats st) (ah : Bool) (h : Spec.fits ah (pad (ny, nx) (ny, nx)).1 (pad (ny, nx) (ny, nx)).2) (hy : 2 ≤ ny)
    (im1 im2 : Fin ny × Fin nx → ℝ) (err : ErrArg ny nx) (s : ℝ) (hs : s ≠ 0) (herr : Spec.isScalarErr err s)
    (nf : ℝ) (mas : ℕ) (mns : ℝ) :
    ∃ dx dy dx' dy' : ℤ,
      chi2ShiftB cfg (.fill pad) st (realArr im1) (realArr im2) err (.int 1) false nf false false false mas mns ah
        = .ok [.num dx, .num dy] ∧
      (dx' ≡ dx [ZMOD nx] ∧ -(nx : ℤ) ≤ 2 * dx' ∧ 2 * dx' < nx) ∧ (dy' ≡ dy [ZMOD ny] ∧ -(ny : ℤ) ≤ 2 * dy' ∧ 2 * dy' < ny) ∧
      ∀ ey ex : ℤ, -(ny : ℤ) ≤ 2 * ey → 2 * ey < ny → -(nx : ℤ) ≤ 2 * ex → 2 * ex < nx →
        ∑ᶠ z : ℤ × ℤ, (Spec.plane im1 z.1 z.2 - Spec.plane im2 (z.1 + dy') (z.2 + dx')) ^ 2 / s ^ 2
          ≤ ∑ᶠ z : ℤ × ℤ, (Spec.plane im1 z.1 z.2 - Spec.plane im2 (z.1 + ey) (z.2 + ex)) ^ 2 / s ^ 2 := by
  obtain ⟨c, hc, hF⟩ := C93_scalar_error cfg pad hp ah h (realArr im1) (realArr im2) err s hs herr
  have nn : ∀ im : Fin ny × Fin nx → ℝ, Spec.nan0 (realArr im) = im := fun _ => rfl
  simp only [nn] at hF
  exact fill_best cfg pad hp st hst ah h hy _ _ _ nf mas mns
    (fun ey ex => ∑ᶠ z : ℤ × ℤ, (Spec.plane im1 z.1 z.2 - Spec.plane im2 (z.1 + ey) (z.2 + ex)) ^ 2 / s ^ 2) c hc hF

end

/-- C128 applies to every pair of images; e.g. for a single bright pixel at (0, 0) and one half as bright at (1, 2) in a 4 × 5 image the
displacement found brings the first onto the second. -/
example (cfg : FFTConfig) : ∃ dx dy : ℤ,
    chi2Shift cfg none (realArr fun p : Fin 4 × Fin 5 => if p = (0, 0) then 1 else 0)
      (realArr fun p : Fin 4 × Fin 5 => if p = (1, 2) then 1 / 2 else 0) (.scalar 3) (.int 1) false 1 false false false 10 1 true
      = .ok [.num dx, .num dy] ∧
    ∑ p : Fin 4 × Fin 5, (Spec.roll2 dy dx (fun p : Fin 4 × Fin 5 => if p = (0, 0) then (1 : ℝ) else 0) p
      - (if p = (1, 2) then 1 / 2 else 0)) ^ 2 / 3 ^ 2 ≤ 1 / 36 := by
  obtain ⟨dx, dy, h, hle⟩ := C128_best_whole_pixel cfg none trivial (fun p : Fin 4 × Fin 5 => if p = (0, 0) then 1 else 0)
    (fun p : Fin 4 × Fin 5 => if p = (1, 2) then 1 / 2 else 0) (fun p : Fin 4 × Fin 5 => if p = (0, 0) then 1 else 0)
    (fun p : Fin 4 × Fin 5 => if p = (1, 2) then 1 / 2 else 0) (by norm_num) false (fun p => by simp) (fun p => by simp)
    (.scalar 3) (fun _ => 3) (fun _ => by norm_num) (.inl ⟨3, rfl, fun _ => rfl⟩) 1 10 1 true (.inl rfl)
  refine ⟨dx, dy, h, (hle 1 2).trans ?_⟩
  have : ∀ p : Fin 4 × Fin 5, Spec.roll2 1 2 (fun p : Fin 4 × Fin 5 => if p = (0, 0) then (1 : ℝ) else 0) p = if p = (1, 2) then 1 else 0 := by
    intro p
    have hp : (Spec.roll2 1 2 (fun p : Fin 4 × Fin 5 => if p = (0, 0) then (1 : ℝ) else 0) p)
        = if (Spec.wrap 4 (((p.1 : ℕ) : ℤ) - 1), Spec.wrap 5 (((p.2 : ℕ) : ℤ) - 2)) = ((0, 0) : Fin 4 × Fin 5) then 1 else 0 := rfl
    rw [hp]
    have hd : ∀ p : Fin 4 × Fin 5, (Spec.wrap 4 (((p.1 : ℕ) : ℤ) - 1), Spec.wrap 5 (((p.2 : ℕ) : ℤ) - 2)) = ((0, 0) : Fin 4 × Fin 5) ↔ p = (1, 2) := by
      decide
    simp only [hd]
  simp only [this]
  rw [Finset.sum_eq_single (1, 2)]
  · norm_num
  · intro p _ hp; simp [hp]
  · simp

end ImgReg
