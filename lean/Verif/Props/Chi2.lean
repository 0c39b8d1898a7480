import Verif.Lemmas.Chi2

/-!
# Properties of `correlate2d` and `chi2n_map` (C21–C30)

`Spec.move dy dx p` is pixel `p + (dy,dx)` with periodic boundary, `Spec.zeroLag n = (n-1)//2`.
`Spec.fits` is the 1 GB limit of the FFT convolution (or `allow_huge=True`).
-/

open Complex Finset

namespace ImgReg

section
variable {ny nx : ℕ} [NeZero ny] [NeZero nx]

/-! ## C21, C22 -/

/-- C21: `correlate2d` is the circular cross-correlation with zero lag at pixel `(n-1)//2`. -/
theorem C21_correlate2d (cfg : FFTConfig) (ah : Bool) (h : Spec.fits ah ny nx)
    (im1 im2 : Fin ny × Fin nx → ℝ) :
    ∃ out : Fin ny × Fin nx → ℝ, correlate2d cfg ah (realArr im1) (realArr im2) = .ok (realArr out) ∧
      ∀ i, out i = ∑ p : Fin ny × Fin nx, im1 p *
        im2 (Spec.wrap ny (((p.1 : ℕ) : ℤ) + ((ny - 1) / 2 : ℕ) - ((i.1 : ℕ) : ℤ)),
             Spec.wrap nx (((p.2 : ℕ) : ℤ) + ((nx - 1) / 2 : ℕ) - ((i.2 : ℕ) : ℤ))) := by
  refine ⟨_, correlate2d_eq cfg ah h im1 im2, fun i => ?_⟩
  unfold Spec.xcorr Spec.move Spec.zeroLag
  simp only [add_sub_assoc]

/-- C21: at the zero-lag pixel it is the plain inner product of the images. -/
theorem C21_zero_lag (cfg : FFTConfig) (ah : Bool) (h : Spec.fits ah ny nx)
    (im1 im2 : Fin ny × Fin nx → ℝ) :
    ∃ out : Fin ny × Fin nx → ℝ, correlate2d cfg ah (realArr im1) (realArr im2) = .ok (realArr out) ∧
      ∀ i : Fin ny × Fin nx, (i.1 : ℕ) = (ny - 1) / 2 → (i.2 : ℕ) = (nx - 1) / 2 →
        out i = ∑ p, im1 p * im2 p := by
  refine ⟨_, correlate2d_eq cfg ah h im1 im2, fun i h1 h2 => ?_⟩
  unfold Spec.xcorr Spec.move Spec.zeroLag
  refine Finset.sum_congr rfl fun p _ => ?_
  rw [h1, h2, sub_self, sub_self, add_zero, add_zero, Spec.wrap_val, Spec.wrap_val]

/-- C21: NaN pixels count as 0, and an array of more than 1 GB is refused unless `allow_huge`. -/
theorem C21_nan_and_huge (cfg : FFTConfig) (ah : Bool) (im1 im2 : Fin ny × Fin nx → Pix) :
    (Spec.fits ah ny nx → correlate2d cfg ah im1 im2
      = correlate2d cfg ah (realArr (Spec.nan0 im1)) (realArr (Spec.nan0 im2))) ∧
    (¬ Spec.fits ah ny nx → correlate2d cfg ah im1 im2 = .error .valueError) :=
  ⟨fun h => by rw [correlate2d_nan0 cfg ah h, correlate2d_eq cfg ah h],
   fun h => correlate2d_huge cfg ah h im1 im2⟩

/-- C22: exchanging the images mirrors the correlation map about the zero-lag pixel. -/
theorem C22_exchange (cfg : FFTConfig) (ah : Bool) (h : Spec.fits ah ny nx)
    (im1 im2 : Fin ny × Fin nx → ℝ) :
    ∃ o12 o21 : Fin ny × Fin nx → ℝ,
      correlate2d cfg ah (realArr im1) (realArr im2) = .ok (realArr o12) ∧
      correlate2d cfg ah (realArr im2) (realArr im1) = .ok (realArr o21) ∧
      ∀ i, o21 i = o12 (Spec.wrap ny (2 * ((ny - 1) / 2 : ℕ) - ((i.1 : ℕ) : ℤ)),
                        Spec.wrap nx (2 * ((nx - 1) / 2 : ℕ) - ((i.2 : ℕ) : ℤ))) := by
  refine ⟨_, _, correlate2d_eq cfg ah h im1 im2, correlate2d_eq cfg ah h im2 im1, fun i => ?_⟩
  have key : ∀ (n : ℕ) [NeZero n] (p i : Fin n),
      Spec.wrap n (((Spec.wrap n (((p : ℕ) : ℤ) + ((Spec.zeroLag n : ℤ) - ((i : ℕ) : ℤ))) : ℕ) : ℤ)
        + ((Spec.zeroLag n : ℤ) - ((Spec.wrap n (2 * ((n - 1) / 2 : ℕ) - ((i : ℕ) : ℤ)) : ℕ) : ℤ))) = p := by
    intro n _ p i
    rw [Spec.wrap_eq_iff]
    have h1 := Spec.wrap_modEq n (((p : ℕ) : ℤ) + ((Spec.zeroLag n : ℤ) - ((i : ℕ) : ℤ)))
    have h2 := Spec.wrap_modEq n (2 * ((n - 1) / 2 : ℕ) - ((i : ℕ) : ℤ))
    have := h1.add ((Int.ModEq.refl (Spec.zeroLag n : ℤ)).sub h2)
    have h3 : ((p : ℕ) : ℤ) + ((Spec.zeroLag n : ℤ) - ((i : ℕ) : ℤ))
        + ((Spec.zeroLag n : ℤ) - (2 * ((n - 1) / 2 : ℕ) - ((i : ℕ) : ℤ))) = ((p : ℕ) : ℤ) := by
      unfold Spec.zeroLag; ring
    rwa [h3] at this
  unfold Spec.xcorr
  refine Fintype.sum_bijective _ (Spec.move_bijective (Spec.lag ny i.1) (Spec.lag nx i.2)) _ _
    fun p => ?_
  rw [mul_comm]
  congr 2
  unfold Spec.move Spec.lag
  exact (Prod.ext (key ny p.1 i.1) (key nx p.2 i.2)).symm

/-- the hypothesis `Spec.fits` holds for a 512×512 image without `allow_huge` -/
example : Spec.fits false 512 512 := Or.inr (by norm_num)

/-! ## C23, C24: the map is the chi-squared of every whole-pixel shift -/

/-- a scalar error argument with value `s` (`None` is 1) -/
def Spec.isScalarErr : ErrArg ny nx → ℝ → Prop
  | .none, s => s = 1
  | .scalar t, s => s = t
  | .image _, _ => False

/-- C23: for `err=None` or a scalar error, the map entry `[cy-dy, cx-dx]` is the sum over all pixels of
`(im1 - im2 rolled by (-dy,-dx))² / err²`, NaNs counted as 0. -/
theorem C23_scalar_error (cfg : FFTConfig) (ah : Bool) (h : Spec.fits ah ny nx)
    (im1 im2 : Fin ny × Fin nx → Pix) (err : ErrArg ny nx) (s : ℝ) (_hs : s ≠ 0)
    (herr : Spec.isScalarErr err s) :
    ∃ c : Fin ny × Fin nx → ℝ, chi2nMap cfg im1 im2 err false false false ah = .ok (.only c) ∧
      ∀ dy dx : ℤ, c (Spec.wrap ny (((ny - 1) / 2 : ℕ) - dy), Spec.wrap nx (((nx - 1) / 2 : ℕ) - dx))
        = ∑ p, (Spec.nan0 im1 p - Spec.roll2 (-dy) (-dx) (Spec.nan0 im2) p) ^ 2 / s ^ 2 := by
  obtain ⟨m, h1, h2⟩ := chi2nMapBody_chi2 cfg im1 im2 err false ah h
  refine ⟨m.chi2, by rw [chi2nMap_same, h1]; rfl, fun dy dx => ?_⟩
  rw [h2]
  have he : Spec.errOf err = fun _ => s := by
    cases err <;> simp_all [Spec.isScalarErr, Spec.errOf]
  have hm : ∀ im : Fin ny × Fin nx → Pix, Spec.maskOf err (prep false im) = Spec.nan0 im := by
    intro im
    cases err <;> simp_all [Spec.isScalarErr, Spec.maskOf, prep_def]
  rw [he, hm, hm, Spec.chi2_wrap]
  unfold Spec.chi2 Spec.move Spec.roll2
  simp only [sub_neg_eq_add]

/-- C24: for an error image, the map entry `[cy-dy, cx-dx]` is the sum over pixels `p` of
`(im1[p] - im2[p+d])² / err[p+d]²`; where `err` is 0 or NaN both images count as 0 and the error
as 1. -/
theorem C24_error_image (cfg : FFTConfig) (ah : Bool) (h : Spec.fits ah ny nx)
    (im1 im2 er : Fin ny × Fin nx → Pix) :
    ∃ c : Fin ny × Fin nx → ℝ, chi2nMap cfg im1 im2 (.image er) false false false ah = .ok (.only c) ∧
      ∀ dy dx : ℤ, c (Spec.wrap ny (((ny - 1) / 2 : ℕ) - dy), Spec.wrap nx (((nx - 1) / 2 : ℕ) - dx))
        = ∑ p, ((if Spec.nan0 er p = 0 then 0 else Spec.nan0 im1 p)
                - (if Spec.nan0 er (Spec.move dy dx p) = 0 then 0
                   else Spec.nan0 im2 (Spec.move dy dx p))) ^ 2
              / (if Spec.nan0 er (Spec.move dy dx p) = 0 then 1
                 else Spec.nan0 er (Spec.move dy dx p)) ^ 2 := by
  obtain ⟨m, h1, h2⟩ := chi2nMapBody_chi2 cfg im1 im2 (.image er) false ah h
  refine ⟨m.chi2, by rw [chi2nMap_same, h1]; rfl, fun dy dx => ?_⟩
  rw [h2, Spec.chi2_wrap]
  rw [prep_def, prep_def]
  rfl

/-! ## C25 -/

/-- C25: every entry of the (unreduced) map is non-negative, whatever the error argument. -/
theorem C25_nonneg (cfg : FFTConfig) (ah : Bool) (h : Spec.fits ah ny nx)
    (im1 im2 : Fin ny × Fin nx → Pix) (err : ErrArg ny nx) (zm : Bool) :
    ∃ c : Fin ny × Fin nx → ℝ, chi2nMap cfg im1 im2 err zm false false ah = .ok (.only c) ∧
      ∀ i, 0 ≤ c i := by
  obtain ⟨m, h1, h2⟩ := chi2nMapBody_chi2 cfg im1 im2 err zm ah h
  refine ⟨m.chi2, by rw [chi2nMap_same, h1]; rfl, fun i => ?_⟩
  rw [h2]
  exact Finset.sum_nonneg fun p _ => by positivity

/-- C25: if `im2` is `im1` rolled by `(dy, dx)`, the entry for that shift is 0 and minimal, for no
error, a scalar error, or an error image without zero or NaN pixels. -/
theorem C25_zero_at_true_shift (cfg : FFTConfig) (ah : Bool) (h : Spec.fits ah ny nx)
    (im1 : Fin ny × Fin nx → Pix) (dy dx : ℤ) (err : ErrArg ny nx) (zm : Bool)
    (herr : ∀ er, err = .image er → ∀ p, Spec.nan0 er p ≠ 0) :
    ∃ c : Fin ny × Fin nx → ℝ,
      chi2nMap cfg im1 (Spec.roll2 dy dx im1) err zm false false ah = .ok (.only c) ∧
      c (Spec.wrap ny (((ny - 1) / 2 : ℕ) - dy), Spec.wrap nx (((nx - 1) / 2 : ℕ) - dx)) = 0 ∧
      ∀ i, c (Spec.wrap ny (((ny - 1) / 2 : ℕ) - dy), Spec.wrap nx (((nx - 1) / 2 : ℕ) - dx)) ≤ c i := by
  obtain ⟨m, h1, h2⟩ := chi2nMapBody_chi2 cfg im1 (Spec.roll2 dy dx im1) err zm ah h
  have h0 : m.chi2 (Spec.wrap ny (((ny - 1) / 2 : ℕ) - dy), Spec.wrap nx (((nx - 1) / 2 : ℕ) - dx)) = 0 := by
    rw [h2, Spec.chi2_wrap]
    have hm : ∀ im : Fin ny × Fin nx → ℝ, Spec.maskOf err im = im := by
      intro im
      cases err with
      | image e => funext i; simp [Spec.maskOf, herr e rfl i]
      | _ => rfl
    rw [hm, hm]
    refine Finset.sum_eq_zero fun p _ => ?_
    have : prep zm (Spec.roll2 dy dx im1) (Spec.move dy dx p) = prep zm im1 p := by
      rw [prep_roll2, Spec.roll2_move]
    rw [this, sub_self]
    simp
  refine ⟨m.chi2, by rw [chi2nMap_same, h1]; rfl, h0, fun i => ?_⟩
  rw [h0, h2]
  exact Finset.sum_nonneg fun p _ => by positivity

/-! ## C26 -/

/-- C26: `return_all` gives `(chi2, term1, term2, term3)` with `chi2 = term1 + term2 + term3`, divided
by `size - 2` when `reduced`; `term1 = Σ im2²/err²`, `term2 = -2·correlate2d(im1, im2/err²)`, and
term 3 is an array exactly for an error image; without `return_all` only `chi2` is returned. -/
theorem C26_terms (cfg : FFTConfig) (ah : Bool) (h : Spec.fits ah ny nx)
    (im1 im2 : Fin ny × Fin nx → Pix) (err : ErrArg ny nx) (red : Bool)
    (herr : ∀ er, err = .image er → ∀ p, Spec.nan0 er p ≠ 0) :
    ∃ m : Chi2Map ny nx,
      chi2nMap cfg im1 im2 err false true red ah = .ok (.all m) ∧
      chi2nMap cfg im1 im2 err false false red ah = .ok (.only m.chi2) ∧
      (∀ i, m.chi2 i = (m.term1 + m.term2 i + m.term3.at i)
        / (if red then (ny : ℝ) * nx - 2 else 1)) ∧
      m.term1 = ∑ p, Spec.nan0 im2 p ^ 2 / Spec.errOf err p ^ 2 ∧
      (∃ o, correlate2d cfg ah im1 (realArr fun p => Spec.nan0 im2 p / Spec.errOf err p ^ 2)
          = .ok (realArr o) ∧ ∀ i, m.term2 i = -2 * o i) ∧
      ((∃ t, m.term3 = .image t) ↔ ∃ e, err = .image e) := by
  obtain ⟨m, h1, h2, h3, h4, h5, h6⟩ := chi2nMapBody_eq cfg im1 im2 err false red ah h
  have hm : ∀ im : Fin ny × Fin nx → ℝ, Spec.maskOf err im = im := by
    intro im
    cases err with
    | image e => funext i; simp [Spec.maskOf, herr e rfl i]
    | _ => rfl
  have hp : ∀ im : Fin ny × Fin nx → Pix, prep false im = Spec.nan0 im := fun im => by simp [prep_def]
  refine ⟨m, by rw [chi2nMap_same, h1]; rfl, by rw [chi2nMap_same, h1]; rfl, h6, ?_, ?_, h5⟩
  · rw [h2, hm, hp]
  · refine ⟨_, correlate2d_nan0 cfg ah h _ _, fun i => ?_⟩
    rw [h3, hm, hm, hp, hp]
    rfl

/-- C26: for a scalar error `term3 = Σ im1²/err²`. -/
theorem C26_term3_scalar (cfg : FFTConfig) (ah : Bool) (h : Spec.fits ah ny nx)
    (im1 im2 : Fin ny × Fin nx → Pix) (s : ℝ) (red : Bool) :
    ∃ m : Chi2Map ny nx, chi2nMap cfg im1 im2 (.scalar s) false true red ah = .ok (.all m) ∧
      m.term3 = .scalar (∑ p, Spec.nan0 im1 p ^ 2 / s ^ 2) := by
  rw [chi2nMap_same]
  unfold chi2nMapBody chi2nMapBodyB
  simp only [correlate2dB_wrap, correlate2d_eq cfg ah h, bind, Except.bind, pure, Except.pure, finiteVals_realArr,
      finiteVals_nanToNum]
  exact ⟨_, rfl, rfl⟩

/-! ## C27 -/

omit [NeZero ny] [NeZero nx] in
/-- C27: `chi2n_map` raises ValueError whenever the shapes differ. -/
theorem C27_chi2n_map {my mx : ℕ} (cfg : FFTConfig) (im1 : Fin ny × Fin nx → Pix)
    (im2 : Fin my × Fin mx → Pix) (err : ErrArg ny nx) (zm ra red ah : Bool)
    (h : (ny, nx) ≠ (my, mx)) : chi2nMap cfg im1 im2 err zm ra red ah = .error .valueError := by
  unfold chi2nMap chi2nMapB
  rw [dif_neg]
  rintro ⟨rfl, rfl⟩; exact h rfl

/-- C27: for equal shapes `chi2n_map` completes, unless the image exceeds the size limit. -/
theorem C27_chi2n_map_ok (cfg : FFTConfig) (im1 im2 : Fin ny × Fin nx → Pix) (err : ErrArg ny nx)
    (zm ra red ah : Bool) :
    (∃ r, chi2nMap cfg im1 im2 err zm ra red ah = .ok r) ↔ Spec.fits ah ny nx := by
  constructor
  · rintro ⟨r, hr⟩
    by_contra hc
    rw [chi2nMap_same, chi2nMapBody_huge cfg im1 im2 err zm red ah hc] at hr
    cases hr
  · intro h
    obtain ⟨m, h1, -⟩ := chi2nMapBody_eq cfg im1 im2 err zm red ah h
    exact ⟨_, by rw [chi2nMap_same, h1]; rfl⟩

/-- C27: `chi2_shift` raises ValueError whenever the shapes differ. -/
theorem C27_chi2_shift {my mx : ℕ} (cfg : FFTConfig) (st : Stats) (im1 : Fin ny × Fin nx → Pix)
    (im2 : Fin my × Fin mx → Pix) (err : ErrArg ny nx) (us : UsFactor) (zm : Bool) (nf : ℝ)
    (vb re rc : Bool) (mas : ℕ) (mns : ℝ) (ah : Bool) (h : (ny, nx) ≠ (my, mx)) :
    chi2Shift cfg st im1 im2 err us zm nf vb re rc mas mns ah = .error .valueError := by
  have h1 := C27_chi2n_map cfg im1 im2 err zm true false ah h
  unfold chi2nMap at h1
  unfold chi2Shift chi2ShiftB
  rw [h1]
  rfl

/-! ## C28 -/

omit [NeZero ny] [NeZero nx] in
/-- C28: with `zeromean=True`, adding constants to the images (NaN pixels staying NaN) does not change
the result of `chi2n_map`, whatever the error argument and the other flags. -/
theorem C28_zeromean (cfg : FFTConfig) (im1 im2 : Fin ny × Fin nx → Pix) (err : ErrArg ny nx)
    (ra red ah : Bool) (c1 c2 : ℝ) :
    chi2nMap cfg (fun i => (im1 i).map (· + c1)) (fun i => (im2 i).map (· + c2)) err true ra red ah
      = chi2nMap cfg im1 im2 err true ra red ah := by
  have key : ∀ (im : Fin ny × Fin nx → Pix) (c : ℝ),
      subPix (fun i => (im i).map (· + c)) (nanMean fun i => (im i).map (· + c))
        = subPix im (nanMean im) := by
    intro im c
    have hf : (univ.filter fun i => ((im i).map (· + c)).isSome)
        = univ.filter fun i => (im i).isSome := by
      ext i; simp
    have hmean : nanMean (fun i => (im i).map (· + c)) = (nanMean im).map (· + c) := by
      unfold nanMean
      rw [hf]
      split_ifs with h0
      · rfl
      · simp only [Option.map_some, Option.some.injEq]
        have hc : ((univ.filter fun i => (im i).isSome).card : ℝ) ≠ 0 := by exact_mod_cast h0
        have : ∑ i ∈ univ.filter fun i => (im i).isSome, ((im i).map (· + c)).getD 0
            = ∑ i ∈ univ.filter fun i => (im i).isSome, (im i).getD 0
              + (univ.filter fun i => (im i).isSome).card * c := by
          rw [← nsmul_eq_mul, ← Finset.sum_const, ← Finset.sum_add_distrib]
          refine Finset.sum_congr rfl fun i hi => ?_
          obtain ⟨v, hv⟩ := Option.isSome_iff_exists.1 (Finset.mem_filter.1 hi).2
          simp [hv]
        rw [this]
        field_simp
    rw [hmean]
    funext i
    unfold subPix
    rcases him : im i with _ | v <;> rcases nanMean im with _ | u <;> simp [him]
  rw [chi2nMap_same, chi2nMap_same]
  unfold chi2nMapBody chi2nMapBodyB
  simp only [if_true, key]

omit [NeZero ny] [NeZero nx] in
/-- C28: `zeromean=True` is the same as subtracting from each image the constant that makes its valid
pixels sum to zero. -/
theorem C28_is_centering (cfg : FFTConfig) (im1 im2 : Fin ny × Fin nx → Pix) (err : ErrArg ny nx)
    (ra red ah : Bool) (c1 c2 : ℝ) (hv1 : ∃ i, (im1 i).isSome) (hv2 : ∃ i, (im2 i).isSome)
    (h1 : ∑ i, Spec.nan0 (fun i => (im1 i).map (· - c1)) i = 0)
    (h2 : ∑ i, Spec.nan0 (fun i => (im2 i).map (· - c2)) i = 0) :
    chi2nMap cfg im1 im2 err true ra red ah
      = chi2nMap cfg (fun i => (im1 i).map (· - c1)) (fun i => (im2 i).map (· - c2)) err false ra
          red ah := by
  have key : ∀ (im : Fin ny × Fin nx → Pix) (c : ℝ), (∃ i, (im i).isSome) →
      ∑ i, Spec.nan0 (fun i => (im i).map (· - c)) i = 0 →
      subPix im (nanMean im) = fun i => (im i).map (· - c) := by
    intro im c hv h0
    have hcard : (univ.filter fun i => (im i).isSome).card ≠ 0 := by
      obtain ⟨i, hi⟩ := hv
      exact Finset.card_ne_zero.2 ⟨i, by simp [hi]⟩
    have hc : ((univ.filter fun i => (im i).isSome).card : ℝ) ≠ 0 := by exact_mod_cast hcard
    have h1 : ∀ i, Spec.nan0 (fun i => (im i).map (· - c)) i
        = if (im i).isSome then (im i).getD 0 - c else 0 := by
      intro i
      show ((im i).map (· - c)).getD 0 = _
      rcases im i with _ | v <;> simp
    simp_rw [h1] at h0
    rw [← Finset.sum_filter, Finset.sum_sub_distrib, Finset.sum_const, nsmul_eq_mul] at h0
    have hmean : nanMean im = some c := by
      unfold nanMean
      rw [if_neg hcard]
      congr 1
      rw [div_eq_iff hc]; linarith
    rw [hmean]
    funext i
    unfold subPix
    rcases im i with _ | v <;> simp
  rw [chi2nMap_same, chi2nMap_same]
  unfold chi2nMapBody chi2nMapBodyB
  simp only [if_true, key im1 c1 hv1 h1, key im2 c2 hv2 h2, Bool.false_eq_true, if_false]

/-! ## C29 -/

/-- C29: multiplying a scalar error by `s` divides the map by `s²`; the sign is irrelevant. -/
theorem C29_scalar (cfg : FFTConfig) (ah : Bool) (h : Spec.fits ah ny nx)
    (im1 im2 : Fin ny × Fin nx → Pix) (t s : ℝ) (_hs : s ≠ 0) (_ht : t ≠ 0) (zm : Bool) :
    ∃ c c' : Fin ny × Fin nx → ℝ,
      chi2nMap cfg im1 im2 (.scalar t) zm false false ah = .ok (.only c) ∧
      chi2nMap cfg im1 im2 (.scalar (s * t)) zm false false ah = .ok (.only c') ∧
      ∀ i, c' i = c i / s ^ 2 := by
  obtain ⟨m, h1, h2⟩ := chi2nMapBody_chi2 cfg im1 im2 (.scalar t) zm ah h
  obtain ⟨m', h1', h2'⟩ := chi2nMapBody_chi2 cfg im1 im2 (.scalar (s * t)) zm ah h
  refine ⟨m.chi2, m'.chi2, by rw [chi2nMap_same, h1]; rfl, by rw [chi2nMap_same, h1']; rfl, fun i => ?_⟩
  rw [h2, h2']
  unfold Spec.chi2
  rw [Finset.sum_div]
  refine Finset.sum_congr rfl fun p _ => ?_
  simp only [Spec.errOf, Spec.maskOf]
  rw [mul_pow, div_div, mul_comm (s ^ 2)]

/-- C29: the same for an error image without zero pixels (NaN pixels stay NaN): it divides the map by
`s²` provided no pixel is masked. -/
theorem C29_image (cfg : FFTConfig) (ah : Bool) (h : Spec.fits ah ny nx)
    (im1 im2 : Fin ny × Fin nx → Pix) (er : Fin ny × Fin nx → ℝ) (her : ∀ p, er p ≠ 0) (s : ℝ)
    (hs : s ≠ 0) (zm : Bool) :
    ∃ c c' : Fin ny × Fin nx → ℝ,
      chi2nMap cfg im1 im2 (.image (realArr er)) zm false false ah = .ok (.only c) ∧
      chi2nMap cfg im1 im2 (.image (realArr fun p => s * er p)) zm false false ah = .ok (.only c') ∧
      ∀ i, c' i = c i / s ^ 2 := by
  obtain ⟨m, h1, h2⟩ := chi2nMapBody_chi2 cfg im1 im2 (.image (realArr er)) zm ah h
  obtain ⟨m', h1', h2'⟩ :=
    chi2nMapBody_chi2 cfg im1 im2 (.image (realArr fun p => s * er p)) zm ah h
  refine ⟨m.chi2, m'.chi2, by rw [chi2nMap_same, h1]; rfl, by rw [chi2nMap_same, h1']; rfl, fun i => ?_⟩
  rw [h2, h2']
  unfold Spec.chi2
  rw [Finset.sum_div]
  refine Finset.sum_congr rfl fun p _ => ?_
  simp only [Spec.errOf, Spec.maskOf, Spec.nan0, realArr, Option.getD_some, mul_eq_zero, hs, her,
    or_self, if_false]
  rw [mul_pow, div_div, mul_comm (s ^ 2)]

/-! ## C30 -/

/-- C30: rolling `im2` by `(dy,dx)` rolls the map by `(-dy,-dx)`, for no or a scalar error. -/
theorem C30_roll (cfg : FFTConfig) (ah : Bool) (h : Spec.fits ah ny nx)
    (im1 im2 : Fin ny × Fin nx → Pix) (err : ErrArg ny nx) (s : ℝ) (herr : Spec.isScalarErr err s)
    (zm : Bool) (dy dx : ℤ) :
    ∃ c c' : Fin ny × Fin nx → ℝ,
      chi2nMap cfg im1 im2 err zm false false ah = .ok (.only c) ∧
      chi2nMap cfg im1 (Spec.roll2 dy dx im2) err zm false false ah = .ok (.only c') ∧
      c' = Spec.roll2 (-dy) (-dx) c := by
  obtain ⟨m, h1, h2⟩ := chi2nMapBody_chi2 cfg im1 im2 err zm ah h
  obtain ⟨m', h1', h2'⟩ := chi2nMapBody_chi2 cfg im1 (Spec.roll2 dy dx im2) err zm ah h
  refine ⟨m.chi2, m'.chi2, by rw [chi2nMap_same, h1]; rfl, by rw [chi2nMap_same, h1']; rfl, ?_⟩
  funext i
  have he : Spec.errOf err = fun _ => s := by
    cases err <;> simp_all [Spec.isScalarErr, Spec.errOf]
  have hm : ∀ im : Fin ny × Fin nx → Pix, Spec.maskOf err (prep zm im) = prep zm im := by
    intro im
    cases err <;> simp_all [Spec.isScalarErr, Spec.maskOf]
  unfold Spec.roll2
  rw [h2', h2, he, hm, hm, hm, prep_roll2]
  unfold Spec.chi2
  refine Finset.sum_congr rfl fun p _ => ?_
  congr 3
  simp only [Spec.roll2, Spec.move, Spec.lag]
  have key : ∀ (n : ℕ) [NeZero n] (p i : Fin n) (d : ℤ),
      Spec.wrap n (((Spec.wrap n (((p : ℕ) : ℤ) + ((Spec.zeroLag n : ℤ) - ((i : ℕ) : ℤ))) : ℕ) : ℤ) - d)
      = Spec.wrap n (((p : ℕ) : ℤ) + ((Spec.zeroLag n : ℤ)
          - ((Spec.wrap n (((i : ℕ) : ℤ) - -d) : ℕ) : ℤ))) := by
    intro n _ p i d
    apply Spec.wrap_congr
    have h1 := (Spec.wrap_modEq n (((p : ℕ) : ℤ) + ((Spec.zeroLag n : ℤ) - ((i : ℕ) : ℤ)))).sub
      (Int.ModEq.refl d)
    have h2 := (Int.ModEq.refl (((p : ℕ) : ℤ))).add ((Int.ModEq.refl (Spec.zeroLag n : ℤ)).sub
      (Spec.wrap_modEq n (((i : ℕ) : ℤ) - -d)))
    refine h1.trans (Int.ModEq.trans ?_ h2.symm)
    rw [show ((p : ℕ) : ℤ) + ((Spec.zeroLag n : ℤ) - ((i : ℕ) : ℤ)) - d
      = ((p : ℕ) : ℤ) + ((Spec.zeroLag n : ℤ) - (((i : ℕ) : ℤ) - -d)) by ring]
  rw [key ny, key nx]

/-- the hypotheses of C23–C30 are met, e.g., by a scalar error 2 and an error image of ones -/
example : Spec.isScalarErr (ErrArg.scalar 2 : ErrArg 4 5) 2 ∧ (2 : ℝ) ≠ 0 ∧
    ∀ p : Fin 4 × Fin 5, Spec.nan0 (realArr fun _ => (1 : ℝ)) p ≠ 0 :=
  ⟨rfl, two_ne_zero, fun _ => one_ne_zero⟩

end

end ImgReg
