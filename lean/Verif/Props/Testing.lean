import Verif.Model.Testing
import Verif.Props.LeastSq
import Verif.Props.Kernel
import Verif.Props.Chi2Recover
import Verif.Props.Recipe

/-!
# Properties C104, C105: the synthetic images of `image_registration.tests`
-/

open Complex Finset
open scoped ComplexConjugate

namespace ImgReg

variable {ny nx : ℕ}

/-! ### C104: `make_offset_images` -/

/-- C104: a centre that is not an integer is refused with TypeError; otherwise a noise level of 0 with ZeroDivisionError. -/
theorem C104_errors (n : ℕ) (randn : Fin n × Fin n → ℝ) (xsh ysh width amp na : ℝ) (xcen ycen : Centre) :
    ((∃ c, xcen = .float c ∨ ycen = .float c) → makeOffsetImages n randn xsh ysh width amp na xcen ycen = .error .typeError) ∧
    ∀ cx cy : ℤ, makeOffsetImages n randn xsh ysh width amp 0 (.int cx) (.int cy) = .error .zeroDivisionError := by
  constructor
  · rintro ⟨c, rfl | rfl⟩
    · cases ycen <;> rfl
    · cases xcen <;> rfl
  · intro cx cy
    unfold makeOffsetImages
    simp

/-- C104: the two images. `image` is a Gaussian of height `amp` and width `width` centred on the pixel `(ycen, xcen)`, without noise;
`new_image` is the same Gaussian centred at `(ycen + ysh, xcen + xsh)` plus `noiseamp` times the draws, so that for a whole-pixel offset the
content of every pixel of `image` is found `ysh` rows and `xsh` columns further in `new_image` (if that is inside). `tolerance` is
`3/sqrt(2π·width²·amp/noiseamp)`. -/
theorem C104_images (n : ℕ) (randn : Fin n × Fin n → ℝ) (xsh ysh width amp na : ℝ) (hw : width ≠ 0) (hna : na ≠ 0) (cx cy : ℤ) :
    ∃ (image new : Fin n × Fin n → ℝ) (tol : Fl),
      makeOffsetImages n randn xsh ysh width amp na (.int cx) (.int cy) = .ok (realArr image, realArr new, tol) ∧
      (∀ i, image i = amp * Real.exp (-((((i.2 : ℕ) : ℝ) - cx) ^ 2 + (((i.1 : ℕ) : ℝ) - cy) ^ 2) / (2 * width ^ 2))) ∧
      (∀ i, new i - na * randn i
        = amp * Real.exp (-((((i.2 : ℕ) : ℝ) - (cx + xsh)) ^ 2 + (((i.1 : ℕ) : ℝ) - (cy + ysh)) ^ 2) / (2 * width ^ 2))) ∧
      (∀ (dy dx : ℤ) (i j : Fin n × Fin n), ysh = dy → xsh = dx → ((j.1 : ℕ) : ℤ) = ((i.1 : ℕ) : ℤ) + dy →
        ((j.2 : ℕ) : ℤ) = ((i.2 : ℕ) : ℤ) + dx → new j - na * randn j = image i) ∧
      (0 < amp / na → ∃ t, tol = .fin t ∧ 0 < t ∧ t ^ 2 * (2 * Real.pi * width ^ 2 * (amp / na)) = 9) := by
  classical
  have hg : ∀ r2, testGauss amp width r2 = some (amp * Real.exp (-r2 / (2 * width ^ 2))) := by
    intro r2; unfold testGauss; rw [if_neg hw]
  refine ⟨fun i => amp * Real.exp (-((((i.2 : ℕ) : ℝ) - cx) ^ 2 + (((i.1 : ℕ) : ℝ) - cy) ^ 2) / (2 * width ^ 2)),
    fun i => randn i * na
      + amp * Real.exp (-((((i.2 : ℕ) : ℝ) - (cx + xsh)) ^ 2 + (((i.1 : ℕ) : ℝ) - (cy + ysh)) ^ 2) / (2 * width ^ 2)),
    testTolerance width amp na, ?_, fun i => rfl, fun i => by ring, ?_, ?_⟩
  · unfold makeOffsetImages
    simp only [if_neg hna, hg, Option.map_some]
    congr 2
    · funext i
      unfold realArr
      congr 4
      rw [Real.sq_sqrt (by exact_mod_cast (add_nonneg (mul_self_nonneg (((i.2 : ℕ) : ℤ) - cx)) (mul_self_nonneg (((i.1 : ℕ) : ℤ) - cy))))]
      push_cast
      ring
    · congr 1
      funext i
      unfold realArr
      congr 5
      push_cast
      ring
  · rintro dy dx i j rfl rfl h1 h2
    have h1' : ((j.1 : ℕ) : ℝ) = ((i.1 : ℕ) : ℝ) + dy := by exact_mod_cast h1
    have h2' : ((j.2 : ℕ) : ℝ) = ((i.2 : ℕ) : ℝ) + dx := by exact_mod_cast h2
    beta_reduce
    rw [h1', h2']
    ring_nf
  · intro h
    have hpos : 0 < 2 * Real.pi * width ^ 2 * amp / na := by
      rw [mul_div_assoc]
      have := Real.pi_pos
      positivity
    have hs : Real.sqrt (2 * Real.pi * width ^ 2 * amp / na) ≠ 0 := (Real.sqrt_pos.2 hpos).ne'
    refine ⟨3 / Real.sqrt (2 * Real.pi * width ^ 2 * amp / na), ?_, by positivity, ?_⟩
    · unfold testTolerance Fl.div
      rw [if_neg (not_lt.2 hpos.le), if_neg hs]
    · have e : 2 * Real.pi * width ^ 2 * (amp / na) = 2 * Real.pi * width ^ 2 * amp / na := by ring
      rw [e, div_pow, Real.sq_sqrt hpos.le, div_mul_cancel₀ _ hpos.ne']
      norm_num

/-- C104: for a positive height the brightest pixel of `image` is the centre, and no other pixel is as bright. -/
theorem C104_peak (n : ℕ) (randn : Fin n × Fin n → ℝ) (xsh ysh width amp na : ℝ) (hw : width ≠ 0) (hna : na ≠ 0) (ha : 0 < amp) (cx cy : ℤ)
    (image new : Fin n × Fin n → ℝ) (tol : Fl)
    (h : makeOffsetImages n randn xsh ysh width amp na (.int cx) (.int cy) = .ok (realArr image, realArr new, tol)) (i : Fin n × Fin n) :
    0 < image i ∧ image i ≤ amp ∧ (image i = amp ↔ ((i.1 : ℕ) : ℤ) = cy ∧ ((i.2 : ℕ) : ℤ) = cx) := by
  obtain ⟨image', new', tol', h', him, -⟩ := C104_images n randn xsh ysh width amp na hw hna cx cy
  rw [h'] at h
  have he : image' = image := by
    have h1 : realArr image' = realArr image := (Prod.mk.inj (Except.ok.inj h)).1
    funext p
    exact Option.some.inj (congrFun h1 p)
  rw [← he, him]
  have hw2 : 0 < 2 * width ^ 2 := by positivity
  set r2 := (((i.2 : ℕ) : ℝ) - cx) ^ 2 + (((i.1 : ℕ) : ℝ) - cy) ^ 2 with hr
  have hr0 : 0 ≤ r2 := by positivity
  have hle : -r2 / (2 * width ^ 2) ≤ 0 := div_nonpos_of_nonpos_of_nonneg (by linarith) hw2.le
  refine ⟨by positivity, ?_, ?_⟩
  · calc amp * Real.exp (-r2 / (2 * width ^ 2)) ≤ amp * 1 := mul_le_mul_of_nonneg_left (Real.exp_le_one_iff.2 hle) ha.le
      _ = amp := mul_one _
  · rw [mul_eq_left₀ ha.ne', Real.exp_eq_one_iff, div_eq_zero_iff, or_iff_left hw2.ne', neg_eq_zero, hr]
    constructor
    · intro h0
      have h1 : (((i.2 : ℕ) : ℝ) - cx) ^ 2 = 0 := by nlinarith [sq_nonneg (((i.2 : ℕ) : ℝ) - cx), sq_nonneg (((i.1 : ℕ) : ℝ) - cy)]
      have h2 : (((i.1 : ℕ) : ℝ) - cy) ^ 2 = 0 := by nlinarith [sq_nonneg (((i.2 : ℕ) : ℝ) - cx), sq_nonneg (((i.1 : ℕ) : ℝ) - cy)]
      have h1' := sub_eq_zero.1 (pow_eq_zero_iff (two_ne_zero) |>.1 h1)
      have h2' := sub_eq_zero.1 (pow_eq_zero_iff (two_ne_zero) |>.1 h2)
      exact ⟨by exact_mod_cast h2', by exact_mod_cast h1'⟩
    · rintro ⟨h1, h2⟩
      have h1' : ((i.1 : ℕ) : ℝ) = cy := by exact_mod_cast h1
      have h2' : ((i.2 : ℕ) : ℝ) = cx := by exact_mod_cast h2
      rw [h1', h2']; ring

/-- C104 with the default width and height: the pixel (50, 50) of a 100×100 image is found again at (47, 52) for the offset (2, -3). -/
example (randn : Fin 100 × Fin 100 → ℝ) :
    ∃ (image new : Fin 100 × Fin 100 → ℝ) (tol : Fl),
      makeOffsetImages 100 randn 2 (-3) 3 1000 1 (.int 50) (.int 50) = .ok (realArr image, realArr new, tol) ∧
      image (50, 50) = 1000 ∧ new (47, 52) = 1000 + randn (47, 52) := by
  obtain ⟨image, new, tol, h, -, -, hm, -⟩ := C104_images 100 randn 2 (-3) 3 1000 1 (by norm_num) (by norm_num) 50 50
  have hp := (C104_peak 100 randn 2 (-3) 3 1000 1 (by norm_num) (by norm_num) (by norm_num) 50 50 image new tol h (50, 50)).2.2.2 ⟨rfl, rfl⟩
  refine ⟨image, new, tol, h, hp, ?_⟩
  have h1 := hm (-3) 2 (50, 50) (47, 52) (by norm_num) (by norm_num) rfl rfl
  rw [hp] at h1
  linarith

/-! ### C105: `make_extended` -/

/-- the pixel of the spectrum `make_extended` takes for frequency 0 (between two pixels for an odd size) -/
noncomputable def Spec.specCentre (n : ℕ) : ℝ := if Even n then (n : ℝ) / 2 - 1 else (n : ℝ) / 2

/-- power-law amplitude `r^(-powerlaw/2)` at distance `r` from the centre of the spectrum; the centre itself is left out (except for a flat
spectrum) -/
noncomputable def Spec.powerLawAmp (powerlaw : ℝ) (k : Fin ny × Fin nx) : ℝ :=
  open Classical in
  let r := Real.sqrt ((((k.2 : ℕ) : ℝ) - Spec.specCentre nx) ^ 2 + (((k.1 : ℕ) : ℝ) - Spec.specCentre ny) ^ 2)
  if r = 0 then (if powerlaw = 0 then 1 else 0) else r ^ (-powerlaw / 2)

theorem extCentre_eq (n : ℕ) : extCentre n = Spec.specCentre n := by
  unfold extCentre Spec.specCentre
  rcases Nat.even_or_odd n with h | h
  · rw [if_pos h, Nat.even_iff.1 h]; norm_num
  · rw [if_neg (Nat.not_even_iff_odd.2 h), Nat.odd_iff.1 h]; norm_num

theorem extPowermap_eq (pl : ℝ) (g1 g2 : Fin ny × Fin nx → ℝ) :
    extPowermap pl g1 g2 = cArr fun k => ((g1 k : ℂ) + g2 k * I) * Spec.powerLawAmp pl k := by
  classical
  funext k
  unfold extPowermap extRadius Spec.powerLawAmp cArr
  rw [extCentre_eq, extCentre_eq]
  simp only
  generalize Real.sqrt ((((k.2 : ℕ) : ℝ) - Spec.specCentre nx) ^ 2 + (((k.1 : ℕ) : ℝ) - Spec.specCentre ny) ^ 2) = r
  by_cases hr : r = 0
  · rw [if_pos hr, if_pos hr]
    unfold npPow
    by_cases hp : pl = 0
    · simp [hp]
    · rw [if_neg hp, if_neg (by intro h; apply hp; linarith)]
      simp
  · rw [if_neg hr, if_neg hr]
    unfold npPow
    simp only [Option.map_some, Option.getD_some]
    push_cast
    congr 1
    ring

variable [NeZero ny] [NeZero nx]

theorem makeExtended_eq (pl : ℝ) (g1 g2 : Fin ny × Fin nx → ℝ) :
    makeExtended pl g1 g2 = realArr fun i => ‖idft (fun k => ((g1 k : ℂ) + g2 k * I) * Spec.powerLawAmp pl k)
      (Np.fftshiftIdx i.1, Np.fftshiftIdx i.2)‖ := by
  unfold makeExtended
  rw [extPowermap_eq, Np.ifftn_cArr]
  rfl

/-- C105: the image is the modulus of a random field with a power-law spectrum: the coefficient at distance `r` from the zero frequency is the
complex draw times `r^(-powerlaw/2)`. Which pixel `(cy, cx)` of the spectrum is taken for the zero frequency, and that no `ifftshift` is
applied to it, does not matter. Position 0 of the field is the pixel `(ny//2, nx//2)`. No pixel is negative or NaN. -/
theorem C105_field (pl : ℝ) (g1 g2 : Fin ny × Fin nx → ℝ) :
    ∃ m : Fin ny × Fin nx → ℝ, makeExtended pl g1 g2 = realArr m ∧ (∀ i, 0 ≤ m i) ∧
      ∀ (cy cx : ℝ) (i : Fin ny × Fin nx),
        m i = ‖∑ k : Fin ny × Fin nx, ((g1 k : ℂ) + g2 k * I) * Spec.powerLawAmp pl k
          * ex ((((k.1 : ℕ) : ℝ) - cy) * (((i.1 : ℕ) : ℝ) - (ny / 2 : ℕ)) / ny
            + (((k.2 : ℕ) : ℝ) - cx) * (((i.2 : ℕ) : ℝ) - (nx / 2 : ℕ)) / nx)‖ / ((ny : ℝ) * nx) := by
  refine ⟨_, makeExtended_eq pl g1 g2, fun i => norm_nonneg _, fun cy cx i => ?_⟩
  have key : ∀ (n : ℕ) [NeZero n] (k i : Fin n), e k (Np.fftshiftIdx i) = ex (((k : ℕ) : ℝ) * (((i : ℕ) : ℝ) - (n / 2 : ℕ)) / n) := by
    intro n _ k i
    have h1 : (((Np.fftshiftIdx i : Fin n) : ℕ) : ℤ) ≡ ((i : ℕ) : ℤ) - ((n / 2 : ℕ) : ℤ) [ZMOD n] := by
      unfold Np.fftshiftIdx
      refine (Fin.val_sub_modEq i _).trans ((Int.ModEq.refl _).sub ?_)
      simp only [Fin.ofNat]
      exact Int.natCast_modEq_iff.2 (Nat.mod_modEq _ _)
    have h2 := ex_div_congr (h1.mul_left ((k : ℕ) : ℤ))
    rw [e_fin]
    simp only [Int.cast_mul, Int.cast_sub, Int.cast_natCast] at h2
    exact h2
  unfold idft
  rw [norm_mul]
  have hc : ‖(1 / (Fintype.card (Fin ny × Fin nx) : ℂ))‖ = 1 / ((ny : ℝ) * nx) := by
    rw [norm_div, norm_one, Complex.norm_natCast]
    simp [Fintype.card_prod]
  rw [hc, one_div, inv_mul_eq_div]
  congr 1
  set ph : ℝ := -(cy * (((i.1 : ℕ) : ℝ) - (ny / 2 : ℕ)) / ny + cx * (((i.2 : ℕ) : ℝ) - (nx / 2 : ℕ)) / nx) with hph
  rw [← one_mul ‖∑ k, _ * e k _‖, ← norm_ex ph, ← norm_mul, Finset.mul_sum]
  congr 1
  refine Finset.sum_congr rfl fun k _ => ?_
  have he : e k ((Np.fftshiftIdx i.1, Np.fftshiftIdx i.2) : Fin ny × Fin nx)
      = ex (((k.1 : ℕ) : ℝ) * (((i.1 : ℕ) : ℝ) - (ny / 2 : ℕ)) / ny) * ex (((k.2 : ℕ) : ℝ) * (((i.2 : ℕ) : ℝ) - (nx / 2 : ℕ)) / nx) := by
    rw [← key, ← key]; rfl
  rw [he, mul_left_comm]
  congr 1
  rw [← ex_add, ← ex_add]
  congr 1
  rw [hph]
  ring

/-- C105: the power. The mean square pixel value is fixed by the draws: `Σ image² = Σ_k |draw(k)|²·r(k)^(-powerlaw) / (ny·nx)`, each frequency
contributing its share of the power law. -/
theorem C105_power (pl : ℝ) (g1 g2 m : Fin ny × Fin nx → ℝ) (h : makeExtended pl g1 g2 = realArr m) :
    ∑ i, m i ^ 2 = (∑ k, (g1 k ^ 2 + g2 k ^ 2) * Spec.powerLawAmp pl k ^ 2) / ((ny : ℝ) * nx) := by
  rw [makeExtended_eq] at h
  have hm : m = fun i : Fin ny × Fin nx => ‖idft (fun k => ((g1 k : ℂ) + g2 k * I) * Spec.powerLawAmp pl k)
      (Np.fftshiftIdx i.1, Np.fftshiftIdx i.2)‖ := by
    funext p; exact (Option.some.inj (congrFun h p)).symm
  rw [hm]
  set P : Fin ny × Fin nx → ℂ := fun k => ((g1 k : ℂ) + g2 k * I) * Spec.powerLawAmp pl k with hP
  have e1 : ∑ i : Fin ny × Fin nx, ‖idft P (Np.fftshiftIdx i.1, Np.fftshiftIdx i.2)‖ ^ 2 = ∑ i, ‖idft P i‖ ^ 2 := by
    have := Equiv.sum_comp (Equiv.subRight ((Fin.ofNat ny (ny / 2), Fin.ofNat nx (nx / 2)) : Fin ny × Fin nx)) fun i => ‖idft P i‖ ^ 2
    rw [← this]
    rfl
  rw [e1, parseval_normSq, dft_idft]
  have e2 : ∀ k, ‖P k‖ ^ 2 = (g1 k ^ 2 + g2 k ^ 2) * Spec.powerLawAmp pl k ^ 2 := by
    intro k
    rw [hP]
    beta_reduce
    rw [norm_mul, mul_pow, Complex.norm_real, Real.norm_eq_abs, sq_abs, Complex.sq_norm, Complex.normSq_add_mul_I]
  simp only [e2, Fintype.card_prod, Fintype.card_fin]
  push_cast
  rw [one_div, inv_mul_eq_div]

omit [NeZero ny] [NeZero nx] in
/-- C105: which frequencies are used (`powerlaw ≠ 0`). If both sizes are even exactly one, `(ny/2 - 1, nx/2 - 1)`, is left out; if one size is
odd none is. -/
theorem C105_dropped (pl : ℝ) (hpl : pl ≠ 0) (k : Fin ny × Fin nx) :
    (Spec.powerLawAmp pl k = 0 ↔ 2 * ((k.1 : ℕ) + 1) = ny ∧ 2 * ((k.2 : ℕ) + 1) = nx) ∧ 0 ≤ Spec.powerLawAmp pl k := by
  classical
  have hc : ∀ (n : ℕ) (k : Fin n), ((k : ℕ) : ℝ) - Spec.specCentre n = 0 ↔ 2 * ((k : ℕ) + 1) = n := by
    intro n k
    unfold Spec.specCentre
    split_ifs with he
    · constructor
      · intro h
        have : 2 * (((k : ℕ) : ℝ) + 1) = n := by linarith
        exact_mod_cast this
      · intro h
        have : 2 * (((k : ℕ) : ℝ) + 1) = n := by exact_mod_cast h
        linarith
    · constructor
      · intro h
        exfalso
        have : 2 * ((k : ℕ) : ℝ) = n := by linarith
        have : 2 * (k : ℕ) = n := by exact_mod_cast this
        exact he ⟨k, by omega⟩
      · intro h
        exact absurd ⟨(k : ℕ) + 1, by omega⟩ he
  unfold Spec.powerLawAmp
  simp only
  set r2 := (((k.2 : ℕ) : ℝ) - Spec.specCentre nx) ^ 2 + (((k.1 : ℕ) : ℝ) - Spec.specCentre ny) ^ 2 with hr
  have h0 : Real.sqrt r2 = 0 ↔ 2 * ((k.1 : ℕ) + 1) = ny ∧ 2 * ((k.2 : ℕ) + 1) = nx := by
    rw [Real.sqrt_eq_zero (by positivity), hr, ← hc, ← hc]
    constructor
    · intro h
      have h1 := sq_nonneg (((k.2 : ℕ) : ℝ) - Spec.specCentre nx)
      have h2 := sq_nonneg (((k.1 : ℕ) : ℝ) - Spec.specCentre ny)
      exact ⟨pow_eq_zero_iff two_ne_zero |>.1 (by linarith), pow_eq_zero_iff two_ne_zero |>.1 (by linarith)⟩
    · rintro ⟨h1, h2⟩
      rw [h1, h2]; norm_num
  rw [if_neg hpl]
  split_ifs with h
  · exact ⟨⟨fun _ => h0.1 h, fun _ => rfl⟩, le_rfl⟩
  · have hpos : 0 < Real.sqrt r2 := lt_of_le_of_ne (Real.sqrt_nonneg _) (Ne.symm h)
    refine ⟨⟨fun hz => absurd hz (Real.rpow_pos_of_pos hpos _).ne', fun hz => absurd (h0.2 hz) h⟩, (Real.rpow_pos_of_pos hpos _).le⟩

/-- C105: brighter draws. Multiplying all draws by `t` multiplies the image by `|t|`. -/
theorem C105_scale (pl t : ℝ) (g1 g2 m : Fin ny × Fin nx → ℝ) (h : makeExtended pl g1 g2 = realArr m) :
    makeExtended pl (fun k => t * g1 k) (fun k => t * g2 k) = realArr fun i => |t| * m i := by
  rw [makeExtended_eq] at h ⊢
  funext p
  have hp := Option.some.inj (congrFun h p)
  show some _ = some _
  congr 1
  beta_reduce at hp ⊢
  rw [← hp]
  have e1 : (fun k : Fin ny × Fin nx => (((t * g1 k : ℝ) : ℂ) + ((t * g2 k : ℝ) : ℂ) * I) * Spec.powerLawAmp pl k)
      = fun k => (t : ℂ) * (((g1 k : ℂ) + g2 k * I) * Spec.powerLawAmp pl k) := by
    funext k; push_cast; ring
  rw [e1, show (fun k : Fin ny × Fin nx => (t : ℂ) * (((g1 k : ℂ) + g2 k * I) * Spec.powerLawAmp pl k))
    = fun k => (t : ℂ) * (fun k => ((g1 k : ℂ) + g2 k * I) * (Spec.powerLawAmp pl k : ℂ)) k from rfl, idft_smul, norm_mul, Complex.norm_real, Real.norm_eq_abs]

/-- C105 for a 2×2 image with `powerlaw=2`: the pixel (0, 0) of the spectrum is dropped, the others are not. -/
example : Spec.powerLawAmp 2 ((0, 0) : Fin 2 × Fin 2) = 0 ∧ Spec.powerLawAmp 2 ((1, 0) : Fin 2 × Fin 2) ≠ 0 := by
  refine ⟨(C105_dropped 2 (by norm_num) _).1.2 ⟨rfl, rfl⟩, fun h => ?_⟩
  have := ((C105_dropped 2 (by norm_num) _).1.1 h).1
  simp at this

end ImgReg
