import Verif.Props.Noise
import Verif.Props.Shift

/-!
# The documented recipe: measure the offset with `chi2_shift`, undo it with `shift2d` (C100)

`xoff, yoff = chi2_shift(image, offset_image, …)[:2]; corrected = shift2d(offset_image, -xoff, -yoff)` (README.md:22-23; there with
`shiftnd(offset_image, (-yoff, -xoff))`, which is the same by C06).
-/

open Complex Finset

namespace ImgReg

section
variable {ny nx : ℕ} [NeZero ny] [NeZero nx]

/-- the default (real) mode of `shift2d` returns the real part of `cshift` -/
theorem shift2d_real (cfg : FFTConfig) (im : Fin ny × Fin nx → ℝ) (dx dy : ℝ) (ra : Bool) :
    shift2d cfg (rArr im) dx dy 0 ra true = .real (realArr fun p => (cshift dy dx im p).re) := by
  rw [shift2d_eq, denan_rArr]
  simp only [shiftKernel_zero]
  rw [shiftReturn_real]
  rfl

/-- C100: for any two real images, the corrected image is at least as close to `im1` (sum of squared differences, in units of the
scalar error) as the smallest chi-squared of the returned array; no grid point of the search does better. -/
theorem C100_corrected_residual (cfg cfg' : FFTConfig) (st : Stats) (hst : Spec.validStats st)
    (im1 im2 : Fin ny × Fin nx → ℝ) (err : ErrArg ny nx) (s : ℝ) (hs : s ≠ 0) (herr : Spec.isScalarErr err s)
    (us : UsFactor) (nf : ℝ) (mas : ℕ) (mns : ℝ) (ah : Bool) (hf : Spec.fits ah ny nx) (hus : Spec.validUs ny mas us) (ra : Bool) :
    ∃ (rx ry : ℝ) (s1 s2 : ℕ) (xv yv c : Fin s1 × Fin s2 → ℝ) (corrected : Fin ny × Fin nx → ℝ),
      chi2Shift cfg st (realArr im1) (realArr im2) err us false nf false false true mas mns ah
        = .ok [.num rx, .num ry, .arrays s1 s2 xv yv c] ∧
      shift2d cfg' (rArr im2) (-rx) (-ry) 0 ra true = .real (realArr corrected) ∧
      ∀ g, ∑ p, (im1 p - corrected p) ^ 2 / s ^ 2 ≤ c g := by
  obtain ⟨cm, hcm, hchi, s1, s2, i1, i2, hg, uu, huu, hu0, yv, xv, hyv, hxv, c, hc, er, her, hres⟩ :=
    chi2Shift_scalar cfg st hst (realArr im1) (realArr im2) err s herr us false nf mas mns ah hf hus
  refine ⟨_, _, s1, s2, xv, yv, c, fun p => (cshift (yv (Np.argmin c)) (xv (Np.argmin c)) im2 p).re,
    (hres false true).trans rfl, by rw [neg_neg, neg_neg, shift2d_real], fun g => ?_⟩
  have hmin := (Np.argmin_spec c).1 g
  refine le_trans ?_ hmin
  have hval : c (Np.argmin c) = Spec.resid im1 im2 s (yv (Np.argmin c)) (xv (Np.argmin c)) := by
    generalize Np.argmin c = i
    rw [hc]
    rfl
  rw [hval]
  unfold Spec.resid
  refine Finset.sum_le_sum fun p _ => ?_
  refine div_le_div_of_nonneg_right ?_ (by positivity)
  rw [← sq_abs]
  refine pow_le_pow_left₀ (abs_nonneg _) ?_ 2
  have := Complex.abs_re_le_norm ((im1 p : ℂ) - cshift (yv (Np.argmin c)) (xv (Np.argmin c)) im2 p)
  simpa using this

/-- rolling back -/
theorem roll2_back {dy dy' dx dx' : ℤ} (h1 : dy' ≡ dy [ZMOD ny]) (h2 : dx' ≡ dx [ZMOD nx]) (x : Fin ny × Fin nx → ℝ) :
    Spec.roll2 (-dy') (-dx') (Spec.roll2 dy dx x) = x := by
  have key : ∀ {n : ℕ} [NeZero n] (i : Fin n) (a b : ℤ), a ≡ b [ZMOD n] →
      Spec.wrap n (((Spec.wrap n (((i : ℕ) : ℤ) - -a) : Fin n) : ℕ) - b) = i := by
    intro n _ i a b h
    have h3 : (((Spec.wrap n (((i : ℕ) : ℤ) - -a) : Fin n) : ℕ) : ℤ) - b ≡ ((i : ℕ) : ℤ) [ZMOD n] := by
      have := ((Spec.wrap_modEq n (((i : ℕ) : ℤ) - -a)).sub_right b).trans
        (((Int.ModEq.refl ((i : ℕ) : ℤ)).sub (h.neg)).sub_right b)
      simpa using this
    rw [Spec.wrap_congr n h3]
    exact Spec.wrap_val n i
  funext p
  unfold Spec.roll2
  exact congrArg x (Prod.ext (key p.1 dy' dy h1) (key p.2 dx' dx h2))

/-- C100: whole pixels. If `im2` is `im1` rolled by whole pixels (under the conditions of C33) the corrected image is exactly `im1`. -/
theorem C100_corrected_roll (cfg cfg' : FFTConfig) (st : Stats) (hst : Spec.validStats st)
    (im1 : Fin ny × Fin nx → ℝ) (hy : 2 ≤ ny) (hx : 2 ≤ nx)
    (h10 : dft (fun p => (im1 p : ℂ)) (1, 0) ≠ 0) (h01 : dft (fun p => (im1 p : ℂ)) (0, 1) ≠ 0)
    (dy dx : ℤ) (err : ErrArg ny nx) (s : ℝ) (hs : s ≠ 0) (herr : Spec.isScalarErr err s)
    (u : ℕ) (hu : 0 < u) (zm : Bool) (nf : ℝ) (mas : ℕ) (mns : ℝ) (ah : Bool) (hf : Spec.fits ah ny nx)
    (hgy : Spec.wholeOnGrid ny (if ny ≤ u then 2 * u else ny) u)
    (hgx : Spec.wholeOnGrid nx (if ny ≤ u then 2 * u else nx) u) (ra : Bool) :
    ∃ xoff yoff : ℝ,
      chi2Shift cfg st (realArr im1) (realArr (Spec.roll2 dy dx im1)) err (.int u) zm nf false false
        false mas mns ah = .ok [.num xoff, .num yoff] ∧
      shift2d cfg' (rArr (Spec.roll2 dy dx im1)) (-xoff) (-yoff) 0 ra true = .real (realArr im1) := by
  obtain ⟨dx', dy', h1, h2, -, -, h3, -, -⟩ := C33_recovers_roll cfg st hst im1 hy hx h10 h01 dy dx err s hs herr u hu zm nf mas mns ah
    hf hgy hgx
  refine ⟨_, _, h1, ?_⟩
  have := C02_shift2d_integer_roll cfg' (Spec.roll2 dy dx im1) (-dx') (-dy') ra
  push_cast at this
  rw [this, roll2_back h3 h2]

/-- C100: whole pixels with noise. If `im2` is `im1` rolled by whole pixels plus any disturbance below the level of C96, the corrected
image is `im1` plus the disturbance rolled back: nothing of the offset is left. -/
theorem C100_corrected_roll_with_noise (cfg cfg' : FFTConfig) (st : Stats) (hst : Spec.validStats st)
    (im1 noise : Fin ny × Fin nx → ℝ) (hy : 2 ≤ ny) (dy dx : ℤ)
    (err : ErrArg ny nx) (σ : Fin ny × Fin nx → ℝ) (hσ : ∀ p, σ p ≠ 0)
    (he : (∃ s, Spec.isScalarErr err s ∧ ∀ p, σ p = s) ∨ err = .image (realArr σ))
    (hnoise : ∀ ey ex : ℤ, ¬ (ey ≡ dy [ZMOD ny] ∧ ex ≡ dx [ZMOD nx]) →
      4 * ∑ p, noise p ^ 2 / σ p ^ 2 < ∑ p, (Spec.roll2 ey ex im1 p - Spec.roll2 dy dx im1 p) ^ 2 / σ p ^ 2)
    (nf : ℝ) (mas : ℕ) (mns : ℝ) (ah : Bool) (hf : Spec.fits ah ny nx) (ra : Bool) :
    ∃ xoff yoff : ℝ,
      chi2Shift cfg st (realArr im1) (realArr fun p => Spec.roll2 dy dx im1 p + noise p) err (.int 1) false nf false false
        false mas mns ah = .ok [.num xoff, .num yoff] ∧
      shift2d cfg' (rArr fun p => Spec.roll2 dy dx im1 p + noise p) (-xoff) (-yoff) 0 ra true
        = .real (realArr fun p => im1 p + Spec.roll2 (-dy) (-dx) noise p) := by
  obtain ⟨dx', dy', h1, h2, -, -, h3, -, -⟩ :=
    C96_roll_with_noise cfg st hst im1 noise hy dy dx err σ hσ he hnoise nf mas mns ah hf
  refine ⟨_, _, h1, ?_⟩
  have := C02_shift2d_integer_roll cfg' (fun p => Spec.roll2 dy dx im1 p + noise p) (-dx') (-dy') ra
  push_cast at this
  rw [this]
  congr 2
  funext p
  have h4 := congrFun (roll2_back h3 h2 im1) p
  have h5 := congrFun (roll2_congr (ny := ny) (nx := nx) h3.neg h2.neg noise) p
  rw [← h5]
  conv_rhs => rw [← h4]
  rfl

/-- C100: sub-pixel offsets. If `im2` is the Fourier-shifted `im1` (real for odd sizes) and the true offset is one of the grid points,
the corrected image is exactly `im1`. -/
theorem C100_corrected_subpixel (cfg cfg' : FFTConfig) (st : Stats) (hst : Spec.validStats st)
    (im1 im2 : Fin ny × Fin nx → ℝ) (hy : 2 ≤ ny) (hx : 2 ≤ nx)
    (h10 : dft (fun p => (im1 p : ℂ)) (1, 0) ≠ 0) (h01 : dft (fun p => (im1 p : ℂ)) (0, 1) ≠ 0)
    (dy dx : ℝ) (him2 : shift2d cfg' (rArr im1) dx dy 0 false false = .cplx (rArr im2))
    (err : ErrArg ny nx) (s : ℝ) (hs : s ≠ 0) (herr : Spec.isScalarErr err s)
    (u : ℕ) (hu : 0 < u) (zm : Bool) (nf : ℝ) (mas : ℕ) (mns : ℝ) (ah : Bool)
    (hf : Spec.fits ah ny nx) (ra : Bool) :
    ∃ (xoff yoff : ℝ) (s1 s2 : ℕ) (xv yv c : Fin s1 × Fin s2 → ℝ),
      chi2Shift cfg st (realArr im1) (realArr im2) err (.int u) zm nf false false true mas mns ah
        = .ok [.num xoff, .num yoff, .arrays s1 s2 xv yv c] ∧
      ((∃ i, xv i = -dx ∧ yv i = -dy) →
        shift2d cfg' (rArr im2) (-xoff) (-yoff) 0 ra true = .real (realArr im1)) := by
  obtain ⟨rx, ry, s1, s2, xv, yv, c, h1, h2⟩ := C33_recovers_subpixel cfg cfg' st hst im1 im2 hy hx h10 h01 dy dx him2 err s hs herr u hu
    zm nf mas mns ah hf
  refine ⟨rx, ry, s1, s2, xv, yv, c, h1, fun hi => ?_⟩
  obtain ⟨rfl, rfl⟩ := h2 hi
  have hb : ∀ p, (im2 p : ℂ) = cshift ry rx im1 p := by
    intro p
    rw [rArr_eq_cArr] at him2
    exact congrFun (shift2d_cplx him2) p
  rw [shift2d_real, cshift_cshift _ _ _ _ _ _ hb]
  congr 2
  funext p
  have := cshift_period im1 0 0 p
  simp only [Int.cast_zero, zero_mul] at this
  rw [neg_add_cancel, neg_add_cancel, this, Complex.ofReal_re]

end

/-- the hypotheses of `C100_corrected_roll` are met by a 3×3 image with one bright pixel, rolled by (1, -1) -/
example (cfg : FFTConfig) (zm : Bool) : ∃ xoff yoff : ℝ,
    chi2Shift cfg none (realArr fun p : Fin 3 × Fin 3 => if p = 0 then (1 : ℝ) else 0)
      (realArr (Spec.roll2 1 (-1) fun p : Fin 3 × Fin 3 => if p = 0 then (1 : ℝ) else 0))
      (.scalar 2) (.int 1) zm 2 false false false 512 1.1 true = .ok [.num xoff, .num yoff] ∧
    shift2d cfg (rArr (Spec.roll2 1 (-1) fun p : Fin 3 × Fin 3 => if p = 0 then (1 : ℝ) else 0)) (-xoff) (-yoff) 0 true true
      = .real (realArr fun p : Fin 3 × Fin 3 => if p = 0 then (1 : ℝ) else 0) := by
  have hd : ∀ k : Fin 3 × Fin 3, dft (fun p : Fin 3 × Fin 3 => ((if p = 0 then (1 : ℝ) else 0 : ℝ) : ℂ)) k ≠ 0 := by
    intro k
    have h1 : dft (fun p : Fin 3 × Fin 3 => ((if p = 0 then (1 : ℝ) else 0 : ℝ) : ℂ)) k = 1 := by
      unfold dft
      rw [Finset.sum_eq_single 0]
      · simp [FFTIndex.e_zero]
      · intro b _ hb; simp [hb]
      · simp
    rw [h1]; exact one_ne_zero
  exact C100_corrected_roll cfg cfg none trivial _ (by norm_num) (by norm_num) (hd _) (hd _) 1 (-1) (.scalar 2) 2 (by norm_num) rfl 1
    one_pos zm 2 512 1.1 true (.inl rfl) (.inl ⟨⟨1, rfl⟩, ⟨1, rfl⟩⟩) (.inl ⟨⟨1, rfl⟩, ⟨1, rfl⟩⟩) true

end ImgReg
