import Verif.Props.Optimal
import Verif.Props.InexactNoise
import Verif.Props.RegisterAccuracy

/-!
# C129: the answers converge to the true displacement as the upsampling factor grows
-/

set_option linter.unusedSimpArgs false

open Complex Finset
open scoped ComplexConjugate

namespace ImgReg

section
variable {ny nx : ℕ} [NeZero ny] [NeZero nx]

omit [NeZero ny] [NeZero nx] in
/-- a factor that is at least the number of rows: every displacement within half a pixel of the coarse minimum has a grid point within `1/(2u)` -/
theorem zoomGrid_near (n : ℕ) [NeZero n] (a : Fin n) (u : ℕ) (hu : 0 < u) (d : ℝ) (h : |(Spec.lag n a : ℝ) - d| ≤ 1 / 2) :
    ∃ i : Fin (2 * u), |-Spec.gridShift n a u (2 * u) i - d| ≤ 1 / (2 * u) := by
  have hu' : (0 : ℝ) < u := Nat.cast_pos.2 hu
  have hhalf : 0 ≤ Spec.halfPix n ∧ Spec.halfPix n ≤ 1 / 2 := by
    unfold Spec.halfPix; split_ifs <;> norm_num
  obtain ⟨x, hx⟩ : ∃ x : ℝ, x = ((Spec.lag n a : ℝ) - Spec.halfPix n - d) * u + (2 * u - 1) / 2 := ⟨_, rfl⟩
  rw [abs_le] at h
  have hlo : 0 ≤ x + 1 / 2 := by rw [hx]; nlinarith
  have hhi : x + 1 / 2 < 2 * u := by rw [hx]; nlinarith
  have hr0 : 0 ≤ round x := by
    rw [round_eq]; exact Int.floor_nonneg.2 hlo
  have hr1 : round x < 2 * (u : ℤ) := by
    rw [round_eq, Int.floor_lt]; push_cast; exact hhi
  refine ⟨⟨(round x).toNat, by omega⟩, ?_⟩
  have hc : (((round x).toNat : ℕ) : ℝ) = (round x : ℝ) := by
    have : (((round x).toNat : ℕ) : ℤ) = round x := Int.toNat_of_nonneg hr0
    exact_mod_cast this
  have e : -Spec.gridShift n a u (2 * u) ⟨(round x).toNat, by omega⟩ - d = (x - round x) / u := by
    unfold Spec.gridShift
    simp only [hc]
    rw [hx]
    unfold Spec.lag
    push_cast
    field_simp
    ring
  rw [e, abs_div, abs_of_pos hu', div_le_div_iff₀ hu' (by positivity)]
  have := abs_sub_round x
  nlinarith

theorem cshift_add_period (a : Fin ny × Fin nx → ℝ) (t u : ℝ) (z w : ℤ) :
    cshift (t + z * ny) (u + w * nx) a = cshift t u a :=
  (cshift_cshift t u (z * ny) (w * nx) a a fun p => (cshift_period a z w p).symm).symm

/-- what `hnear` says of the first minimum of the map -/
theorem argmin_near_truth (a b σ : Fin ny × Fin nx → ℝ) (c : Fin ny × Fin nx → ℝ)
    (hc : ∀ i, c i = Spec.chi2 a b σ (Spec.lag ny i.1) (Spec.lag nx i.2)) (dy dx : ℝ)
    (hnear : ∃ ey ex : ℤ, ∀ fy fx : ℤ, ¬ ((∃ z : ℤ, |(fy : ℝ) - dy - z * ny| ≤ 1 / 2) ∧ ∃ z : ℤ, |(fx : ℝ) - dx - z * nx| ≤ 1 / 2) →
      ∑ p, (Spec.roll2 ey ex a p - b p) ^ 2 / σ p ^ 2 < ∑ p, (Spec.roll2 fy fx a p - b p) ^ 2 / σ p ^ 2) :
    (∃ z : ℤ, |(Spec.lag ny (Np.argmin c).1 : ℝ) - (dy + z * ny)| ≤ 1 / 2) ∧
      ∃ z : ℤ, |(Spec.lag nx (Np.argmin c).2 : ℝ) - (dx + z * nx)| ≤ 1 / 2 := by
  obtain ⟨ey, ex, h⟩ := hnear
  by_contra hcon
  have h1 := h (Spec.lag ny (Np.argmin c).1) (Spec.lag nx (Np.argmin c).2) (by
    rintro ⟨⟨z, hz⟩, w, hw⟩
    exact hcon ⟨⟨z, by rw [← sub_sub]; exact hz⟩, w, by rw [← sub_sub]; exact hw⟩)
  have h2 := (Np.argmin_spec c).1 (Spec.wrap ny ((Spec.zeroLag ny : ℤ) - ey), Spec.wrap nx ((Spec.zeroLag nx : ℤ) - ex))
  rw [hc, hc, chi2_at_wrap, chi2_eq_roll] at h2
  exact absurd h1 (not_lt.2 h2)

/-- C129: let the whole-pixel displacement at which the images agree best be, modulo the image size, the displacement `(dx, dy)` rounded to
whole pixels, and let the (integer) upsampling factor be at least the number of rows. Then the answer of `chi2_shift` differs from
`(dx, dy)`, modulo the image size, by at most `n/(4·|F|)·sqrt(ny·nx)·(π·‖im1 - m‖/upsample_factor + 2·‖noise‖)`, with `m` any constant (e.g. the mean),
`noise = im2 - shift2d(im1, dx, dy)` and `F` the Fourier coefficient of `im1` at the lowest frequency along the axis. -/
theorem C129_chi2_rate (cfg cfg' : FFTConfig) (st : Stats) (hst : Spec.validStats st)
    (im1 im2 a b : Fin ny × Fin nx → ℝ) (hy : 2 ≤ ny) (hx : 2 ≤ nx) (dy dx : ℝ) (zm : Bool)
    (ha : ∀ p, a p = im1 p - if zm then Spec.mean im1 else 0) (hb : ∀ p, b p = im2 p - if zm then Spec.mean im2 else 0)
    (o : Fin ny × Fin nx → ℂ) (ho : shift2d cfg' (rArr im1) dx dy 0 false false = .cplx (cArr o))
    (hnear : ∃ ey ex : ℤ, ∀ fy fx : ℤ, ¬ ((∃ z : ℤ, |(fy : ℝ) - dy - z * ny| ≤ 1 / 2) ∧ ∃ z : ℤ, |(fx : ℝ) - dx - z * nx| ≤ 1 / 2) →
      ∑ p, (Spec.roll2 ey ex a p - b p) ^ 2 < ∑ p, (Spec.roll2 fy fx a p - b p) ^ 2)
    (err : ErrArg ny nx) (s : ℝ) (hs : s ≠ 0) (herr : Spec.isScalarErr err s)
    (u : ℕ) (hu : ny ≤ u) (nf : ℝ) (mas : ℕ) (mns : ℝ) (ah : Bool) (hf : Spec.fits ah ny nx) (m : ℝ) :
    ∃ rx ry : ℝ,
      chi2Shift cfg st (realArr im1) (realArr im2) err (.int u) zm nf false false false mas mns ah = .ok [.num rx, .num ry] ∧
      (∃ z : ℤ, 4 * ‖dft (fun p => (im1 p : ℂ)) (1, 0)‖ * |ry - dy - z * ny|
        ≤ ny * Real.sqrt ((ny : ℝ) * nx) * (Real.pi / u * Real.sqrt (∑ p, (im1 p - m) ^ 2)
          + 2 * Real.sqrt (∑ p, ‖(im2 p : ℂ) - o p‖ ^ 2))) ∧
      ∃ z : ℤ, 4 * ‖dft (fun p => (im1 p : ℂ)) (0, 1)‖ * |rx - dx - z * nx|
        ≤ nx * Real.sqrt ((ny : ℝ) * nx) * (Real.pi / u * Real.sqrt (∑ p, (im1 p - m) ^ 2)
          + 2 * Real.sqrt (∑ p, ‖(im2 p : ℂ) - o p‖ ^ 2)) := by
  have hu0 : 0 < u := by omega
  obtain ⟨cm, hcm, -, s1, s2, i1, i2, hg, uu, huu, -, yv, xv, hyv, hxv, c, hc, er, her, hres⟩ :=
    chi2Shift_scalar cfg st hst (realArr im1) (realArr im2) err s herr (.int u) zm nf mas mns ah hf hu0
  have huu' : uu = u := huu
  subst huu'
  obtain ⟨cm', hcm', hchi⟩ := rolled_map_zm cfg im1 im2 a b zm ha hb err (fun _ => s) (fun _ => hs) (.inl ⟨s, herr, fun _ => rfl⟩) ah hf
  obtain rfl : cm = cm' := by
    rw [hcm] at hcm'; injection hcm'
  simp only [Spec.gridSize, if_pos hu] at hg
  obtain ⟨rfl, rfl⟩ := Prod.mk.inj hg
  refine ⟨_, _, (hres false false).trans rfl, ?_⟩
  have hs2 : 0 < s ^ 2 := by positivity
  obtain ⟨⟨z, hz⟩, w, hw⟩ := argmin_near_truth a b (fun _ => s) cm.chi2 hchi dy dx (by
    obtain ⟨ey, ex, h⟩ := hnear
    refine ⟨ey, ex, fun fy fx hne => ?_⟩
    rw [← Finset.sum_div, ← Finset.sum_div]
    exact div_lt_div_of_pos_right (h fy fx hne) hs2)
  obtain ⟨jy, hjy⟩ := zoomGrid_near ny _ u hu0 _ hz
  obtain ⟨jx, hjx⟩ := zoomGrid_near nx _ u hu0 _ hw
  have hmin := (Np.argmin_spec c).1 (jy, jx)
  rw [hc] at hmin
  beta_reduce at hmin
  rw [← hc] at hmin
  have gy : |-yv (jy, jx) - (dy + z * ny)| ≤ 1 / (2 * u) := by rw [hyv]; exact hjy
  have gx : |-xv (jy, jx) - (dx + w * nx)| ≤ 1 / (2 * u) := by rw [hxv]; exact hjx
  generalize Np.argmin c = q at *
  have h1 := near_best_core zm im1 im2 s hs (dy + z * ny) (dx + w * nx) (-yv q) (-xv q) (-yv (jy, jx)) (-xv (jy, jx))
    (by rw [neg_neg, neg_neg, neg_neg, neg_neg]; exact hmin)
  have h2 := cshift_lipschitz (fun p => im1 p - m) (-yv (jy, jx)) (-xv (jy, jx)) (dy + z * ny) (dx + w * nx)
  simp only [cshift_sub_const, sub_sub_sub_cancel_right] at h2
  rw [cshift_add_period] at h1 h2
  rw [shift2d_cplx ho]
  refine position_of_l2 im1 hy hx (-yv q) (-xv q) dy dx _ ?_
  refine h1.trans ?_
  have h3 : Real.pi * (|-yv (jy, jx) - (dy + z * ny)| + |-xv (jy, jx) - (dx + w * nx)|) * Real.sqrt (∑ p, (im1 p - m) ^ 2)
      ≤ Real.pi / u * Real.sqrt (∑ p, (im1 p - m) ^ 2) := by
    refine mul_le_mul_of_nonneg_right ?_ (Real.sqrt_nonneg _)
    rw [div_eq_mul_one_div]
    refine mul_le_mul_of_nonneg_left ?_ Real.pi_pos.le
    have : (1 : ℝ) / (2 * u) + 1 / (2 * u) = 1 / u := by
      have : (u : ℝ) ≠ 0 := Nat.cast_ne_zero.2 hu0.ne'
      field_simp; norm_num
    linarith
  have h4 : 2 * l2 (fun p => (im2 p : ℂ) - cshift dy dx im1 p) = 2 * Real.sqrt (∑ p, ‖(im2 p : ℂ) - cshift dy dx im1 p‖ ^ 2) := rfl
  linarith

/-- C129: without noise the answer of `chi2_shift` converges to the true displacement: for every tolerance, all large enough integer
upsampling factors give an answer within the tolerance, modulo the image size. -/
theorem C129_chi2_converges (cfg cfg' : FFTConfig) (st : Stats) (hst : Spec.validStats st)
    (im1 im2 a b : Fin ny × Fin nx → ℝ) (hy : 2 ≤ ny) (hx : 2 ≤ nx) (dy dx : ℝ) (zm : Bool)
    (ha : ∀ p, a p = im1 p - if zm then Spec.mean im1 else 0) (hb : ∀ p, b p = im2 p - if zm then Spec.mean im2 else 0)
    (ho : shift2d cfg' (rArr im1) dx dy 0 false false = .cplx (cArr fun p => (im2 p : ℂ)))
    (hnear : ∃ ey ex : ℤ, ∀ fy fx : ℤ, ¬ ((∃ z : ℤ, |(fy : ℝ) - dy - z * ny| ≤ 1 / 2) ∧ ∃ z : ℤ, |(fx : ℝ) - dx - z * nx| ≤ 1 / 2) →
      ∑ p, (Spec.roll2 ey ex a p - b p) ^ 2 < ∑ p, (Spec.roll2 fy fx a p - b p) ^ 2)
    (h10 : dft (fun p => (im1 p : ℂ)) (1, 0) ≠ 0) (h01 : dft (fun p => (im1 p : ℂ)) (0, 1) ≠ 0)
    (err : ErrArg ny nx) (s : ℝ) (hs : s ≠ 0) (herr : Spec.isScalarErr err s)
    (nf : ℝ) (mas : ℕ) (mns : ℝ) (ah : Bool) (hf : Spec.fits ah ny nx) (ε : ℝ) (hε : 0 < ε) :
    ∃ U : ℕ, ∀ u : ℕ, U ≤ u → ∃ rx ry : ℝ,
      chi2Shift cfg st (realArr im1) (realArr im2) err (.int u) zm nf false false false mas mns ah = .ok [.num rx, .num ry] ∧
      (∃ z : ℤ, |ry - dy - z * ny| ≤ ε) ∧ ∃ z : ℤ, |rx - dx - z * nx| ≤ ε := by
  obtain ⟨K, hK⟩ : ∃ K : ℝ, K = Real.sqrt ((ny : ℝ) * nx) * (Real.pi * Real.sqrt (∑ p, im1 p ^ 2)) := ⟨_, rfl⟩
  have hK0 : 0 ≤ K := by rw [hK]; have := Real.pi_pos; positivity
  obtain ⟨U1, hU1⟩ := exists_nat_gt (ny * K / (4 * ‖dft (fun p => (im1 p : ℂ)) (1, 0)‖ * ε))
  obtain ⟨U2, hU2⟩ := exists_nat_gt (nx * K / (4 * ‖dft (fun p => (im1 p : ℂ)) (0, 1)‖ * ε))
  refine ⟨ny + U1 + U2, fun u hu => ?_⟩
  obtain ⟨rx, ry, h, ⟨z, hz⟩, w, hw⟩ := C129_chi2_rate cfg cfg' st hst im1 im2 a b hy hx dy dx zm ha hb _ ho hnear err s hs herr u (by omega)
    nf mas mns ah hf 0
  have hu0 : (0 : ℝ) < u := Nat.cast_pos.2 (by have := Nat.pos_of_ne_zero (NeZero.ne ny); omega)
  simp only [sub_self, norm_zero, ne_eq, OfNat.ofNat_ne_zero, not_false_eq_true, zero_pow, Finset.sum_const_zero, Real.sqrt_zero, mul_zero,
    add_zero, sub_zero] at hz hw
  have fin : ∀ (n F x : ℝ) (V : ℕ), 0 < F → V ≤ u → n * K / (4 * F * ε) < V →
      4 * F * x ≤ n * Real.sqrt ((ny : ℝ) * nx) * (Real.pi / u * Real.sqrt (∑ p, im1 p ^ 2)) → x ≤ ε := by
    intro n F x V hF hV hlt hle
    have e : n * Real.sqrt ((ny : ℝ) * nx) * (Real.pi / u * Real.sqrt (∑ p, im1 p ^ 2)) = n * K / u := by rw [hK]; ring
    rw [e, le_div_iff₀ hu0] at hle
    rw [div_lt_iff₀ (by positivity)] at hlt
    have hV' : (V : ℝ) ≤ u := Nat.cast_le.2 hV
    have h1 : 4 * F * x * u ≤ 4 * F * ε * u := by
      refine hle.trans (hlt.le.trans ?_)
      have : (V : ℝ) * (4 * F * ε) ≤ u * (4 * F * ε) := mul_le_mul_of_nonneg_right hV' (by positivity)
      linarith
    exact le_of_mul_le_mul_left (le_of_mul_le_mul_right h1 hu0) (by positivity)
  exact ⟨rx, ry, h, ⟨z, fin _ _ _ U1 (norm_pos_iff.2 h10) (by omega) hU1 hz⟩, w, fin _ _ _ U2 (norm_pos_iff.2 h01) (by omega) hU2 hw⟩

/-! ### `register_images` -/

/-- near the maximum the self-correlation falls off quadratically -/
theorem self_corr_loss (a : Fin ny × Fin nx → ℝ) (t u : ℝ) :
    ∑ p, a p ^ 2 - ‖Spec.cc a a t u‖ ≤ (Real.pi * (|t| + |u|)) ^ 2 / 2 * ∑ p, a p ^ 2 := by
  have h1 := cshift_lipschitz a t u 0 0
  rw [sub_zero, sub_zero] at h1
  have h0 : ∀ p, cshift 0 0 a p = (a p : ℂ) := fun p => by simpa using cshift_period a 0 0 p
  simp only [h0] at h1
  have h2 : ∑ p, ‖cshift t u a p - (a p : ℂ)‖ ^ 2 ≤ (Real.pi * (|t| + |u|)) ^ 2 * ∑ p, a p ^ 2 := by
    have := pow_le_pow_left₀ (l2_nonneg _) h1 2
    unfold l2 at this
    rw [Real.sq_sqrt (Finset.sum_nonneg fun p _ => by positivity), mul_pow, Real.sq_sqrt (Finset.sum_nonneg fun p _ => by positivity)] at this
    exact this
  have h3 : ∑ p, ‖cshift t u a p - (a p : ℂ)‖ ^ 2 = 2 * ∑ p, a p ^ 2 - 2 * (Spec.cc a a t u).re := by
    have e : ∀ p, ‖cshift t u a p - (a p : ℂ)‖ ^ 2 = ‖cshift t u a p‖ ^ 2 + a p ^ 2 - 2 * ((a p : ℂ) * conj (cshift t u a p)).re := by
      intro p
      rw [← Complex.normSq_eq_norm_sq, ← Complex.normSq_eq_norm_sq, Complex.normSq_apply, Complex.normSq_apply]
      simp only [Complex.sub_re, Complex.sub_im, Complex.ofReal_re, Complex.ofReal_im, Complex.mul_re, Complex.conj_re, Complex.conj_im]
      ring
    simp only [e]
    rw [Finset.sum_sub_distrib, Finset.sum_add_distrib, cshift_energy, ← Finset.mul_sum, ← Complex.re_sum]
    unfold Spec.cc
    ring
  have h4 := Complex.re_le_norm (Spec.cc a a t u)
  linarith

/-- C129 for `register_images`: under the condition of C103 (the best half-pixel displacement is within half a pixel of the truth) and for every
`usfac > 2`, the squared error of the answer (modulo the image size) is at most a constant of the image times
`π²/(2·usfac²)·‖a‖² + 2·‖a‖·‖noise‖`. -/
theorem C129_register_rate (cfg cfg' : FFTConfig) (im1 im2 a : Fin ny × Fin nx → ℝ) (zm : Bool)
    (ha : ∀ p, a p = im1 p - if zm then Spec.mean im1 else 0) (usfac : ℕ) (hu : 2 < usfac) (hy : 2 ≤ ny) (hx : 2 ≤ nx)
    (dy dx : ℝ) (o : Fin ny × Fin nx → ℂ) (ho : shift2d cfg' (rArr im1) dx dy 0 false false = .cplx (cArr o))
    (hmargin : ∃ j0 k0 : ℤ, ∀ j k : ℤ,
      ¬ ((∃ z : ℤ, |(j : ℝ) / 2 - dy - z * ny| ≤ 1 / 2) ∧ ∃ z : ℤ, |(k : ℝ) / 2 - dx - z * nx| ≤ 1 / 2) →
      ‖Spec.cc a a ((j : ℝ) / 2 - dy) ((k : ℝ) / 2 - dx)‖
          + 2 * (Real.sqrt (∑ p, a p ^ 2) * Real.sqrt (∑ p, ‖(im2 p : ℂ) - o p‖ ^ 2))
        < ‖Spec.cc a a ((j0 : ℝ) / 2 - dy) ((k0 : ℝ) / 2 - dx)‖) :
    ∃ rx ry : ℝ, registerImages cfg (realArr im1) (realArr im2) usfac false false zm none = .ok [.num rx, .num ry] ∧
        (∃ z : ℤ, ∀ (p p' : Fin ny) (q : Fin nx), (p' : ℕ) = p + 1 → 2 * (p' : ℕ) < ny →
          8 * (‖dft (fun p => (a p : ℂ)) (p, q)‖ ^ 2 * ‖dft (fun p => (a p : ℂ)) (p', q)‖ ^ 2) * (ry - dy - z * ny) ^ 2
          ≤ (‖dft (fun p => (a p : ℂ)) (p, q)‖ ^ 2 + ‖dft (fun p => (a p : ℂ)) (p', q)‖ ^ 2)
            * ((ny : ℝ) ^ 2 * ((ny : ℝ) * nx)) * (Real.pi ^ 2 / (2 * usfac ^ 2) * ∑ p, a p ^ 2
              + 2 * (Real.sqrt (∑ p, a p ^ 2) * Real.sqrt (∑ p, ‖(im2 p : ℂ) - o p‖ ^ 2)))) ∧
        ∃ z : ℤ, ∀ (p : Fin ny) (q q' : Fin nx), (q' : ℕ) = q + 1 → 2 * (q' : ℕ) < nx →
          8 * (‖dft (fun p => (a p : ℂ)) (p, q)‖ ^ 2 * ‖dft (fun p => (a p : ℂ)) (p, q')‖ ^ 2) * (rx - dx - z * nx) ^ 2
          ≤ (‖dft (fun p => (a p : ℂ)) (p, q)‖ ^ 2 + ‖dft (fun p => (a p : ℂ)) (p, q')‖ ^ 2)
            * ((nx : ℝ) ^ 2 * ((ny : ℝ) * nx)) * (Real.pi ^ 2 / (2 * usfac ^ 2) * ∑ p, a p ^ 2
              + 2 * (Real.sqrt (∑ p, a p ^ 2) * Real.sqrt (∑ p, ‖(im2 p : ℂ) - o p‖ ^ 2))) := by
  have hu0 : (0 : ℝ) < usfac := Nat.cast_pos.2 (by omega)
  have near : ∀ d : ℝ, |((round (d * usfac) : ℤ) : ℝ) / usfac - d| ≤ 1 / (2 * usfac) := by
    intro d
    have h := abs_sub_round (d * usfac)
    have e : ((round (d * usfac) : ℤ) : ℝ) / usfac - d = -(d * usfac - round (d * usfac)) / usfac := by field_simp; ring
    rw [e, abs_div, abs_neg, abs_of_pos hu0, div_le_div_iff₀ hu0 (by positivity)]
    nlinarith
  obtain ⟨rx, ry, h, ⟨z, hz⟩, w, hw⟩ := C103_position_pairs_fine cfg cfg' im1 im2 a zm ha usfac hu hy hx dy dx o ho hmargin
    (round (dy * usfac)) (round (dx * usfac)) (near dy) (near dx)
  have hloss := self_corr_loss a (((round (dy * usfac) : ℤ) : ℝ) / usfac - dy) (((round (dx * usfac) : ℤ) : ℝ) / usfac - dx)
  have hb : (Real.pi * (|((round (dy * usfac) : ℤ) : ℝ) / usfac - dy| + |((round (dx * usfac) : ℤ) : ℝ) / usfac - dx|)) ^ 2 / 2 * ∑ p, a p ^ 2
      ≤ Real.pi ^ 2 / (2 * usfac ^ 2) * ∑ p, a p ^ 2 := by
    refine mul_le_mul_of_nonneg_right ?_ (Finset.sum_nonneg fun p _ => sq_nonneg _)
    have h1 := near dy
    have h2 := near dx
    have e : (1 : ℝ) / (2 * usfac) + 1 / (2 * usfac) = 1 / usfac := by field_simp; norm_num
    have h3 : |((round (dy * usfac) : ℤ) : ℝ) / usfac - dy| + |((round (dx * usfac) : ℤ) : ℝ) / usfac - dx| ≤ 1 / usfac := by linarith
    have h4 := pow_le_pow_left₀ (by have := Real.pi_pos; positivity) (mul_le_mul_of_nonneg_left h3 Real.pi_pos.le) 2
    have e2 : Real.pi ^ 2 / (2 * (usfac : ℝ) ^ 2) = (Real.pi * (1 / usfac)) ^ 2 / 2 := by field_simp
    rw [e2]
    linarith
  refine ⟨rx, ry, h, ⟨z, fun p p' q h1 h2 => (hz p p' q h1 h2).trans ?_⟩, w, fun p q q' h1 h2 => (hw p q q' h1 h2).trans ?_⟩
  all_goals
    refine mul_le_mul_of_nonneg_left ?_ (by positivity)
    linarith

/-- C129 for `register_images`: without noise the answer converges to the true displacement (modulo the image size) as `usfac` grows, if some
two neighbouring frequencies are present along each axis. -/
theorem C129_register_converges (cfg cfg' : FFTConfig) (im1 im2 a : Fin ny × Fin nx → ℝ) (zm : Bool)
    (ha : ∀ p, a p = im1 p - if zm then Spec.mean im1 else 0) (hy : 2 ≤ ny) (hx : 2 ≤ nx)
    (dy dx : ℝ) (ho : shift2d cfg' (rArr im1) dx dy 0 false false = .cplx (cArr fun p => (im2 p : ℂ)))
    (hmargin : ∃ j0 k0 : ℤ, ∀ j k : ℤ,
      ¬ ((∃ z : ℤ, |(j : ℝ) / 2 - dy - z * ny| ≤ 1 / 2) ∧ ∃ z : ℤ, |(k : ℝ) / 2 - dx - z * nx| ≤ 1 / 2) →
      ‖Spec.cc a a ((j : ℝ) / 2 - dy) ((k : ℝ) / 2 - dx)‖ < ‖Spec.cc a a ((j0 : ℝ) / 2 - dy) ((k0 : ℝ) / 2 - dx)‖)
    (hfy : ∃ (p p' : Fin ny) (q : Fin nx), (p' : ℕ) = p + 1 ∧ 2 * (p' : ℕ) < ny ∧
      dft (fun p => (a p : ℂ)) (p, q) ≠ 0 ∧ dft (fun p => (a p : ℂ)) (p', q) ≠ 0)
    (hfx : ∃ (p : Fin ny) (q q' : Fin nx), (q' : ℕ) = q + 1 ∧ 2 * (q' : ℕ) < nx ∧
      dft (fun p => (a p : ℂ)) (p, q) ≠ 0 ∧ dft (fun p => (a p : ℂ)) (p, q') ≠ 0) (ε : ℝ) (hε : 0 < ε) :
    ∃ U : ℕ, ∀ usfac : ℕ, U ≤ usfac → ∃ rx ry : ℝ,
      registerImages cfg (realArr im1) (realArr im2) usfac false false zm none = .ok [.num rx, .num ry] ∧
      (∃ z : ℤ, |ry - dy - z * ny| ≤ ε) ∧ ∃ z : ℤ, |rx - dx - z * nx| ≤ ε := by
  obtain ⟨p, p', q, hp1, hp2, hF1, hF2⟩ := hfy
  obtain ⟨r, t, t', ht1, ht2, hG1, hG2⟩ := hfx
  -- a bound `K/usfac²` on the squared error becomes small
  have small : ∀ (F G n : ℝ), 0 < F → 0 < G → 0 ≤ n → ∃ U : ℕ, ∀ usfac : ℕ, U ≤ usfac → 0 < usfac → ∀ x : ℝ,
      8 * (F ^ 2 * G ^ 2) * x ^ 2 ≤ (F ^ 2 + G ^ 2) * (n ^ 2 * ((ny : ℝ) * nx)) * (Real.pi ^ 2 / (2 * (usfac : ℝ) ^ 2) * ∑ p, a p ^ 2) →
      |x| ≤ ε := by
    intro F G n hF hG hn
    obtain ⟨K, hK⟩ : ∃ K : ℝ, K = (F ^ 2 + G ^ 2) * (n ^ 2 * ((ny : ℝ) * nx)) * (Real.pi ^ 2 / 2 * ∑ p, a p ^ 2) := ⟨_, rfl⟩
    have hK0 : 0 ≤ K := by rw [hK]; exact mul_nonneg (by positivity) (mul_nonneg (by positivity) (Finset.sum_nonneg fun p _ => sq_nonneg _))
    obtain ⟨U, hU⟩ := exists_nat_gt (K / (8 * (F ^ 2 * G ^ 2) * ε ^ 2))
    refine ⟨U, fun usfac hle hpos x h => ?_⟩
    have hu0 : (0 : ℝ) < usfac := Nat.cast_pos.2 hpos
    have e : (F ^ 2 + G ^ 2) * (n ^ 2 * ((ny : ℝ) * nx)) * (Real.pi ^ 2 / (2 * (usfac : ℝ) ^ 2) * ∑ p, a p ^ 2) = K / usfac ^ 2 := by
      rw [hK]; field_simp
    rw [e, le_div_iff₀ (by positivity)] at h
    rw [div_lt_iff₀ (by positivity)] at hU
    have h1 : (U : ℝ) ≤ (usfac : ℝ) ^ 2 := by
      have : (U : ℝ) ≤ usfac := Nat.cast_le.2 hle
      have h1 : (1 : ℝ) ≤ usfac := by exact_mod_cast hpos
      nlinarith
    have h2 : 8 * (F ^ 2 * G ^ 2) * x ^ 2 * (usfac : ℝ) ^ 2 ≤ 8 * (F ^ 2 * G ^ 2) * ε ^ 2 * (usfac : ℝ) ^ 2 := by
      refine h.trans (hU.le.trans ?_)
      have := mul_le_mul_of_nonneg_right h1 (show 0 ≤ 8 * (F ^ 2 * G ^ 2) * ε ^ 2 by positivity)
      linarith
    have h3 := le_of_mul_le_mul_left (le_of_mul_le_mul_right h2 (by positivity)) (by positivity)
    exact abs_le_of_sq_le_sq h3 hε.le
  obtain ⟨U1, h1⟩ := small _ _ ny (norm_pos_iff.2 hF1) (norm_pos_iff.2 hF2) (by positivity)
  obtain ⟨U2, h2⟩ := small _ _ nx (norm_pos_iff.2 hG1) (norm_pos_iff.2 hG2) (by positivity)
  refine ⟨U1 + U2 + 3, fun usfac hle => ?_⟩
  obtain ⟨rx, ry, h, ⟨z, hz⟩, w, hw⟩ := C129_register_rate cfg cfg' im1 im2 a zm ha usfac (by omega) hy hx dy dx _ ho (by
    simpa using hmargin)
  have hz' := hz p p' q hp1 hp2
  have hw' := hw r t t' ht1 ht2
  simp only [sub_self, norm_zero, ne_eq, OfNat.ofNat_ne_zero, not_false_eq_true, zero_pow, Finset.sum_const_zero, Real.sqrt_zero, mul_zero,
    add_zero] at hz' hw'
  exact ⟨rx, ry, h, ⟨z, h1 usfac (by omega) (by omega) _ hz'⟩, w, h2 usfac (by omega) (by omega) _ hw'⟩

/-! ### images for which the condition holds -/

omit [NeZero ny] [NeZero nx] in
/-- among the displacements by whole pixels the rounded one is nearest on the circle -/
theorem abs_sin_round (n : ℕ) [NeZero n] (hn : 2 ≤ n) (d : ℝ) (j : ℤ) :
    |Real.sin (Real.pi * (((round d : ℤ) - d) / n))| ≤ |Real.sin (Real.pi * ((j - d) / n))| ∧
    ((¬ ∃ z : ℤ, |(j : ℝ) - d - z * n| ≤ 1 / 2) →
      |Real.sin (Real.pi * (((round d : ℤ) - d) / n))| < |Real.sin (Real.pi * ((j - d) / n))|) := by
  have hn' : (2 : ℝ) ≤ n := by exact_mod_cast hn
  have hn0 : (0 : ℝ) < n := by linarith
  obtain ⟨z, hz⟩ : ∃ z : ℤ, |((j : ℝ) - d) / n - z| ≤ 1 / 2 := ⟨_, abs_sub_round _⟩
  obtain ⟨y, hy⟩ : ∃ y : ℝ, y = (j : ℝ) - d - z * n := ⟨_, rfl⟩
  have hyn : |y| ≤ n / 2 := by
    have : y = (((j : ℝ) - d) / n - z) * n := by rw [hy]; field_simp
    rw [this, abs_mul, abs_of_pos hn0]
    nlinarith
  have hsin : |Real.sin (Real.pi * ((j - d) / n))| = Real.sin (Real.pi * (|y| / n)) := by
    have h1 : |Real.sin (Real.pi * ((j - d) / n))| = |Real.sin (Real.pi * (y / n))| := by
      have : Real.pi * (y / n) = Real.pi * ((j - d) / n) - (z : ℤ) * Real.pi := by rw [hy]; field_simp
      rw [this, Real.sin_sub_int_mul_pi, abs_mul, abs_zpow]
      simp
    have h2 : |Real.sin (Real.pi * (y / n))| = |Real.sin (Real.pi * (|y| / n))| := by
      rcases abs_cases y with ⟨h, -⟩ | ⟨h, -⟩
      · rw [h]
      · rw [h, neg_div, mul_neg, Real.sin_neg, abs_neg]
    rw [h1, h2, abs_of_nonneg]
    refine Real.sin_nonneg_of_nonneg_of_le_pi (by have := Real.pi_pos; positivity) ?_
    have : |y| / n ≤ 1 := by rw [div_le_one hn0]; linarith
    nlinarith [Real.pi_pos]
  obtain ⟨x, hx⟩ : ∃ x : ℝ, x = |((round d : ℤ) : ℝ) - d| := ⟨_, rfl⟩
  have hx2 : x ≤ 1 / 2 := by rw [hx, abs_sub_comm]; exact abs_sub_round d
  have hx0 : 0 ≤ x := by rw [hx]; exact abs_nonneg _
  have hsin0 : |Real.sin (Real.pi * (((round d : ℤ) - d) / n))| = Real.sin (Real.pi * (x / n)) := by
    have h2 : |Real.sin (Real.pi * ((((round d : ℤ) : ℝ) - d) / n))| = |Real.sin (Real.pi * (x / n))| := by
      rw [hx]
      rcases abs_cases (((round d : ℤ) : ℝ) - d) with ⟨h, -⟩ | ⟨h, -⟩
      · rw [h]
      · rw [h, neg_div, mul_neg, Real.sin_neg, abs_neg]
    rw [h2, abs_of_nonneg]
    refine Real.sin_nonneg_of_nonneg_of_le_pi (by have := Real.pi_pos; positivity) ?_
    have : x / n ≤ 1 := by rw [div_le_one hn0]; linarith
    nlinarith [Real.pi_pos]
  have hxy : x ≤ |y| := by
    have h1 := round_le d (j - z * n)
    rw [hx, abs_sub_comm, hy]
    refine h1.trans (le_of_eq ?_)
    rw [abs_sub_comm]
    push_cast
    congr 1; ring
  have top : Real.pi * (|y| / n) ≤ Real.pi / 2 := by
    have : |y| / n ≤ 1 / 2 := by rw [div_le_iff₀ hn0]; linarith
    nlinarith [Real.pi_pos]
  have bot : -(Real.pi / 2) ≤ Real.pi * (x / n) := by have := Real.pi_pos; have : 0 ≤ Real.pi * (x / n) := by positivity
                                                      linarith
  rw [hsin, hsin0]
  constructor
  · refine Real.sin_le_sin_of_le_of_le_pi_div_two bot top ?_
    exact mul_le_mul_of_nonneg_left (div_le_div_of_nonneg_right hxy hn0.le) Real.pi_pos.le
  · intro hne
    have hlt : x < |y| := by
      by_contra hc
      exact hne ⟨z, by rw [← hy]; linarith⟩
    refine Real.sin_lt_sin_of_lt_of_le_pi_div_two bot top ?_
    exact mul_lt_mul_of_pos_left (div_lt_div_of_pos_right hlt hn0) Real.pi_pos

/-- the distance of two shifted images, for whole-pixel displacements of the first -/
theorem roll_sub_energy (a b : Fin ny × Fin nx → ℝ) (dy dx : ℝ) (h : ∀ p, (b p : ℂ) = cshift dy dx a p) (j k : ℤ) :
    ((ny : ℝ) * nx) * ∑ p, (Spec.roll2 j k a p - b p) ^ 2
      = ∑ f : Fin ny × Fin nx, ‖dft (fun p => (a p : ℂ)) f‖ ^ 2
        * (2 * |Real.sin (Real.pi * ((j - dy) * Np.fftfreq ny f.1 + (k - dx) * Np.fftfreq nx f.2))|) ^ 2 := by
  have h1 := cshift_diff_energy a j k dy dx
  have e : ∑ p, (Spec.roll2 j k a p - b p) ^ 2 = ∑ p, ‖cshift j k a p - cshift dy dx a p‖ ^ 2 := by
    refine Finset.sum_congr rfl fun p _ => ?_
    rw [cshift_int, ← h p, ← Complex.ofReal_sub, Complex.norm_real, Real.norm_eq_abs, sq_abs]
  rw [e, h1]
  refine Finset.sum_congr rfl fun f _ => ?_
  rw [norm_ex_sub]
  have e : Real.pi * (-(freq2 (k : ℝ) j f) - -(freq2 dx dy f))
      = -(Real.pi * ((j - dy) * Np.fftfreq ny f.1 + (k - dx) * Np.fftfreq nx f.2)) := by
    unfold freq2; ring
  rw [e, Real.sin_neg, abs_neg]

/-- the image has no other frequencies than the lowest one along each axis (and a constant) -/
def Spec.lowestOnly (a : Fin ny × Fin nx → ℝ) : Prop :=
  ∀ f, dft (fun p => (a p : ℂ)) f ≠ 0 → f = 0 ∨ f = (1, 0) ∨ f = (-1, 0) ∨ f = (0, 1) ∨ f = (0, -1)

omit [NeZero ny] [NeZero nx] in
theorem abs_sin_fftfreq_neg_one (n : ℕ) [NeZero n] (hn : 3 ≤ n) (x : ℝ) :
    |Real.sin (Real.pi * (x * Np.fftfreq n (-1)))| = |Real.sin (Real.pi * (x / n))| := by
  have h1 : ((1 : Fin n) : ℕ) = 1 := by rw [Fin.val_one', Nat.mod_eq_of_lt (by omega)]
  rw [Np.fftfreq_neg 1 (by rw [h1]; omega), mul_neg, mul_neg, Real.sin_neg, abs_neg, abs_sin_fftfreq_one n (by omega)]

/-- for such an image the best whole-pixel displacement is always the true displacement rounded -/
theorem near_of_lowest (hy : 3 ≤ ny) (hx : 3 ≤ nx) (a b : Fin ny × Fin nx → ℝ) (dy dx : ℝ) (h : ∀ p, (b p : ℂ) = cshift dy dx a p)
    (hl : Spec.lowestOnly a) (h10 : dft (fun p => (a p : ℂ)) (1, 0) ≠ 0) (h01 : dft (fun p => (a p : ℂ)) (0, 1) ≠ 0) :
    ∃ ey ex : ℤ, ∀ fy fx : ℤ, ¬ ((∃ z : ℤ, |(fy : ℝ) - dy - z * ny| ≤ 1 / 2) ∧ ∃ z : ℤ, |(fx : ℝ) - dx - z * nx| ≤ 1 / 2) →
      ∑ p, (Spec.roll2 ey ex a p - b p) ^ 2 < ∑ p, (Spec.roll2 fy fx a p - b p) ^ 2 := by
  refine ⟨round dy, round dx, fun fy fx hne => ?_⟩
  have c0 : (0 : ℝ) < (ny : ℝ) * nx := by
    have := Nat.pos_of_ne_zero (NeZero.ne ny); have := Nat.pos_of_ne_zero (NeZero.ne nx); positivity
  rw [← mul_lt_mul_iff_right₀ c0, roll_sub_energy a b dy dx h, roll_sub_energy a b dy dx h]
  have hyr := abs_sin_round ny (by omega) dy fy
  have hxr := abs_sin_round nx (by omega) dx fx
  have sq : ∀ (F s t : ℝ), 0 ≤ s → s ≤ t → F ^ 2 * (2 * s) ^ 2 ≤ F ^ 2 * (2 * t) ^ 2 := by
    intro F s t hs hst
    exact mul_le_mul_of_nonneg_left (pow_le_pow_left₀ (by positivity) (by linarith) 2) (sq_nonneg F)
  have sqlt : ∀ (F s t : ℝ), F ≠ 0 → 0 ≤ s → s < t → F ^ 2 * (2 * s) ^ 2 < F ^ 2 * (2 * t) ^ 2 := by
    intro F s t hF hs hst
    exact mul_lt_mul_of_pos_left (pow_lt_pow_left₀ (by linarith) (by positivity) two_ne_zero) (by positivity)
  refine Finset.sum_lt_sum (fun f _ => ?_) ?_
  · by_cases h0 : dft (fun p => (a p : ℂ)) f = 0
    · rw [h0, norm_zero]; simp
    · rcases hl f h0 with rfl | rfl | rfl | rfl | rfl
      · simp only [Prod.fst_zero, Prod.snd_zero, Np.fftfreq_zero, mul_zero, add_zero]; exact le_rfl
      all_goals
        simp only [Np.fftfreq_zero, mul_zero, add_zero, zero_add]
        refine sq _ _ _ (abs_nonneg _) ?_
      · rw [abs_sin_fftfreq_one ny (by omega), abs_sin_fftfreq_one ny (by omega)]; exact hyr.1
      · rw [abs_sin_fftfreq_neg_one ny hy, abs_sin_fftfreq_neg_one ny hy]; exact hyr.1
      · rw [abs_sin_fftfreq_one nx (by omega), abs_sin_fftfreq_one nx (by omega)]; exact hxr.1
      · rw [abs_sin_fftfreq_neg_one nx hx, abs_sin_fftfreq_neg_one nx hx]; exact hxr.1
  · by_cases hyn : ∃ z : ℤ, |(fy : ℝ) - dy - z * ny| ≤ 1 / 2
    · have hxn := fun h => hne ⟨hyn, h⟩
      refine ⟨(0, 1), mem_univ _, sqlt _ _ _ (norm_ne_zero_iff.2 h01) (abs_nonneg _) ?_⟩
      simp only [Np.fftfreq_zero, mul_zero, zero_add]
      rw [abs_sin_fftfreq_one nx (by omega), abs_sin_fftfreq_one nx (by omega)]
      exact hxr.2 hxn
    · refine ⟨(1, 0), mem_univ _, sqlt _ _ _ (norm_ne_zero_iff.2 h10) (abs_nonneg _) ?_⟩
      simp only [Np.fftfreq_zero, mul_zero, add_zero]
      rw [abs_sin_fftfreq_one ny (by omega), abs_sin_fftfreq_one ny (by omega)]
      exact hyr.2 hyn

/-! ### waves -/

/-- a constant plus one wave along each axis -/
noncomputable def Spec.waves (ny nx : ℕ) (C A φ B ψ : ℝ) (y x : ℝ) : ℝ :=
  C + A * Real.cos (2 * Real.pi * y / ny + φ) + B * Real.cos (2 * Real.pi * x / nx + ψ)

theorem dft_char {ι : Type} [AddCommGroup ι] [Fintype ι] [DecidableEq ι] [FFTIndex ι] (l k : ι) :
    dft (fun i => e l i) k = if k = l then (Fintype.card ι : ℂ) else 0 := by
  unfold dft
  have : ∀ j, e l j * conj (e k j) = e (l - k) j := by
    intro j; rw [sub_eq_add_neg, e_add_left, e_neg_left]
  simp_rw [this, e_orth_right, sub_eq_zero, eq_comm]

/-- a cosine as two characters -/
theorem cos_eq_ex (t φ : ℝ) : ((Real.cos (2 * Real.pi * t + φ) : ℝ) : ℂ)
    = 1 / 2 * ex (φ / (2 * Real.pi)) * ex t + 1 / 2 * ex (-(φ / (2 * Real.pi))) * ex (-t) := by
  have hp : (2 * Real.pi) ≠ 0 := by have := Real.pi_pos; positivity
  have h := ex_re (t + φ / (2 * Real.pi))
  have e1 : 2 * Real.pi * (t + φ / (2 * Real.pi)) = 2 * Real.pi * t + φ := by field_simp
  rw [e1] at h
  rw [← h, Complex.re_eq_add_conj, conj_ex, neg_add, ex_add, ex_add]
  ring

theorem waves_char (hy : 3 ≤ ny) (hx : 3 ≤ nx) (C A φ B ψ dy dx : ℝ) (p : Fin ny × Fin nx) :
    ((Spec.waves ny nx C A φ B ψ (((p.1 : ℕ) : ℝ) - dy) (((p.2 : ℕ) : ℝ) - dx) : ℝ) : ℂ)
      = C * e 0 p
        + (A / 2 * ex (φ / (2 * Real.pi)) * (ex (-(freq2 dx dy ((1, 0) : Fin ny × Fin nx))) * e (1, 0) p)
        + (A / 2 * ex (-(φ / (2 * Real.pi))) * (ex (-(freq2 dx dy ((-1, 0) : Fin ny × Fin nx))) * e (-1, 0) p)
        + (B / 2 * ex (ψ / (2 * Real.pi)) * (ex (-(freq2 dx dy ((0, 1) : Fin ny × Fin nx))) * e (0, 1) p)
        + B / 2 * ex (-(ψ / (2 * Real.pi))) * (ex (-(freq2 dx dy ((0, -1) : Fin ny × Fin nx))) * e (0, -1) p)))) := by
  have one : ∀ (n : ℕ) [NeZero n], 3 ≤ n → ((1 : Fin n) : ℕ) = 1 := fun n _ h => by
    rw [Fin.val_one', Nat.mod_eq_of_lt (by omega)]
  have f1 : ∀ (n : ℕ) [NeZero n], 3 ≤ n → Np.fftfreq n 1 = 1 / n := fun n _ h => by
    rw [Np.fftfreq_eq, one n h, Np.fftfreqInt_eq n 1 (by omega), if_pos (by omega)]; push_cast; ring
  have f2 : ∀ (n : ℕ) [NeZero n], 3 ≤ n → Np.fftfreq n (-1) = -(1 / n) := fun n _ h => by
    rw [Np.fftfreq_neg 1 (by rw [one n h]; omega), f1 n h]
  have e1 : ∀ (n : ℕ) [NeZero n] (j : Fin n), 3 ≤ n → e (1 : Fin n) j = ex (((j : ℕ) : ℝ) / n) := fun n _ j h => by
    rw [e_fin, one n h]; congr 1; push_cast; ring
  have e2 : ∀ (n : ℕ) [NeZero n] (j : Fin n), 3 ≤ n → e (-1 : Fin n) j = ex (-(((j : ℕ) : ℝ) / n)) := fun n _ j h => by
    rw [e_neg_left, e1 n j h, conj_ex]
  have g : ∀ (n : ℕ) (j : ℕ) (d : ℝ), 2 * Real.pi * ((j : ℝ) - d) / n = 2 * Real.pi * ((j : ℝ) / n - d / n) := by
    intro n j d; ring
  unfold Spec.waves
  rw [Complex.ofReal_add, Complex.ofReal_add, Complex.ofReal_mul, Complex.ofReal_mul, g, g, cos_eq_ex, cos_eq_ex, e_zero_left]
  have k1 : ex (-(freq2 dx dy ((1, 0) : Fin ny × Fin nx))) * e ((1, 0) : Fin ny × Fin nx) p = ex (((p.1 : ℕ) : ℝ) / ny - dy / ny) := by
    rw [e_prod, e1 ny _ hy, e_zero_left, mul_one, ← ex_add]
    unfold freq2
    simp only [Np.fftfreq_zero, f1 ny hy]
    congr 1; ring
  have k2 : ex (-(freq2 dx dy ((-1, 0) : Fin ny × Fin nx))) * e ((-1, 0) : Fin ny × Fin nx) p = ex (-(((p.1 : ℕ) : ℝ) / ny - dy / ny)) := by
    rw [e_prod, e2 ny _ hy, e_zero_left, mul_one, ← ex_add]
    unfold freq2
    simp only [Np.fftfreq_zero, f2 ny hy]
    congr 1; ring
  have k3 : ex (-(freq2 dx dy ((0, 1) : Fin ny × Fin nx))) * e ((0, 1) : Fin ny × Fin nx) p = ex (((p.2 : ℕ) : ℝ) / nx - dx / nx) := by
    rw [e_prod, e1 nx _ hx, e_zero_left, one_mul, ← ex_add]
    unfold freq2
    simp only [Np.fftfreq_zero, f1 nx hx]
    congr 1; ring
  have k4 : ex (-(freq2 dx dy ((0, -1) : Fin ny × Fin nx))) * e ((0, -1) : Fin ny × Fin nx) p = ex (-(((p.2 : ℕ) : ℝ) / nx - dx / nx)) := by
    rw [e_prod, e2 nx _ hx, e_zero_left, one_mul, ← ex_add]
    unfold freq2
    simp only [Np.fftfreq_zero, f2 nx hx]
    congr 1; ring
  rw [k1, k2, k3, k4]
  ring

theorem waves_char0 (hy : 3 ≤ ny) (hx : 3 ≤ nx) (C A φ B ψ : ℝ) :
    (fun p : Fin ny × Fin nx => ((Spec.waves ny nx C A φ B ψ ((p.1 : ℕ) : ℝ) ((p.2 : ℕ) : ℝ) : ℝ) : ℂ))
      = fun p => C * e 0 p
        + (A / 2 * ex (φ / (2 * Real.pi)) * e (1, 0) p + (A / 2 * ex (-(φ / (2 * Real.pi))) * e (-1, 0) p
        + (B / 2 * ex (ψ / (2 * Real.pi)) * e (0, 1) p + B / 2 * ex (-(ψ / (2 * Real.pi))) * e (0, -1) p))) := by
  funext p
  have h := waves_char hy hx C A φ B ψ 0 0 p
  simp only [sub_zero, freq2, zero_mul, add_zero, neg_zero, ex_zero, one_mul] at h
  exact h

/-- a sub-pixel shift moves the waves -/
theorem waves_cshift (hy : 3 ≤ ny) (hx : 3 ≤ nx) (C A φ B ψ dy dx : ℝ) (p : Fin ny × Fin nx) :
    ((Spec.waves ny nx C A φ B ψ (((p.1 : ℕ) : ℝ) - dy) (((p.2 : ℕ) : ℝ) - dx) : ℝ) : ℂ)
      = cshift dy dx (fun p : Fin ny × Fin nx => Spec.waves ny nx C A φ B ψ ((p.1 : ℕ) : ℝ) ((p.2 : ℕ) : ℝ)) p := by
  unfold cshift
  rw [waves_char hy hx, waves_char0 hy hx, filt_add, filt_add, filt_add, filt_add]
  simp only [filt_smul, filt_char]
  have : freq2 dx dy (0 : Fin ny × Fin nx) = 0 := freq2_zero _ _
  rw [this, neg_zero, ex_zero, one_mul]

theorem waves_dft (hy : 3 ≤ ny) (hx : 3 ≤ nx) (C A φ B ψ : ℝ) (k : Fin ny × Fin nx) :
    dft (fun p : Fin ny × Fin nx => ((Spec.waves ny nx C A φ B ψ ((p.1 : ℕ) : ℝ) ((p.2 : ℕ) : ℝ) : ℝ) : ℂ)) k
      = C * (if k = 0 then (Fintype.card (Fin ny × Fin nx) : ℂ) else 0)
        + (A / 2 * ex (φ / (2 * Real.pi)) * (if k = (1, 0) then (Fintype.card (Fin ny × Fin nx) : ℂ) else 0)
        + (A / 2 * ex (-(φ / (2 * Real.pi))) * (if k = (-1, 0) then (Fintype.card (Fin ny × Fin nx) : ℂ) else 0)
        + (B / 2 * ex (ψ / (2 * Real.pi)) * (if k = (0, 1) then (Fintype.card (Fin ny × Fin nx) : ℂ) else 0)
          + B / 2 * ex (-(ψ / (2 * Real.pi))) * (if k = (0, -1) then (Fintype.card (Fin ny × Fin nx) : ℂ) else 0)))) := by
  rw [waves_char0 hy hx, dft_add, dft_add, dft_add, dft_add]
  simp only [dft_smul, dft_char]

theorem waves_lowest (hy : 3 ≤ ny) (hx : 3 ≤ nx) (C A φ B ψ : ℝ) :
    Spec.lowestOnly (fun p : Fin ny × Fin nx => Spec.waves ny nx C A φ B ψ ((p.1 : ℕ) : ℝ) ((p.2 : ℕ) : ℝ)) := by
  intro k hk
  by_contra hcon
  push Not at hcon
  obtain ⟨h0, h1, h2, h3, h4⟩ := hcon
  apply hk
  rw [waves_dft hy hx, if_neg h0, if_neg h1, if_neg h2, if_neg h3, if_neg h4]
  ring

theorem waves_coeffs (hy : 3 ≤ ny) (hx : 3 ≤ nx) (C A φ B ψ : ℝ) :
    ‖dft (fun p : Fin ny × Fin nx => ((Spec.waves ny nx C A φ B ψ ((p.1 : ℕ) : ℝ) ((p.2 : ℕ) : ℝ) : ℝ) : ℂ)) (1, 0)‖ = |A| / 2 * (ny * nx) ∧
    ‖dft (fun p : Fin ny × Fin nx => ((Spec.waves ny nx C A φ B ψ ((p.1 : ℕ) : ℝ) ((p.2 : ℕ) : ℝ) : ℝ) : ℂ)) (0, 1)‖ = |B| / 2 * (ny * nx) := by
  have one : ∀ (n : ℕ) [NeZero n], 3 ≤ n → (1 : Fin n) ≠ 0 ∧ (1 : Fin n) ≠ -1 := fun n _ h => by
    have h1 : ((1 : Fin n) : ℕ) = 1 := by rw [Fin.val_one', Nat.mod_eq_of_lt (by omega)]
    constructor
    · intro hc
      have := congrArg Fin.val hc
      rw [h1] at this
      simp at this
    · intro hc
      have := congrArg Fin.val hc
      rw [h1, Fin.val_neg', h1, Nat.mod_eq_of_lt (by omega)] at this
      omega
  have hc : (Fintype.card (Fin ny × Fin nx) : ℂ) = ((ny * nx : ℝ) : ℂ) := by
    rw [Fintype.card_prod, Fintype.card_fin, Fintype.card_fin]; push_cast; rfl
  constructor
  · rw [waves_dft hy hx, if_neg (by simp [Prod.ext_iff, (one ny hy).1]), if_pos rfl, if_neg (by simp [Prod.ext_iff, (one ny hy).2]),
      if_neg (by simp [Prod.ext_iff, (one ny hy).1]), if_neg (by simp [Prod.ext_iff, (one ny hy).1]), hc]
    simp only [mul_zero, zero_add, add_zero, norm_mul, norm_ex, mul_one, norm_div, Complex.norm_real, Real.norm_eq_abs, Complex.norm_ofNat,
      Nat.abs_cast]
  · rw [waves_dft hy hx, if_neg (by simp [Prod.ext_iff, (one nx hx).1]), if_neg (by simp [Prod.ext_iff, (one nx hx).1]),
      if_neg (by simp [Prod.ext_iff, (one nx hx).1]), if_pos rfl, if_neg (by simp [Prod.ext_iff, (one nx hx).2]), hc]
    simp only [mul_zero, zero_add, add_zero, norm_mul, norm_ex, mul_one, norm_div, Complex.norm_real, Real.norm_eq_abs, Complex.norm_ofNat,
      Nat.abs_cast]

/-- C129, waves: for a constant plus one wave along each axis (any amplitudes `A`, `B` ≠ 0 and phases), displaced by any real amount, and every
integer upsampling factor that is at least the number of rows, the answer of `chi2_shift` is within `π·n·(|A| + |B|)/(2·|A|·upsample_factor)`
(resp. `|B|`) of the displacement, modulo the image size. -/
theorem C129_waves (cfg : FFTConfig) (st : Stats) (hst : Spec.validStats st) (hy : 3 ≤ ny) (hx : 3 ≤ nx)
    (C A φ B ψ : ℝ) (hA : A ≠ 0) (hB : B ≠ 0) (dy dx : ℝ) (zm : Bool)
    (err : ErrArg ny nx) (s : ℝ) (hs : s ≠ 0) (herr : Spec.isScalarErr err s)
    (u : ℕ) (hu : ny ≤ u) (nf : ℝ) (mas : ℕ) (mns : ℝ) (ah : Bool) (hf : Spec.fits ah ny nx) :
    ∃ rx ry : ℝ,
      chi2Shift cfg st (realArr fun p : Fin ny × Fin nx => Spec.waves ny nx C A φ B ψ ((p.1 : ℕ) : ℝ) ((p.2 : ℕ) : ℝ))
        (realArr fun p : Fin ny × Fin nx => Spec.waves ny nx C A φ B ψ (((p.1 : ℕ) : ℝ) - dy) (((p.2 : ℕ) : ℝ) - dx))
        err (.int u) zm nf false false false mas mns ah = .ok [.num rx, .num ry] ∧
      (∃ z : ℤ, |ry - dy - z * ny| ≤ Real.pi * ny * (|A| + |B|) / (2 * |A| * u)) ∧
      ∃ z : ℤ, |rx - dx - z * nx| ≤ Real.pi * nx * (|A| + |B|) / (2 * |B| * u) := by
  obtain ⟨im1, him1⟩ : ∃ im1 : Fin ny × Fin nx → ℝ, im1 = fun p => Spec.waves ny nx C A φ B ψ ((p.1 : ℕ) : ℝ) ((p.2 : ℕ) : ℝ) := ⟨_, rfl⟩
  obtain ⟨im2, him2⟩ : ∃ im2 : Fin ny × Fin nx → ℝ,
      im2 = fun p => Spec.waves ny nx C A φ B ψ (((p.1 : ℕ) : ℝ) - dy) (((p.2 : ℕ) : ℝ) - dx) := ⟨_, rfl⟩
  have hsh : ∀ p, (im2 p : ℂ) = cshift dy dx im1 p := by
    intro p; rw [him1, him2]; exact waves_cshift hy hx C A φ B ψ dy dx p
  have hlow : Spec.lowestOnly im1 := by rw [him1]; exact waves_lowest hy hx C A φ B ψ
  obtain ⟨n10, n01⟩ := waves_coeffs (ny := ny) (nx := nx) hy hx C A φ B ψ
  have hn0 : (0 : ℝ) < ny := Nat.cast_pos.2 (by omega)
  have hx0 : (0 : ℝ) < nx := Nat.cast_pos.2 (by omega)
  have hu0 : (0 : ℝ) < u := Nat.cast_pos.2 (by omega)
  have hsum : Real.sqrt (∑ p, (im1 p - C) ^ 2) ≤ Real.sqrt ((ny : ℝ) * nx) * (|A| + |B|) := by
    rw [← Real.sqrt_sq (show 0 ≤ |A| + |B| by positivity), ← Real.sqrt_mul (by positivity)]
    refine Real.sqrt_le_sqrt ?_
    have hb : ∀ p : Fin ny × Fin nx, (im1 p - C) ^ 2 ≤ (|A| + |B|) ^ 2 := by
      intro p
      rw [← sq_abs (im1 p - C)]
      refine pow_le_pow_left₀ (abs_nonneg _) ?_ 2
      rw [him1]
      unfold Spec.waves
      beta_reduce
      rw [add_assoc, add_sub_cancel_left]
      refine (abs_add_le _ _).trans ?_
      rw [abs_mul, abs_mul]
      have c1 := Real.abs_cos_le_one (2 * Real.pi * ((p.1 : ℕ) : ℝ) / ny + φ)
      have c2 := Real.abs_cos_le_one (2 * Real.pi * ((p.2 : ℕ) : ℝ) / nx + ψ)
      have := mul_le_mul_of_nonneg_left c1 (abs_nonneg A)
      have := mul_le_mul_of_nonneg_left c2 (abs_nonneg B)
      linarith
    refine (Finset.sum_le_sum fun p _ => hb p).trans (le_of_eq ?_)
    rw [Finset.sum_const, Finset.card_univ, Fintype.card_prod, Fintype.card_fin, Fintype.card_fin]
    rw [nsmul_eq_mul]; push_cast; ring
  have n10' : ‖dft (fun p => (im1 p : ℂ)) (1, 0)‖ = |A| / 2 * (ny * nx) := by rw [him1]; exact n10
  have n01' : ‖dft (fun p => (im1 p : ℂ)) (0, 1)‖ = |B| / 2 * (ny * nx) := by rw [him1]; exact n01
  have h10 : dft (fun p => (im1 p : ℂ)) (1, 0) ≠ 0 := by
    rw [← norm_ne_zero_iff, n10']; positivity
  have h01 : dft (fun p => (im1 p : ℂ)) (0, 1) ≠ 0 := by
    rw [← norm_ne_zero_iff, n01']; positivity
  have ne10 : ((1, 0) : Fin ny × Fin nx) ≠ 0 := by
    intro h; have := congrArg (fun p : Fin ny × Fin nx => (p.1 : ℕ)) h
    simp [Nat.mod_eq_of_lt (show 1 < ny by omega)] at this
  have ne01 : ((0, 1) : Fin ny × Fin nx) ≠ 0 := by
    intro h; have := congrArg (fun p : Fin ny × Fin nx => (p.2 : ℕ)) h
    simp [Nat.mod_eq_of_lt (show 1 < nx by omega)] at this
  rw [← him1, ← him2]
  clear him1 him2 n10 n01
  have ho : shift2d cfg (rArr im1) dx dy 0 false false = .cplx (cArr (cshift dy dx im1)) := by
    rw [shift2d_eq, denan_rArr]
    simp only [shiftKernel_zero]
    rw [shiftReturn_cplx]
    rfl
  have hab : ∀ p, ((im2 p - (if zm then Spec.mean im2 else 0) : ℝ) : ℂ)
      = cshift dy dx (fun p => im1 p - if zm then Spec.mean im1 else 0) p := by
    have h := noise_sub_mean zm im1 im2 dy dx
    simp only [hsh, sub_self, norm_zero, ne_eq, OfNat.ofNat_ne_zero, not_false_eq_true, zero_pow, Finset.sum_const_zero, Real.sqrt_zero] at h
    have h2 := (Real.sqrt_eq_zero (Finset.sum_nonneg fun p _ => by positivity)).1 (le_antisymm h (Real.sqrt_nonneg _))
    rw [Finset.sum_eq_zero_iff_of_nonneg (fun p _ => by positivity)] at h2
    intro p
    have h3 := h2 p (mem_univ p)
    rw [pow_eq_zero_iff two_ne_zero, norm_eq_zero, sub_eq_zero, prep_real, prep_real] at h3
    exact h3
  have hnear := near_of_lowest hy hx (fun p => im1 p - if zm then Spec.mean im1 else 0) (fun p => im2 p - if zm then Spec.mean im2 else 0)
    dy dx hab (fun f hf => by
      by_cases h0 : f = 0
      · exact .inl h0
      · rw [dft_sub_const _ _ _ h0] at hf
        exact hlow f hf) (by rw [dft_sub_const _ _ _ ne10]; exact h10) (by rw [dft_sub_const _ _ _ ne01]; exact h01)
  obtain ⟨rx, ry, h, ⟨z, hz⟩, w, hw⟩ := C129_chi2_rate cfg cfg st hst im1 im2 _ _ (by omega) (by omega) dy dx zm (fun p => rfl) (fun p => rfl)
    _ ho hnear err s hs herr u hu nf mas mns ah hf C
  simp only [hsh, sub_self, norm_zero, ne_eq, OfNat.ofNat_ne_zero, not_false_eq_true, zero_pow, Finset.sum_const_zero, Real.sqrt_zero, mul_zero,
    add_zero] at hz hw
  have fin : ∀ (n T x : ℝ), 0 < n → 0 < T → 4 * (T / 2 * (ny * nx)) * x
      ≤ n * Real.sqrt ((ny : ℝ) * nx) * (Real.pi / u * Real.sqrt (∑ p, (im1 p - C) ^ 2)) → x ≤ Real.pi * n * (|A| + |B|) / (2 * T * u) := by
    intro n T x hn hT hle
    have h1 : n * Real.sqrt ((ny : ℝ) * nx) * (Real.pi / u * Real.sqrt (∑ p, (im1 p - C) ^ 2))
        ≤ n * Real.sqrt ((ny : ℝ) * nx) * (Real.pi / u * (Real.sqrt ((ny : ℝ) * nx) * (|A| + |B|))) := by
      refine mul_le_mul_of_nonneg_left (mul_le_mul_of_nonneg_left hsum ?_) ?_
      · have := Real.pi_pos; positivity
      · positivity
    have hq : Real.sqrt ((ny : ℝ) * nx) * Real.sqrt ((ny : ℝ) * nx) = ny * nx := Real.mul_self_sqrt (by positivity)
    have e : n * Real.sqrt ((ny : ℝ) * nx) * (Real.pi / u * (Real.sqrt ((ny : ℝ) * nx) * (|A| + |B|)))
        = (ny * nx) * (n * (Real.pi * (|A| + |B|)) / u) := by
      generalize Real.sqrt ((ny : ℝ) * nx) = r at hq
      rw [← hq]; ring
    have h2 := hle.trans (h1.trans e.le)
    have e2 : 4 * (T / 2 * (ny * nx)) * x = (ny * nx) * (2 * T * x) := by ring
    rw [e2] at h2
    have h3 := le_of_mul_le_mul_left h2 (by positivity)
    rw [le_div_iff₀ hu0] at h3
    rw [le_div_iff₀ (by positivity)]
    linarith
  rw [n10'] at hz
  rw [n01'] at hw
  exact ⟨rx, ry, h, ⟨z, fin _ _ _ hn0 (abs_pos.2 hA) hz⟩, w, fin _ _ _ hx0 (abs_pos.2 hB) hw⟩

/-! ### waves and `register_images` -/

theorem waves_norms (hy : 3 ≤ ny) (hx : 3 ≤ nx) (C A φ B ψ : ℝ) (w : Fin ny × Fin nx → ℝ)
    (hw : w = fun p => Spec.waves ny nx C A φ B ψ ((p.1 : ℕ) : ℝ) ((p.2 : ℕ) : ℝ)) :
    ‖dft (fun p => (w p : ℂ)) 0‖ = |C| * (ny * nx) ∧ ‖dft (fun p => (w p : ℂ)) (1, 0)‖ = |A| / 2 * (ny * nx) ∧
    ‖dft (fun p => (w p : ℂ)) (-1, 0)‖ = |A| / 2 * (ny * nx) ∧ ‖dft (fun p => (w p : ℂ)) (0, 1)‖ = |B| / 2 * (ny * nx) ∧
    ‖dft (fun p => (w p : ℂ)) (0, -1)‖ = |B| / 2 * (ny * nx) := by
  subst hw
  have one : ∀ (n : ℕ) [NeZero n], 3 ≤ n → (1 : Fin n) ≠ 0 ∧ (1 : Fin n) ≠ -1 := fun n _ h => by
    have h1 : ((1 : Fin n) : ℕ) = 1 := by rw [Fin.val_one', Nat.mod_eq_of_lt (by omega)]
    constructor
    · intro hc
      have := congrArg Fin.val hc
      rw [h1] at this
      simp at this
    · intro hc
      have := congrArg Fin.val hc
      rw [h1, Fin.val_neg', h1, Nat.mod_eq_of_lt (by omega)] at this
      omega
  have y0 := (one ny hy).1
  have y1 := (one ny hy).2
  have x0 := (one nx hx).1
  have x1 := (one nx hx).2
  have hc : (Fintype.card (Fin ny × Fin nx) : ℂ) = ((ny * nx : ℝ) : ℂ) := by
    rw [Fintype.card_prod, Fintype.card_fin, Fintype.card_fin]; push_cast; rfl
  have ifs : ∀ (k l : Fin ny × Fin nx) (c : ℂ), k ≠ l → (if k = l then c else 0) = 0 := fun k l c h => if_neg h
  refine ⟨?_, ?_, ?_, ?_, ?_⟩
  · rw [waves_dft hy hx, if_pos rfl, ifs 0 (1, 0) _ (by simp [Prod.ext_iff, y0.symm]), ifs 0 (-1, 0) _ (by simp [Prod.ext_iff, y0.symm, y0, eq_comm]),
      ifs 0 (0, 1) _ (by simp [Prod.ext_iff, x0.symm]), ifs 0 (0, -1) _ (by simp [Prod.ext_iff, x0.symm, x0, eq_comm]), hc]
    simp only [mul_zero, zero_add, add_zero, norm_mul, norm_ex, mul_one, norm_div, Complex.norm_real, Real.norm_eq_abs, Complex.norm_ofNat,
      Nat.abs_cast]
  · exact (waves_coeffs hy hx C A φ B ψ).1
  · rw [waves_dft hy hx, ifs (-1, 0) 0 _ (by simp [Prod.ext_iff, y0]), ifs (-1, 0) (1, 0) _ (by simp [Prod.ext_iff, y1.symm]), if_pos rfl,
      ifs (-1, 0) (0, 1) _ (by simp [Prod.ext_iff, y0]), ifs (-1, 0) (0, -1) _ (by simp [Prod.ext_iff, y0]), hc]
    simp only [mul_zero, zero_add, add_zero, norm_mul, norm_ex, mul_one, norm_div, Complex.norm_real, Real.norm_eq_abs, Complex.norm_ofNat,
      Nat.abs_cast]
  · exact (waves_coeffs hy hx C A φ B ψ).2
  · rw [waves_dft hy hx, ifs (0, -1) 0 _ (by simp [Prod.ext_iff, x0]), ifs (0, -1) (1, 0) _ (by simp [Prod.ext_iff, x0]),
      ifs (0, -1) (-1, 0) _ (by simp [Prod.ext_iff, x0]), ifs (0, -1) (0, 1) _ (by simp [Prod.ext_iff, x1.symm]), if_pos rfl, hc]
    simp only [mul_zero, zero_add, add_zero, norm_mul, norm_ex, mul_one, norm_div, Complex.norm_real, Real.norm_eq_abs, Complex.norm_ofNat,
      Nat.abs_cast]

/-- the self-correlation of the waves -/
theorem waves_cc (hy : 3 ≤ ny) (hx : 3 ≤ nx) (C A φ B ψ : ℝ) (w : Fin ny × Fin nx → ℝ)
    (hw : w = fun p => Spec.waves ny nx C A φ B ψ ((p.1 : ℕ) : ℝ) ((p.2 : ℕ) : ℝ)) (t u : ℝ) :
    Spec.cc w w t u = (((ny : ℝ) * nx) * (C ^ 2 + A ^ 2 / 2 * (1 - 2 * Real.sin (Real.pi * (t / ny)) ^ 2)
      + B ^ 2 / 2 * (1 - 2 * Real.sin (Real.pi * (u / nx)) ^ 2)) : ℝ) := by
  have hN : ((ny : ℂ) * nx) ≠ 0 := by
    have := NeZero.ne ny; have := NeZero.ne nx
    exact mul_ne_zero (Nat.cast_ne_zero.2 ‹ny ≠ 0›) (Nat.cast_ne_zero.2 ‹nx ≠ 0›)
  have h := cc_self_fourier w t u
  obtain ⟨n0, n1, n2, n3, n4⟩ := waves_norms hy hx C A φ B ψ w hw
  have hlow : Spec.lowestOnly w := by rw [hw]; exact waves_lowest hy hx C A φ B ψ
  have one : ∀ (n : ℕ) [NeZero n], 3 ≤ n → ((1 : Fin n) : ℕ) = 1 := fun n _ h => by
    rw [Fin.val_one', Nat.mod_eq_of_lt (by omega)]
  have ne : ∀ (n : ℕ) [NeZero n], 3 ≤ n → (1 : Fin n) ≠ 0 ∧ (1 : Fin n) ≠ -1 := fun n _ h => by
    constructor
    · intro hc
      have := congrArg Fin.val hc
      rw [one n h] at this
      simp at this
    · intro hc
      have := congrArg Fin.val hc
      rw [one n h, Fin.val_neg', one n h, Nat.mod_eq_of_lt (by omega)] at this
      omega
  have f1 : ∀ (n : ℕ) [NeZero n], 3 ≤ n → Np.fftfreq n 1 = 1 / n := fun n _ h => by
    rw [Np.fftfreq_eq, one n h, Np.fftfreqInt_eq n 1 (by omega), if_pos (by omega)]; push_cast; ring
  have f2 : ∀ (n : ℕ) [NeZero n], 3 ≤ n → Np.fftfreq n (-1) = -(1 / n) := fun n _ h => by
    rw [Np.fftfreq_neg 1 (by rw [one n h]; omega), f1 n h]
  have y0 := (ne ny hy).1
  have y1 := (ne ny hy).2
  have x0 := (ne nx hx).1
  have x1 := (ne nx hx).2
  have sup : ∀ g : Fin ny × Fin nx → ℂ, (∑ k, ((‖dft (fun p => (w p : ℂ)) k‖ ^ 2 : ℝ) : ℂ) * g k)
      = ((‖dft (fun p => (w p : ℂ)) 0‖ ^ 2 : ℝ) : ℂ) * g 0 + (((‖dft (fun p => (w p : ℂ)) (1, 0)‖ ^ 2 : ℝ) : ℂ) * g (1, 0)
        + (((‖dft (fun p => (w p : ℂ)) (-1, 0)‖ ^ 2 : ℝ) : ℂ) * g (-1, 0) + (((‖dft (fun p => (w p : ℂ)) (0, 1)‖ ^ 2 : ℝ) : ℂ) * g (0, 1)
        + ((‖dft (fun p => (w p : ℂ)) (0, -1)‖ ^ 2 : ℝ) : ℂ) * g (0, -1)))) := by
    intro g
    rw [← Finset.sum_subset (Finset.subset_univ ({0, (1, 0), (-1, 0), (0, 1), (0, -1)} : Finset (Fin ny × Fin nx)))]
    · rw [Finset.sum_insert, Finset.sum_insert, Finset.sum_insert, Finset.sum_insert, Finset.sum_singleton]
      · simp [Prod.ext_iff, x1]
      · simp [Prod.ext_iff, y0]
      · simp [Prod.ext_iff, y0, y1]
      · simp only [Finset.mem_insert, Finset.mem_singleton, Prod.ext_iff, Prod.fst_zero, Prod.snd_zero, not_or]
        refine ⟨fun h => y0 h.1.symm, fun h => y0 (neg_eq_zero.1 h.1.symm), fun h => x0 h.2.symm, fun h => x0 (neg_eq_zero.1 h.2.symm)⟩
    · intro k _ hk
      simp only [Finset.mem_insert, Finset.mem_singleton, not_or] at hk
      have : dft (fun p => (w p : ℂ)) k = 0 := by
        by_contra hc
        rcases hlow k hc with h | h | h | h | h
        · exact hk.1 h
        · exact hk.2.1 h
        · exact hk.2.2.1 h
        · exact hk.2.2.2.1 h
        · exact hk.2.2.2.2 h
      rw [this]; simp
  have pair : ∀ x : ℝ, ex x + ex (-x) = ((2 * (1 - 2 * Real.sin (Real.pi * x) ^ 2) : ℝ) : ℂ) := by
    intro x
    have h1 := Complex.add_conj (ex x)
    rw [conj_ex, ex_re] at h1
    rw [h1]
    congr 2
    have : 2 * Real.pi * x = 2 * (Real.pi * x) := by ring
    rw [this, Real.cos_two_mul, Real.cos_sq']
    ring
  have py := pair (t / ny)
  have px := pair (u / nx)
  rw [sup, n0, n1, n2, n3, n4] at h
  have g0 : freq2 u t (0 : Fin ny × Fin nx) = 0 := freq2_zero _ _
  have g1 : freq2 u t ((1, 0) : Fin ny × Fin nx) = t / ny := by unfold freq2; simp only [Np.fftfreq_zero, f1 ny hy]; ring
  have g2 : freq2 u t ((-1, 0) : Fin ny × Fin nx) = -(t / ny) := by unfold freq2; simp only [Np.fftfreq_zero, f2 ny hy]; ring
  have g3 : freq2 u t ((0, 1) : Fin ny × Fin nx) = u / nx := by unfold freq2; simp only [Np.fftfreq_zero, f1 nx hx]; ring
  have g4 : freq2 u t ((0, -1) : Fin ny × Fin nx) = -(u / nx) := by unfold freq2; simp only [Np.fftfreq_zero, f2 nx hx]; ring
  rw [g0, g1, g2, g3, g4, ex_zero, mul_one] at h
  have aC : (|C| * ((ny : ℝ) * nx)) ^ 2 = C ^ 2 * ((ny : ℝ) * nx) ^ 2 := by rw [mul_pow, sq_abs]
  have aA : (|A| / 2 * ((ny : ℝ) * nx)) ^ 2 = A ^ 2 / 4 * ((ny : ℝ) * nx) ^ 2 := by rw [mul_pow, div_pow, sq_abs]; ring
  have aB : (|B| / 2 * ((ny : ℝ) * nx)) ^ 2 = B ^ 2 / 4 * ((ny : ℝ) * nx) ^ 2 := by rw [mul_pow, div_pow, sq_abs]; ring
  rw [aC, aA, aB] at h
  refine mul_left_cancel₀ hN (h.trans ?_)
  generalize Real.sin (Real.pi * (t / ny)) = sy at py ⊢
  generalize Real.sin (Real.pi * (u / nx)) = sx at px ⊢
  have ey : ex (-(t / ny)) = ((2 * (1 - 2 * sy ^ 2) : ℝ) : ℂ) - ex (t / ny) := by rw [← py]; ring
  have ex' : ex (-(u / nx)) = ((2 * (1 - 2 * sx ^ 2) : ℝ) : ℂ) - ex (u / nx) := by rw [← px]; ring
  rw [ey, ex']
  push_cast
  ring

/-- C129, waves: for a constant plus one wave along each axis, with the constant at least as large as the two waves together
(`C² ≥ (A² + B²)/2`), displaced by any real amount, and every `usfac > 2`, the error of `register_images` (modulo the image size) is at most
`π·n/(2·usfac)·sqrt((C² + A²/4)·(C² + (A² + B²)/2)/(C²·A²))` along the rows (and with `B²` for `A²` along the columns); stated for the squares. -/
theorem C129_register_waves (cfg : FFTConfig) (hy : 3 ≤ ny) (hx : 3 ≤ nx)
    (C A φ B ψ : ℝ) (hA : A ≠ 0) (hB : B ≠ 0) (hC : (A ^ 2 + B ^ 2) / 2 ≤ C ^ 2) (dy dx : ℝ) (usfac : ℕ) (hu : 2 < usfac) :
    ∃ rx ry : ℝ,
      registerImages cfg (realArr fun p : Fin ny × Fin nx => Spec.waves ny nx C A φ B ψ ((p.1 : ℕ) : ℝ) ((p.2 : ℕ) : ℝ))
        (realArr fun p : Fin ny × Fin nx => Spec.waves ny nx C A φ B ψ (((p.1 : ℕ) : ℝ) - dy) (((p.2 : ℕ) : ℝ) - dx))
        usfac false false false none = .ok [.num rx, .num ry] ∧
      (∃ z : ℤ, (ry - dy - z * ny) ^ 2 ≤ (Real.pi * ny / (2 * usfac)) ^ 2 * ((C ^ 2 + A ^ 2 / 4) * (C ^ 2 + (A ^ 2 + B ^ 2) / 2) / (C ^ 2 * A ^ 2))) ∧
      ∃ z : ℤ, (rx - dx - z * nx) ^ 2 ≤ (Real.pi * nx / (2 * usfac)) ^ 2 * ((C ^ 2 + B ^ 2 / 4) * (C ^ 2 + (A ^ 2 + B ^ 2) / 2) / (C ^ 2 * B ^ 2)) := by
  obtain ⟨im1, him1⟩ : ∃ im1 : Fin ny × Fin nx → ℝ, im1 = fun p => Spec.waves ny nx C A φ B ψ ((p.1 : ℕ) : ℝ) ((p.2 : ℕ) : ℝ) := ⟨_, rfl⟩
  obtain ⟨im2, him2⟩ : ∃ im2 : Fin ny × Fin nx → ℝ,
      im2 = fun p => Spec.waves ny nx C A φ B ψ (((p.1 : ℕ) : ℝ) - dy) (((p.2 : ℕ) : ℝ) - dx) := ⟨_, rfl⟩
  have hsh : ∀ p, (im2 p : ℂ) = cshift dy dx im1 p := by
    intro p; rw [him1, him2]; exact waves_cshift hy hx C A φ B ψ dy dx p
  have hcc := waves_cc hy hx C A φ B ψ im1 him1
  obtain ⟨n0, n1, -, n3, -⟩ := waves_norms hy hx C A φ B ψ im1 him1
  have hE : ∑ p, im1 p ^ 2 = ((ny : ℝ) * nx) * (C ^ 2 + (A ^ 2 + B ^ 2) / 2) := by
    have h := hcc 0 0
    have h0 : ∀ p, cshift 0 0 im1 p = (im1 p : ℂ) := fun p => by simpa using cshift_period im1 0 0 p
    unfold Spec.cc at h
    simp only [h0, Complex.conj_ofReal, zero_div, mul_zero, Real.sin_zero] at h
    have h2 : ((∑ p, im1 p ^ 2 : ℝ) : ℂ) = ∑ p, (im1 p : ℂ) * (im1 p : ℂ) := by
      push_cast
      exact Finset.sum_congr rfl fun p _ => by ring
    rw [← h2] at h
    have h3 := Complex.ofReal_injective h
    rw [h3]; ring
  rw [← him1, ← him2]
  clear him1 him2
  have hn0 : (0 : ℝ) < ny := Nat.cast_pos.2 (by omega)
  have hx0 : (0 : ℝ) < nx := Nat.cast_pos.2 (by omega)
  have hu0 : (0 : ℝ) < usfac := Nat.cast_pos.2 (by omega)
  have hA2 : 0 < A ^ 2 := by positivity
  have hB2 : 0 < B ^ 2 := by positivity
  have hC2 : 0 < C ^ 2 := by linarith
  have ho : shift2d cfg (rArr im1) dx dy 0 false false = .cplx (cArr (cshift dy dx im1)) := by
    rw [shift2d_eq, denan_rArr]
    simp only [shiftKernel_zero]
    rw [shiftReturn_cplx]
    rfl
  have hval : ∀ t u : ℝ, ‖Spec.cc im1 im1 t u‖ = ((ny : ℝ) * nx) * (C ^ 2 + A ^ 2 / 2 * (1 - 2 * Real.sin (Real.pi * (t / ny)) ^ 2)
      + B ^ 2 / 2 * (1 - 2 * Real.sin (Real.pi * (u / nx)) ^ 2)) := by
    intro t u
    rw [hcc, Complex.norm_real, Real.norm_eq_abs, abs_of_nonneg]
    refine mul_nonneg (by positivity) ?_
    have h1 := Real.sin_sq_le_one (Real.pi * (t / ny))
    have h2 := Real.sin_sq_le_one (Real.pi * (u / nx))
    nlinarith
  have half : ∀ (n : ℕ) [NeZero n], 3 ≤ n → ∀ (d : ℝ) (j : ℤ),
      Real.sin (Real.pi * ((((round (2 * d) : ℤ) : ℝ) / 2 - d) / n)) ^ 2 ≤ Real.sin (Real.pi * (((j : ℝ) / 2 - d) / n)) ^ 2 ∧
      ((¬ ∃ z : ℤ, |(j : ℝ) / 2 - d - z * n| ≤ 1 / 2) →
        Real.sin (Real.pi * ((((round (2 * d) : ℤ) : ℝ) / 2 - d) / n)) ^ 2 < Real.sin (Real.pi * (((j : ℝ) / 2 - d) / n)) ^ 2) := by
    intro n _ hn d j
    have : NeZero (2 * n) := ⟨by omega⟩
    obtain ⟨h1, h2⟩ := abs_sin_round (2 * n) (by omega) (2 * d) j
    have e : ∀ i : ℤ, ((i : ℝ) - 2 * d) / ((2 * n : ℕ) : ℝ) = ((i : ℝ) / 2 - d) / n := by
      intro i; push_cast; rw [show (i : ℝ) - 2 * d = 2 * ((i : ℝ) / 2 - d) by ring, mul_div_mul_left _ _ two_ne_zero]
    rw [e, e] at h1 h2
    refine ⟨sq_le_sq.2 h1, fun hne => sq_lt_sq.2 (h2 ?_)⟩
    rintro ⟨z, hz⟩
    apply hne
    refine ⟨z, ?_⟩
    have e2 : (j : ℝ) - 2 * d - z * ((2 * n : ℕ) : ℝ) = 2 * ((j : ℝ) / 2 - d - z * n) := by push_cast; ring
    rw [e2, abs_mul, abs_two] at hz
    linarith
  obtain ⟨rx, ry, h, ⟨z, hz⟩, w, hw⟩ := C129_register_rate cfg cfg im1 im2 im1 false (fun p => by simp) usfac hu (by omega) (by omega) dy dx _ ho (by
    refine ⟨round (2 * dy), round (2 * dx), fun j k hne => ?_⟩
    simp only [hsh, sub_self, norm_zero, ne_eq, OfNat.ofNat_ne_zero, not_false_eq_true, zero_pow, Finset.sum_const_zero, Real.sqrt_zero, mul_zero,
      add_zero]
    rw [hval, hval]
    refine mul_lt_mul_of_pos_left ?_ (by positivity)
    have hyj := half ny hy dy j
    have hxk := half nx hx dx k
    by_cases hyn : ∃ z : ℤ, |(j : ℝ) / 2 - dy - z * ny| ≤ 1 / 2
    · have h1 := hxk.2 fun h => hne ⟨hyn, h⟩
      have h2 := hyj.1
      nlinarith
    · have h1 := hyj.2 hyn
      have h2 := hxk.1
      nlinarith)
  have one : ∀ (n : ℕ) [NeZero n], 3 ≤ n → ((1 : Fin n) : ℕ) = ((0 : Fin n) : ℕ) + 1 ∧ 2 * ((1 : Fin n) : ℕ) < n := fun n _ h => by
    have h1 : ((1 : Fin n) : ℕ) = 1 := by rw [Fin.val_one', Nat.mod_eq_of_lt (by omega)]
    rw [h1]; exact ⟨by simp, by omega⟩
  have hz' := hz 0 1 0 (one ny hy).1 (one ny hy).2
  have hw' := hw 0 0 1 (one nx hx).1 (one nx hx).2
  simp only [hsh, sub_self, norm_zero, ne_eq, OfNat.ofNat_ne_zero, not_false_eq_true, zero_pow, Finset.sum_const_zero, Real.sqrt_zero, mul_zero,
    add_zero] at hz' hw'
  have n0' : ‖dft (fun p => (im1 p : ℂ)) (0, 0)‖ = |C| * (ny * nx) := n0
  rw [n0', n1, hE] at hz'
  rw [n0', n3, hE] at hw'
  have fin : ∀ (n T x : ℝ), 0 < n → 0 < T ^ 2 →
      8 * ((|C| * ((ny : ℝ) * nx)) ^ 2 * (|T| / 2 * ((ny : ℝ) * nx)) ^ 2) * x ^ 2
        ≤ ((|C| * ((ny : ℝ) * nx)) ^ 2 + (|T| / 2 * ((ny : ℝ) * nx)) ^ 2) * (n ^ 2 * ((ny : ℝ) * nx))
          * (Real.pi ^ 2 / (2 * (usfac : ℝ) ^ 2) * (((ny : ℝ) * nx) * (C ^ 2 + (A ^ 2 + B ^ 2) / 2))) →
      x ^ 2 ≤ (Real.pi * n / (2 * usfac)) ^ 2 * ((C ^ 2 + T ^ 2 / 4) * (C ^ 2 + (A ^ 2 + B ^ 2) / 2) / (C ^ 2 * T ^ 2)) := by
    intro n T x hn hT hle
    have hN : (0 : ℝ) < (ny : ℝ) * nx := by positivity
    generalize (ny : ℝ) * nx = N at hN hle
    rw [mul_pow, mul_pow, div_pow, sq_abs, sq_abs] at hle
    have e1 : 8 * (C ^ 2 * N ^ 2 * (T ^ 2 / 2 ^ 2 * N ^ 2)) * x ^ 2 = N ^ 4 * (2 * (C ^ 2 * T ^ 2) * x ^ 2) := by ring
    have e2 : (C ^ 2 * N ^ 2 + T ^ 2 / 2 ^ 2 * N ^ 2) * (n ^ 2 * N) * (Real.pi ^ 2 / (2 * (usfac : ℝ) ^ 2) * (N * (C ^ 2 + (A ^ 2 + B ^ 2) / 2)))
        = N ^ 4 * (2 * ((Real.pi * n / (2 * usfac)) ^ 2 * ((C ^ 2 + T ^ 2 / 4) * (C ^ 2 + (A ^ 2 + B ^ 2) / 2)))) := by
      field_simp; ring
    rw [e1, e2] at hle
    have h2 := le_of_mul_le_mul_left hle (by positivity)
    rw [← mul_div_assoc, le_div_iff₀ (by positivity)]
    linarith
  exact ⟨rx, ry, h, ⟨z, fin _ _ _ hn0 hA2 hz'⟩, w, fin _ _ _ hx0 hB2 hw'⟩

end

/-- the waves with amplitude 1 on a 10 × 12 image displaced by (0.3, -2.7): with `upsample_factor=1000` the row shift is found to 4 hundredths -/
example (cfg : FFTConfig) : ∃ rx ry : ℝ,
    chi2Shift cfg none (realArr fun p : Fin 10 × Fin 12 => Spec.waves 10 12 0 1 0 1 0 ((p.1 : ℕ) : ℝ) ((p.2 : ℕ) : ℝ))
      (realArr fun p : Fin 10 × Fin 12 => Spec.waves 10 12 0 1 0 1 0 (((p.1 : ℕ) : ℝ) - 3 / 10) (((p.2 : ℕ) : ℝ) - -27 / 10))
      .none (.int 1000) true 2 false false false 512 5 true = .ok [.num rx, .num ry] ∧
    ∃ z : ℤ, |ry - 3 / 10 - z * 10| ≤ 4 / 100 := by
  obtain ⟨rx, ry, h, ⟨z, hz⟩, -⟩ := C129_waves (ny := 10) (nx := 12) cfg none trivial (by norm_num) (by norm_num) 0 1 0 1 0 one_ne_zero one_ne_zero
    (3 / 10) (-27 / 10) true .none 1 one_ne_zero rfl 1000 (by norm_num) 2 512 5 true (.inl rfl)
  refine ⟨rx, ry, h, z, ?_⟩
  push_cast at hz
  refine hz.trans ?_
  rw [abs_one]
  have := Real.pi_le_four
  linarith

/-- the same waves on a constant 2, for `register_images` with `usfac=1000`: the row shift is found to 6 hundredths -/
example (cfg : FFTConfig) : ∃ rx ry : ℝ,
    registerImages cfg (realArr fun p : Fin 10 × Fin 12 => Spec.waves 10 12 2 1 0 1 0 ((p.1 : ℕ) : ℝ) ((p.2 : ℕ) : ℝ))
      (realArr fun p : Fin 10 × Fin 12 => Spec.waves 10 12 2 1 0 1 0 (((p.1 : ℕ) : ℝ) - 3 / 10) (((p.2 : ℕ) : ℝ) - -27 / 10))
      1000 false false false none = .ok [.num rx, .num ry] ∧
    ∃ z : ℤ, |ry - 3 / 10 - z * 10| ≤ 6 / 100 := by
  obtain ⟨rx, ry, h, ⟨z, hz⟩, -⟩ := C129_register_waves (ny := 10) (nx := 12) cfg (by norm_num) (by norm_num) 2 1 0 1 0 one_ne_zero one_ne_zero
    (by norm_num) (3 / 10) (-27 / 10) 1000 (by norm_num)
  refine ⟨rx, ry, h, z, abs_le_of_sq_le_sq (hz.trans ?_) (by norm_num)⟩
  have := Real.pi_le_four
  have h0 := Real.pi_pos
  norm_num
  nlinarith

end ImgReg
