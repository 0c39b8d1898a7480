import Verif.Props.Register

/-!
# More about `register_images` and `dftregistration` (C46, C88)
-/

open Complex Finset
open scoped ComplexConjugate

namespace ImgReg

section
variable {ny nx : ℕ} [NeZero ny] [NeZero nx]

/-! ## The value at the peak -/

theorem kept_of_not_erased {m n : ℕ} {α : Type} [Zero α] (mo : Option ℕ) (v : Fin m × Fin n → α)
    (i : Fin m × Fin n) (h : ¬ Spec.erased m n mo i) : Spec.kept mo v i = v i := by
  unfold Spec.kept
  rw [if_neg h]

theorem dftregWhole_full (cfg : FFTConfig) (a b : Fin ny × Fin nx → ℝ) (mo : Option ℕ) :
    ∃ loc, loc = Np.argmax (Spec.kept mo fun i : Fin ny × Fin nx =>
        ‖Spec.cc a b ((i.1 : ℕ) : ℝ) ((i.2 : ℕ) : ℝ)‖) ∧
      dftregWhole cfg (cArr (dft fun p => (a p : ℂ))) (cArr (dft fun p => (b p : ℂ))) mo
        = ⟨wrapPeak ny loc.1, wrapPeak nx loc.2, Spec.cc a b ((loc.1 : ℕ) : ℝ) ((loc.2 : ℕ) : ℝ)⟩ := by
  refine ⟨_, rfl, ?_⟩
  have hne := argmax_not_erased mo (fun i : Fin ny × Fin nx => ‖Spec.cc a b ((i.1 : ℕ) : ℝ) ((i.2 : ℕ) : ℝ)‖)
    fun i => norm_nonneg _
  unfold dftregWhole
  rw [getFfts_eq]
  simp only [mul_conj_cArr, Np.ifftn_cArr, zeroMiddle_eq, absArgmax_cArr]
  have hi : (idft fun k => dft (fun p => (a p : ℂ)) k * conj (dft (fun p => (b p : ℂ)) k))
      = fun i : Fin ny × Fin nx => Spec.cc a b ((i.1 : ℕ) : ℝ) ((i.2 : ℕ) : ℝ) := by
    funext i; rw [idft_cross]
  rw [hi]
  have : (fun i => ‖Spec.kept mo (fun i : Fin ny × Fin nx => Spec.cc a b ((i.1 : ℕ) : ℝ) ((i.2 : ℕ) : ℝ)) i‖)
      = Spec.kept mo fun i : Fin ny × Fin nx => ‖Spec.cc a b ((i.1 : ℕ) : ℝ) ((i.2 : ℕ) : ℝ)‖ := by
    funext i
    rw [norm_kept]
  rw [this]
  simp only [cArr, Option.getD_some]
  rw [kept_of_not_erased mo _ _ hne]

theorem dftregHalf_full (cfg : FFTConfig) (a b : Fin ny × Fin nx → ℝ) (mo : Option ℕ) :
    ∃ loc, loc = Np.argmax (Spec.kept mo fun i : Fin (2 * ny) × Fin (2 * nx) =>
        ‖Spec.cc a b (((i.1 : ℕ) : ℝ) / 2) (((i.2 : ℕ) : ℝ) / 2)‖) ∧
      dftregHalf cfg (cArr (dft fun p => (a p : ℂ))) (cArr (dft fun p => (b p : ℂ))) mo
        = ⟨(wrapPeak (2 * ny) loc.1 : ℝ) / 2, (wrapPeak (2 * nx) loc.2 : ℝ) / 2,
          (1 / 4 : ℂ) * Spec.cc a b (((loc.1 : ℕ) : ℝ) / 2) (((loc.2 : ℕ) : ℝ) / 2)⟩ := by
  refine ⟨_, rfl, ?_⟩
  have hne := argmax_not_erased mo (fun i : Fin (2 * ny) × Fin (2 * nx) =>
    ‖Spec.cc a b (((i.1 : ℕ) : ℝ) / 2) (((i.2 : ℕ) : ℝ) / 2)‖) fun i => norm_nonneg _
  unfold dftregHalf
  rw [getFfts_eq]
  simp only [ifftshift_ccLarge, Np.ifftn_cArr, zeroMiddle_eq, absArgmax_cArr]
  have hi : idft (fun K : Fin (2 * ny) × Fin (2 * nx) => ∑ k : Fin ny × Fin nx,
      if Spec.wrap (2 * ny) (Np.fftfreqInt ny k.1) = K.1 ∧ Spec.wrap (2 * nx) (Np.fftfreqInt nx k.2) = K.2
        then dft (fun p => (a p : ℂ)) k * conj (dft (fun p => (b p : ℂ)) k) else 0)
      = fun i => (1 / 4 : ℂ) * Spec.cc a b (((i.1 : ℕ) : ℝ) / 2) (((i.2 : ℕ) : ℝ) / 2) := by
    funext i; rw [idft_ccLarge]
  rw [hi]
  have : Np.argmax (fun i => ‖Spec.kept mo (fun i : Fin (2 * ny) × Fin (2 * nx) =>
      (1 / 4 : ℂ) * Spec.cc a b (((i.1 : ℕ) : ℝ) / 2) (((i.2 : ℕ) : ℝ) / 2)) i‖)
      = Np.argmax (Spec.kept mo fun i : Fin (2 * ny) × Fin (2 * nx) =>
        ‖Spec.cc a b (((i.1 : ℕ) : ℝ) / 2) (((i.2 : ℕ) : ℝ) / 2)‖) := by
    refine Eq.trans (congrArg Np.argmax ?_) (argmax_smul (1 / 4) (by norm_num) _)
    funext i
    rw [norm_kept]
    unfold Spec.kept
    split_ifs
    · simp
    · beta_reduce; rw [norm_mul]; norm_num
  rw [this]
  simp only [cArr, Option.getD_some]
  rw [kept_of_not_erased mo _ _ hne]

theorem fftfreq_single (n : ℕ) (h : n = 1) (k : Fin n) : Np.fftfreq n k = 0 := by
  subst h
  rw [Np.fftfreq_eq]
  have : k = 0 := Subsingleton.elim _ _
  subst this
  have : Np.fftfreqInt 1 ((0 : Fin 1) : ℕ) = 0 := by
    rw [Np.fftfreqInt_eq 1 _ (by simp)]; simp
  rw [this]; simp

/-- along an axis of one pixel the correlation does not depend on the displacement -/
theorem cc_oneAxis (a b : Fin ny × Fin nx → ℝ) (t u : ℝ) :
    Spec.cc a b (Spec.oneAxis ny t) (Spec.oneAxis nx u) = Spec.cc a b t u := by
  rw [cc_fourier, cc_fourier]
  congr 1
  refine Finset.sum_congr rfl fun k _ => ?_
  congr 2
  unfold freq2 Spec.oneAxis
  by_cases hy : ny = 1 <;> by_cases hx : nx = 1
  · rw [fftfreq_single ny hy, fftfreq_single nx hx]; simp
  · rw [fftfreq_single ny hy, if_neg hx]; simp
  · rw [fftfreq_single nx hx, if_neg hy]; simp
  · rw [if_neg hx, if_neg hy]

theorem int_mod_mul {n : ℕ} {x y : ℤ} (h : x ≡ y [ZMOD n]) : ∃ z : ℤ, (x : ℝ) - (y : ℝ) = z * n := by
  obtain ⟨z, hz⟩ := h.dvd
  refine ⟨-z, ?_⟩
  have : (y : ℝ) - x = n * z := by exact_mod_cast hz
  push_cast; linarith

theorem half_mod_mul {n : ℕ} {x y : ℤ} (h : x ≡ y [ZMOD (2 * n : ℕ)]) :
    ∃ z : ℤ, (x : ℝ) / 2 - (y : ℝ) / 2 = z * n := by
  obtain ⟨z, hz⟩ := int_mod_mul h
  refine ⟨z, ?_⟩
  push_cast at hz; linarith

/-- the peak value is a positive multiple of the correlation at the displacement found -/
theorem fit_ccmax (cfg : FFTConfig) (a b : Fin ny × Fin nx → ℝ) (usfac : ℕ) (mo : Option ℕ) (fit : PeakFit)
    (h : dftregFit cfg (cArr (dft fun p => (a p : ℂ))) (cArr (dft fun p => (b p : ℂ))) usfac mo = .ok fit) :
    ∃ r : ℝ, 0 < r ∧ fit.ccmax = r * Spec.cc a b fit.row fit.col := by
  have hu : usfac ≠ 0 := by
    rintro rfl
    rw [dftregFit_zero] at h; cases h
  unfold dftregFit at h
  rw [if_neg hu] at h
  by_cases h1 : usfac = 1
  · rw [if_pos h1] at h
    obtain ⟨loc, -, hw⟩ := dftregWhole_full cfg a b mo
    rw [hw] at h
    injection h with h
    subst h
    refine ⟨1, one_pos, ?_⟩
    rw [Complex.ofReal_one, one_mul]
    refine cc_period _ _ _ _ _ _ ?_ ?_
    · have := int_mod_mul (wrapPeak_modEq ny loc.1).symm
      rwa [Int.cast_natCast] at this
    · have := int_mod_mul (wrapPeak_modEq nx loc.2).symm
      rwa [Int.cast_natCast] at this
  · rw [if_neg h1] at h
    obtain ⟨loc, -, hw⟩ := dftregHalf_full cfg a b mo
    rw [hw] at h
    by_cases h2 : 2 < usfac
    · have hs0 : NeZero ⌈(usfac : ℝ) * (3 / 2)⌉₊ := ⟨refineSize_pos usfac (by omega)⟩
      obtain ⟨loc2, c, -, hr, hc⟩ := dftregRefine_eq a b usfac hu
        ((wrapPeak (2 * ny) loc.1 : ℝ) / 2) ((wrapPeak (2 * nx) loc.2 : ℝ) / 2)
      simp only [if_pos h2, hr, bind, Except.bind, pure, Except.pure] at h
      injection h with h
      subst h
      have hu0 : (0 : ℝ) < usfac := by exact_mod_cast Nat.pos_of_ne_zero hu
      refine ⟨1 / (usfac : ℝ) ^ 2, by positivity, ?_⟩
      simp only
      rw [hc]
      congr 1
      exact (cc_oneAxis a b _ _).symm
    · simp only [if_neg h2, bind, Except.bind, pure, Except.pure] at h
      injection h with h
      subst h
      refine ⟨1 / 4, by norm_num, ?_⟩
      simp only
      push_cast
      congr 1
      refine Eq.trans ?_ (cc_oneAxis a b _ _).symm
      refine cc_period _ _ _ _ _ _ ?_ ?_
      · have := half_mod_mul (wrapPeak_modEq (2 * ny) loc.1).symm
        rwa [Int.cast_natCast] at this
      · have := half_mod_mul (wrapPeak_modEq (2 * nx) loc.2).symm
        rwa [Int.cast_natCast] at this

/-- the registered spectrum: the spectrum of the second image displaced by the fit, times a global phase -/
theorem greg_eq (b : Fin ny × Fin nx → ℝ) (fit : PeakFit) :
    dftregGreg (cArr (dft fun p => (b p : ℂ))) fit
      = cArr (dft fun p => Complex.exp (I * (Complex.arg fit.ccmax : ℂ)) * cshift fit.row fit.col b p) := by
  unfold dftregGreg
  simp only [linspace_ifftshift]
  have h1 : ∀ k : Fin ny × Fin nx, Complex.exp (I * 2 * Real.pi
      * ((-fit.row * (Np.fftfreqInt ny k.1 : ℝ) / (ny : ℝ) - fit.col * (Np.fftfreqInt nx k.2 : ℝ) / (nx : ℝ) : ℝ) : ℂ))
      = ex (-(freq2 fit.col fit.row k)) := by
    intro k
    unfold ex freq2
    rw [Np.fftfreq_eq, Np.fftfreq_eq]
    congr 1
    push_cast
    ring
  simp only [h1]
  rw [dft_smul, dft_cshift]
  funext k
  simp only [Np.mul, cArr, Option.map₂_some_some]
  rw [mul_comm]

/-! ## C46 -/

theorem kept_none {m n : ℕ} (f : Fin m × Fin n → ℝ) : Spec.kept none f = f := by
  funext i
  have : ¬ Spec.erased m n none i := by rintro ⟨k, hk, _⟩; cases hk
  exact kept_of_not_erased _ _ _ this

/-- C46: with `usfac = 1` the reported shift is a whole number of pixels per axis and maximises the modulus
of the periodic cross-correlation over ALL whole-pixel displacements. -/
theorem C46_whole_pixel (cfg : FFTConfig) (im1 im2 : Fin ny × Fin nx → Pix) (zm : Bool) :
    ∃ dx dy : ℤ, registerImages cfg im1 im2 1 false false zm none = .ok [.num dx, .num dy] ∧
      ∀ j k : ℤ, ‖Spec.cc (prep zm im1) (prep zm im2) j k‖
        ≤ ‖Spec.cc (prep zm im1) (prep zm im2) (-dy) (-dx)‖ := by
  obtain ⟨loc, fit, hl, hfit, hr, hc⟩ := dftregFit_one ⟨cfg.hasFftw, false, 1⟩ (prep zm im1) (prep zm im2) none
  rw [kept_none] at hl
  refine ⟨-wrapPeak nx loc.2, -wrapPeak ny loc.1, ?_, fun j k => ?_⟩
  · rw [registerImages_same, registerBody_ok cfg _ _ 1 false false zm _ fit hfit, hr, hc]
    simp
  · have hmax := (Np.argmax_spec fun i : Fin ny × Fin nx =>
      ‖Spec.cc (prep zm im1) (prep zm im2) ((i.1 : ℕ) : ℝ) ((i.2 : ℕ) : ℝ)‖).1 (Spec.wrap ny j, Spec.wrap nx k)
    rw [← hl] at hmax
    beta_reduce at hmax
    refine le_trans (le_of_eq ?_) (hmax.trans (le_of_eq ?_))
    · congr 1
      refine cc_period _ _ _ _ _ _ ?_ ?_
      · have := int_mod_mul (Spec.wrap_modEq ny j).symm
        rwa [Int.cast_natCast] at this
      · have := int_mod_mul (Spec.wrap_modEq nx k).symm
        rwa [Int.cast_natCast] at this
    · congr 1
      push_cast
      rw [neg_neg, neg_neg]
      refine cc_period _ _ _ _ _ _ ?_ ?_
      · have := int_mod_mul (wrapPeak_modEq ny loc.1).symm
        rwa [Int.cast_natCast] at this
      · have := int_mod_mul (wrapPeak_modEq nx loc.2).symm
        rwa [Int.cast_natCast] at this

/-- C46: with `usfac = 1` and `maxoff = k ≥ 1` the reported shift maximises the modulus of the periodic
cross-correlation over the displacements between `-k` and `k-1` along both axes. -/
theorem C46_whole_pixel_maxoff (cfg : FFTConfig) (im1 im2 : Fin ny × Fin nx → Pix) (zm : Bool) (maxoff : ℕ) :
    ∃ dx dy : ℤ, registerImages cfg im1 im2 1 false false zm (some maxoff) = .ok [.num dx, .num dy] ∧
      ∀ j k : ℤ, -(maxoff : ℤ) ≤ j → j < maxoff → -(maxoff : ℤ) ≤ k → k < maxoff →
        ‖Spec.cc (prep zm im1) (prep zm im2) j k‖ ≤ ‖Spec.cc (prep zm im1) (prep zm im2) (-dy) (-dx)‖ := by
  obtain ⟨loc, fit, hl, hfit, hr, hc⟩ := dftregFit_one ⟨cfg.hasFftw, false, 1⟩ (prep zm im1) (prep zm im2)
    (some maxoff)
  have hne := argmax_not_erased (some maxoff) (fun i : Fin ny × Fin nx =>
    ‖Spec.cc (prep zm im1) (prep zm im2) ((i.1 : ℕ) : ℝ) ((i.2 : ℕ) : ℝ)‖) fun i => norm_nonneg _
  have ax : ∀ (n : ℕ) [NeZero n] (j : ℤ), -(maxoff : ℤ) ≤ j → j < maxoff →
      ¬ (maxoff ≤ (Spec.wrap n j : ℕ) ∧ (Spec.wrap n j : ℕ) + maxoff < n) := by
    rintro n _ j h1 h2 ⟨h3, h4⟩
    obtain ⟨z, hz⟩ := (Spec.wrap_modEq n j).dvd
    have h5 : (n : ℤ) * z < 0 := by omega
    have hn : (0 : ℤ) < n := by exact_mod_cast Nat.pos_of_ne_zero (NeZero.ne n)
    have hz0 : z ≤ -1 := by nlinarith
    have : (n : ℤ) * z ≤ -n := by nlinarith
    omega
  refine ⟨-wrapPeak nx loc.2, -wrapPeak ny loc.1, ?_, fun j k j1 j2 k1 k2 => ?_⟩
  · rw [registerImages_same, registerBody_ok cfg _ _ 1 false false zm _ fit hfit, hr, hc]
    simp
  · have hmax := (Np.argmax_spec (Spec.kept (some maxoff) fun i : Fin ny × Fin nx =>
      ‖Spec.cc (prep zm im1) (prep zm im2) ((i.1 : ℕ) : ℝ) ((i.2 : ℕ) : ℝ)‖)).1 (Spec.wrap ny j, Spec.wrap nx k)
    rw [kept_of_not_erased _ _ _ hne, ← hl, kept_of_not_erased _ _ _ (by
      rintro ⟨k', hk', -, h | h⟩
      · obtain rfl : maxoff = k' := by injection hk'
        exact ax ny j j1 j2 h
      · obtain rfl : maxoff = k' := by injection hk'
        exact ax nx k k1 k2 h)] at hmax
    refine le_trans (le_of_eq ?_) (hmax.trans (le_of_eq ?_))
    · congr 1
      refine cc_period _ _ _ _ _ _ ?_ ?_
      · have := int_mod_mul (Spec.wrap_modEq ny j).symm
        rwa [Int.cast_natCast] at this
      · have := int_mod_mul (Spec.wrap_modEq nx k).symm
        rwa [Int.cast_natCast] at this
    · congr 1
      push_cast
      rw [neg_neg, neg_neg]
      refine cc_period _ _ _ _ _ _ ?_ ?_
      · have := int_mod_mul (wrapPeak_modEq ny loc.1).symm
        rwa [Int.cast_natCast] at this
      · have := int_mod_mul (wrapPeak_modEq nx loc.2).symm
        rwa [Int.cast_natCast] at this

/-- C46: with `usfac = 2` the reported shift is a multiple of half a pixel per axis and maximises the
modulus of the Fourier-interpolated cross-correlation over ALL half-pixel displacements. -/
theorem C46_half_pixel (cfg : FFTConfig) (im1 im2 : Fin ny × Fin nx → Pix) (zm : Bool) :
    ∃ dx dy : ℤ, registerImages cfg im1 im2 2 false false zm none
        = .ok [.num ((dx : ℝ) / 2), .num ((dy : ℝ) / 2)] ∧
      ∀ j k : ℤ, ‖Spec.cc (prep zm im1) (prep zm im2) ((j : ℝ) / 2) ((k : ℝ) / 2)‖
        ≤ ‖Spec.cc (prep zm im1) (prep zm im2) (-(dy / 2)) (-(dx / 2))‖ := by
  obtain ⟨loc, fit, hl, hfit, hr, hc⟩ := dftregFit_two ⟨cfg.hasFftw, false, 1⟩ (prep zm im1) (prep zm im2) none
  rw [kept_none] at hl
  have one : ∀ (m : ℕ) (z : ℤ), Spec.oneAxis m ((z : ℝ) / 2) = ((if m = 1 then 0 else z : ℤ) : ℝ) / 2 := by
    intro m z; unfold Spec.oneAxis; split_ifs <;> simp
  refine ⟨-(if nx = 1 then 0 else wrapPeak (2 * nx) loc.2), -(if ny = 1 then 0 else wrapPeak (2 * ny) loc.1),
    ?_, fun j k => ?_⟩
  · rw [registerImages_same, registerBody_ok cfg _ _ 2 false false zm _ fit hfit, hr, hc, one, one]
    rw [Int.cast_neg, Int.cast_neg, neg_div, neg_div]
    simp
  · have hmax := (Np.argmax_spec fun i : Fin (2 * ny) × Fin (2 * nx) =>
      ‖Spec.cc (prep zm im1) (prep zm im2) (((i.1 : ℕ) : ℝ) / 2) (((i.2 : ℕ) : ℝ) / 2)‖).1
      (Spec.wrap (2 * ny) j, Spec.wrap (2 * nx) k)
    rw [← hl] at hmax
    beta_reduce at hmax
    refine le_trans (le_of_eq ?_) (hmax.trans (le_of_eq ?_))
    · congr 1
      refine cc_period _ _ _ _ _ _ ?_ ?_
      · have := half_mod_mul (Spec.wrap_modEq (2 * ny) j).symm
        rwa [Int.cast_natCast] at this
      · have := half_mod_mul (Spec.wrap_modEq (2 * nx) k).symm
        rwa [Int.cast_natCast] at this
    · congr 1
      rw [Int.cast_neg, Int.cast_neg, neg_div, neg_div, neg_neg, neg_neg, ← one, ← one, cc_oneAxis]
      refine cc_period _ _ _ _ _ _ ?_ ?_
      · have := half_mod_mul (wrapPeak_modEq (2 * ny) loc.1).symm
        rwa [Int.cast_natCast] at this
      · have := half_mod_mul (wrapPeak_modEq (2 * nx) loc.2).symm
        rwa [Int.cast_natCast] at this

omit [NeZero ny] [NeZero nx] in
/-- C46: the rounding of the first estimate to the refinement grid is to the nearest integer, a tie going
to the even one. -/
theorem C46_round (x : ℝ) : |(pyRound x : ℝ) - x| ≤ 1 / 2 ∧
    (|(pyRound x : ℝ) - x| = 1 / 2 → Even (pyRound x)) := by
  refine ⟨abs_pyRound_sub x, ?_⟩
  have h1 := Int.floor_le x
  have h2 := Int.lt_floor_add_one x
  unfold pyRound
  split_ifs with c1 c2 c3
  · intro h
    rw [abs_of_nonpos (by linarith)] at h
    linarith
  · intro h
    push_cast at h
    rw [abs_of_nonneg (by linarith)] at h
    linarith
  · exact fun _ => c3
  · exact fun _ => (Int.not_even_iff_odd.1 c3).add_one

/-! ## C88 -/

/-- squared distance of two complex images -/
noncomputable def Spec.dist2 (x y : Fin ny × Fin nx → ℂ) : ℝ := ∑ p, ‖x p - y p‖ ^ 2

/-- C88: `dftregistration(fft(a), fft(b), usfac, return_registered=True)` returns `[row, col, G]`, where `G` is
the spectrum of `b` Fourier-shifted by `(row, col)` and multiplied by ONE number of modulus 1, chosen such
that among all global phases the result is closest to `a`; its correlation with `a` is then the modulus of
the cross-correlation at `(row, col)`. -/
theorem C88_registered_spectrum (cfg : FFTConfig) (a b : Fin ny × Fin nx → ℝ) (usfac : ℕ) (hu : 1 ≤ usfac)
    (mo : Option ℕ) :
    ∃ (row col : ℝ) (phase : ℂ), ‖phase‖ = 1 ∧
      dftregistration cfg (Np.fftn (rArr a)) (Np.fftn (rArr b)) usfac true false mo = .ok
        [.num row, .num col, .spectrum (Np.fftn (cArr fun p => phase * cshift row col b p))] ∧
      ∑ p, (a p : ℂ) * conj (phase * cshift row col b p) = ‖Spec.cc a b row col‖ ∧
      ∀ c : ℂ, ‖c‖ = 1 → Spec.dist2 (fun p => (a p : ℂ)) (fun p => phase * cshift row col b p)
        ≤ Spec.dist2 (fun p => (a p : ℂ)) (fun p => c * cshift row col b p) := by
  obtain ⟨fit, hfit, -⟩ := fit_grid cfg a b usfac hu mo
  obtain ⟨r, hr, hcc⟩ := fit_ccmax cfg a b usfac mo fit hfit
  have hph : ‖Complex.exp (I * (Complex.arg fit.ccmax : ℂ))‖ = 1 := by
    rw [mul_comm I, Complex.norm_exp_ofReal_mul_I]
  have harg : Complex.arg fit.ccmax = Complex.arg (Spec.cc a b fit.row fit.col) := by
    rw [hcc, Complex.arg_real_mul _ hr]
  have hcorr : ∀ c : ℂ, ∑ p, (a p : ℂ) * conj (c * cshift fit.row fit.col b p)
      = conj c * Spec.cc a b fit.row fit.col := by
    intro c
    unfold Spec.cc
    rw [Finset.mul_sum]
    refine Finset.sum_congr rfl fun p _ => ?_
    rw [map_mul]; ring
  have hpk : conj (Complex.exp (I * (Complex.arg fit.ccmax : ℂ))) * Spec.cc a b fit.row fit.col
      = ‖Spec.cc a b fit.row fit.col‖ := by
    rw [harg]
    nth_rw 2 [← Complex.norm_mul_exp_arg_mul_I (Spec.cc a b fit.row fit.col)]
    rw [← Complex.exp_conj, map_mul, Complex.conj_I, Complex.conj_ofReal, mul_left_comm, ← Complex.exp_add]
    have : -I * (Complex.arg (Spec.cc a b fit.row fit.col) : ℂ)
        + (Complex.arg (Spec.cc a b fit.row fit.col) : ℂ) * I = 0 := by ring
    rw [this, Complex.exp_zero, mul_one]
  refine ⟨fit.row, fit.col, _, hph, ?_, ?_, ?_⟩
  · unfold dftregistration
    rw [Np.fftn_rArr, Np.fftn_rArr, hfit]
    simp only [bind, Except.bind, pure, Except.pure, greg_eq, Np.fftn_cArr]
    rfl
  · rw [hcorr, hpk]
  · have hd : ∀ c : ℂ, ‖c‖ = 1 → Spec.dist2 (fun p => (a p : ℂ)) (fun p => c * cshift fit.row fit.col b p)
        = ∑ p, ‖(a p : ℂ)‖ ^ 2 + ∑ p, ‖cshift fit.row fit.col b p‖ ^ 2
          - 2 * (conj c * Spec.cc a b fit.row fit.col).re := by
      intro c hc
      rw [← hcorr c, Complex.re_sum, Finset.mul_sum, ← Finset.sum_add_distrib, ← Finset.sum_sub_distrib]
      unfold Spec.dist2
      refine Finset.sum_congr rfl fun p _ => ?_
      have h1 : ‖cshift fit.row fit.col b p‖ ^ 2 = ‖c * cshift fit.row fit.col b p‖ ^ 2 := by
        rw [norm_mul, hc, one_mul]
      rw [h1, ← Complex.normSq_eq_norm_sq, ← Complex.normSq_eq_norm_sq, ← Complex.normSq_eq_norm_sq,
        Complex.normSq_sub]
    intro c hc
    rw [hd _ hph, hd c hc, hpk]
    have h1 : (conj c * Spec.cc a b fit.row fit.col).re ≤ ‖Spec.cc a b fit.row fit.col‖ := by
      refine (Complex.re_le_norm _).trans ?_
      rw [norm_mul, RCLike.norm_conj, hc, one_mul]
    rw [Complex.ofReal_re]
    linarith

/-- C88: for an image and its roll by whole pixels, uniquely identifiable, `dftregistration` returns minus the
roll (the displacement that brings the second image back), and the registered spectrum is exactly the
spectrum of the first image. -/
theorem C88_restores_reference (cfg : FFTConfig) (a : Fin ny × Fin nx → ℝ) (dy dx : ℤ) (usfac : ℕ)
    (hu : 1 ≤ usfac) (hsz : usfac = 1 ∨ (2 ≤ ny ∧ 2 ≤ nx)) (hid : Spec.identifiable (Spec.candidates usfac) a)
    (hdy : -(ny : ℤ) ≤ 2 * dy ∧ 2 * dy < ny) (hdx : -(nx : ℤ) ≤ 2 * dx ∧ 2 * dx < nx) :
    dftregistration cfg (Np.fftn (rArr a)) (Np.fftn (rArr (Spec.roll2 dy dx a))) usfac true false none = .ok
      [.num (-dy), .num (-dx), .spectrum (Np.fftn (rArr a))] := by
  have hb := Spec.roll2_eq_cshift a dy dx
  obtain ⟨fit, hfit, hr, hc⟩ := fit_recovers cfg _ _ dy dx hb usfac hu hsz hid hdy hdx none
    (by intro k hk; cases hk)
  obtain ⟨r, hr0, hcc⟩ := fit_ccmax cfg _ _ usfac none fit hfit
  have hcs := cshift_cshift ((-dy : ℤ) : ℝ) ((-dx : ℤ) : ℝ) _ _ _ _ hb
  have hz : ∀ d : ℤ, ((-d : ℤ) : ℝ) + d = ((0 : ℤ) : ℝ) := fun d => by push_cast; ring
  rw [hz, hz] at hcs
  have hcs' : cshift ((-dy : ℤ) : ℝ) ((-dx : ℤ) : ℝ) (Spec.roll2 dy dx a) = fun p => (a p : ℂ) := by
    rw [hcs]
    funext p
    rw [cshift_int]
    congr 1
    unfold Spec.roll2
    simp only [sub_zero, Spec.wrap_val]
  have hph : Complex.exp (I * (Complex.arg fit.ccmax : ℂ)) = 1 := by
    have : Spec.cc a (Spec.roll2 dy dx a) fit.row fit.col = ((∑ p, a p ^ 2 : ℝ) : ℂ) := by
      unfold Spec.cc
      rw [hr, hc, hcs']
      push_cast
      refine Finset.sum_congr rfl fun p _ => ?_
      rw [Complex.conj_ofReal]; ring
    rw [hcc, this, ← Complex.ofReal_mul, Complex.arg_ofReal_of_nonneg]
    · simp
    · have : 0 ≤ ∑ p, a p ^ 2 := Finset.sum_nonneg fun p _ => by positivity
      positivity
  unfold dftregistration
  rw [Np.fftn_rArr, Np.fftn_rArr, hfit]
  simp only [bind, Except.bind, pure, Except.pure, greg_eq, hph, one_mul]
  rw [hr, hc, hcs']
  push_cast
  rfl

/-- C88: `usfac = 0` is refused; otherwise the result is `[row, col]`, then with `return_error` two entries
`1/usfac`, then with `return_registered` the spectrum, in this order, and the shifts do not depend on
the two options. -/
theorem C88_layout (cfg : FFTConfig) (a b : Fin ny × Fin nx → ℝ) (usfac : ℕ) (mo : Option ℕ) :
    (usfac = 0 → ∀ rr re, dftregistration cfg (Np.fftn (rArr a)) (Np.fftn (rArr b)) usfac rr re mo
      = .error .valueError) ∧
    (1 ≤ usfac → ∃ (row col : ℝ) (G : Fin ny × Fin nx → CPix), ∀ rr re,
      dftregistration cfg (Np.fftn (rArr a)) (Np.fftn (rArr b)) usfac rr re mo = .ok
        ([.num row, .num col] ++ (if re then [.num (1 / usfac), .num (1 / usfac)] else [])
          ++ (if rr then [.spectrum G] else []))) := by
  constructor
  · rintro rfl rr re
    unfold dftregistration
    rw [dftregFit_zero]
    rfl
  · intro hu
    obtain ⟨fit, hfit, -⟩ := fit_grid cfg a b usfac hu mo
    refine ⟨fit.row, fit.col, dftregGreg (cArr (dft fun p => (b p : ℂ))) fit, fun rr re => ?_⟩
    unfold dftregistration
    rw [Np.fftn_rArr, Np.fftn_rArr, hfit]
    cases rr <;> cases re <;> rfl

/-- C88: `register_images` reports minus the shifts that `dftregistration` finds for the spectra of the two
prepared images, in the order x, y. -/
theorem C88_register_images (cfg : FFTConfig) (im1 im2 : Fin ny × Fin nx → Pix) (usfac : ℕ) (hu : 1 ≤ usfac)
    (zm : Bool) (mo : Option ℕ) :
    ∃ row col : ℝ, dftregistration ⟨cfg.hasFftw, false, 1⟩ (Np.fftn (rArr (prep zm im1)))
        (Np.fftn (rArr (prep zm im2))) usfac false false mo = .ok [.num row, .num col] ∧
      registerImages cfg im1 im2 usfac false false zm mo = .ok [.num (-col), .num (-row)] := by
  obtain ⟨fit, hfit, -⟩ := fit_grid ⟨cfg.hasFftw, false, 1⟩ (prep zm im1) (prep zm im2) usfac hu mo
  refine ⟨fit.row, fit.col, ?_, ?_⟩
  · unfold dftregistration
    rw [Np.fftn_rArr, Np.fftn_rArr, hfit]
    rfl
  · rw [registerImages_same, registerBody_ok cfg _ _ usfac false false zm _ fit hfit]
    simp

/-! ## The hypotheses can be met -/

/-- a 4×5 star rolled by (1,-2): the shift found is (-1, 2), and the spectrum of the star is restored -/
example (cfg : FFTConfig) (usfac : ℕ) (hu : 1 ≤ usfac) :
    dftregistration cfg (Np.fftn (rArr fun p : Fin 4 × Fin 5 => if p = 0 then (1 : ℝ) else 0))
      (Np.fftn (rArr (Spec.roll2 1 (-2) fun p : Fin 4 × Fin 5 => if p = 0 then (1 : ℝ) else 0))) usfac true false
      none = .ok [.num (-(1 : ℤ)), .num (-(-2 : ℤ)),
        .spectrum (Np.fftn (rArr fun p : Fin 4 × Fin 5 => if p = 0 then (1 : ℝ) else 0))] := by
  have hd : ∀ k : Fin 4 × Fin 5,
      dft (fun p : Fin 4 × Fin 5 => ((if p = 0 then (1 : ℝ) else 0 : ℝ) : ℂ)) k ≠ 0 := by
    intro k
    have h1 : dft (fun p : Fin 4 × Fin 5 => ((if p = 0 then (1 : ℝ) else 0 : ℝ) : ℂ)) k = 1 := by
      unfold dft
      rw [Finset.sum_eq_single 0]
      · simp [FFTIndex.e_zero]
      · intro b _ hb; simp [hb]
      · simp
    rw [h1]; exact one_ne_zero
  refine C88_restores_reference cfg _ 1 (-2) usfac hu (Or.inr ⟨by norm_num, by norm_num⟩) ?_ (by norm_num) (by norm_num)
  exact identifiable_of_dft _ _ (by norm_num) (by norm_num) (hd _) (hd _) (Or.inl (hd _))

/-- a tie is rounded to even, in both directions -/
example : pyRound (5 / 2) = 2 ∧ pyRound (7 / 2) = 4 ∧ pyRound (-1 / 2) = 0 := by
  have h1 : ⌊(5 / 2 : ℝ)⌋ = 2 := by rw [Int.floor_eq_iff]; norm_num
  have h2 : ⌊(7 / 2 : ℝ)⌋ = 3 := by rw [Int.floor_eq_iff]; norm_num
  have h3 : ⌊(-1 / 2 : ℝ)⌋ = -1 := by rw [Int.floor_eq_iff]; norm_num
  unfold pyRound
  rw [h1, h2, h3]
  norm_num [Int.even_iff]

end

end ImgReg
