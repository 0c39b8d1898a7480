import Verif.Lemmas.Chi2Recover
import Verif.Props.Chi2Shift

/-!
# Properties of `chi2_shift` and `chi2map_to_errors` (C33–C38)
-/

open Complex Finset

namespace ImgReg

section
variable {ny nx : ℕ} [NeZero ny] [NeZero nx]

omit [NeZero ny] [NeZero nx] in
theorem scalarErr_errOf {err : ErrArg ny nx} {s : ℝ} (herr : Spec.isScalarErr err s) :
    Spec.errOf err = fun _ => s := by
  cases err <;> simp_all [Spec.isScalarErr, Spec.errOf]

omit [NeZero ny] [NeZero nx] in
theorem scalarErr_maskOf {err : ErrArg ny nx} {s : ℝ} (herr : Spec.isScalarErr err s)
    (a : Fin ny × Fin nx → ℝ) : Spec.maskOf err a = a := by
  cases err <;> simp_all [Spec.isScalarErr, Spec.maskOf]

/-- everything about a successful call with a scalar error -/
theorem chi2Shift_scalar (cfg : FFTConfig) (st : Stats) (hst : Spec.validStats st)
    (im1 im2 : Fin ny × Fin nx → Pix) (err : ErrArg ny nx) (s : ℝ) (herr : Spec.isScalarErr err s)
    (us : UsFactor) (zm : Bool) (nf : ℝ)
    (mas : ℕ) (mns : ℝ) (ah : Bool) (hf : Spec.fits ah ny nx) (hus : Spec.validUs ny mas us) :
    ∃ cm, chi2nMapBody cfg im1 im2 err zm false ah = .ok cm ∧
      (∀ i, cm.chi2 i = Spec.resid (prep zm im1) (prep zm im2) s
        (-Spec.lag ny i.1 : ℤ) (-Spec.lag nx i.2 : ℤ)) ∧
    ∃ (s1 s2 : ℕ) (_ : NeZero s1) (_ : NeZero s2), (s1, s2) = Spec.gridSize ny nx mas us ∧
    ∃ u : ℝ, u = Spec.usUsed cm.chi2 (mAuto st mns nf) mas us ∧ 0 < u ∧
    ∃ yv xv : Fin s1 × Fin s2 → ℝ,
      yv = (fun i => Spec.gridShift ny (Np.argmin cm.chi2).1 u s1 i.1) ∧
      xv = (fun i => Spec.gridShift nx (Np.argmin cm.chi2).2 u s2 i.2) ∧
    ∃ c : Fin s1 × Fin s2 → ℝ,
      c = (fun i => Spec.resid (prep zm im1) (prep zm im2) s (yv i) (xv i)) ∧
    ∃ er, chi2mapToErrors st c u 1 2 = .ok er ∧
      ∀ re rc, chi2Shift cfg st im1 im2 err us zm nf false re rc mas mns ah
        = .ok (Spec.layout re rc (-xv (Np.argmin c)) (-yv (Np.argmin c))
            ((er.xLow + er.xHigh) / 2) ((er.yLow + er.yHigh) / 2) (.arrays s1 s2 xv yv c)) := by
  obtain ⟨cm, hcm, s1, s2, i1, i2, hg, u, hu, hu0, yv, xv, hyv, hxv, c, hc, rest⟩ :=
    chi2Shift_ok cfg st hst im1 im2 err us zm nf mas mns ah hf hus
  obtain ⟨cm', hcm', hchi⟩ := chi2nMapBody_chi2 cfg im1 im2 err zm ah hf
  rw [hcm] at hcm'
  obtain rfl : cm = cm' := by injection hcm'
  refine ⟨cm, hcm, fun i => ?_, s1, s2, i1, i2, hg, u, hu, hu0, yv, xv, hyv, hxv, c, ?_, rest⟩
  · rw [hchi, scalarErr_errOf herr, scalarErr_maskOf herr, scalarErr_maskOf herr, chi2_eq_resid]
  · rw [hc]
    funext i
    have : (fun i => ((cm.chi2 i : ℝ) : ℂ)) = fun i => ((Spec.chi2 (prep zm im1) (prep zm im2)
        (fun _ => s) (Spec.lag ny i.1) (Spec.lag nx i.2) : ℝ) : ℂ) := by
      funext i; rw [hchi, scalarErr_errOf herr, scalarErr_maskOf herr, scalarErr_maskOf herr]
    simp only [this]
    rw [interp2C_chi2, add_sub_cancel_right, add_sub_cancel_right]

/-! ## C33 -/

/-- the search grid (`s` points spaced `1/u` over an axis of `n` pixels) contains whole-pixel shifts -/
def Spec.wholeOnGrid (n s u : ℕ) : Prop := (Odd n ∧ Odd s) ∨ (Even n ∧ Even s ∧ Odd u ∧ u < s)

theorem wholeOnGrid_exists {n s u : ℕ} (hu : 0 < u) (h : Spec.wholeOnGrid n s u) :
    ∃ i : Fin s, Spec.halfPix n + (((i : ℕ) : ℝ) - ((s : ℝ) - 1) / 2) / (u : ℝ) = 0 := by
  have hu' : (u : ℝ) ≠ 0 := by exact_mod_cast hu.ne'
  rcases h with ⟨hn, ⟨k, rfl⟩⟩ | ⟨hn, ⟨k, rfl⟩, ⟨j, rfl⟩, hlt⟩
  · refine ⟨⟨k, by omega⟩, ?_⟩
    have : ¬ n % 2 = 0 := by rw [Nat.odd_iff] at hn; omega
    simp only [Spec.halfPix, this, if_false]
    push_cast; ring
  · refine ⟨⟨k - 1 - j, by omega⟩, ?_⟩
    have h2 : n % 2 = 0 := Nat.even_iff.1 hn
    have hc : ((k - 1 - j : ℕ) : ℝ) = (k : ℝ) - 1 - j := by
      rw [Nat.cast_sub (by omega), Nat.cast_sub (by omega)]; simp
    simp only [Spec.halfPix, h2, if_true, hc]
    field_simp
    push_cast; ring

/-- for an integer factor the search window is shorter than the image along each axis -/
theorem window_lt {n s u : ℕ} (hn : 2 ≤ n) (hu : 0 < u) (hs : s = n ∨ s = 2 * u) (i j : Fin s) :
    |(((i : ℕ) : ℝ) - ((j : ℕ) : ℝ)) / u| < n := by
  have hu' : (0 : ℝ) < u := by exact_mod_cast hu
  have hi := i.isLt
  have hj := j.isLt
  rw [abs_div, abs_of_pos hu', div_lt_iff₀ hu', abs_lt]
  have hb : (s : ℝ) ≤ n * u := by
    have : s ≤ n * u := by
      rcases hs with rfl | rfl
      · nlinarith
      · nlinarith
    exact_mod_cast this
  have h1 : ((i : ℕ) : ℝ) < s := by exact_mod_cast hi
  have h2 : ((j : ℕ) : ℝ) < s := by exact_mod_cast hj
  have h3 : (0 : ℝ) ≤ ((i : ℕ) : ℝ) := by positivity
  have h4 : (0 : ℝ) ≤ ((j : ℕ) : ℝ) := by positivity
  constructor <;> linarith

theorem gridSize_int_cases {mas u s1 s2 : ℕ} (h : (s1, s2) = Spec.gridSize ny nx mas (.int u)) :
    (s1 = ny ∨ s1 = 2 * u) ∧ (s2 = nx ∨ s2 = 2 * u) := by
  simp only [Spec.gridSize] at h
  split_ifs at h <;> (injection h with h1 h2; subst h1; subst h2; simp)

/-- a multiple of `n` smaller than `n` in absolute value is zero -/
theorem eq_zero_of_mul_lt {n : ℕ} {t : ℝ} (h1 : ∃ z : ℤ, t = z * n) (h2 : |t| < n) : t = 0 := by
  obtain ⟨z, rfl⟩ := h1
  have hn : (0 : ℝ) ≤ n := by positivity
  rw [abs_mul, abs_of_nonneg hn] at h2
  have h3 : |(z : ℝ)| < 1 := by
    by_contra hc
    push Not at hc
    nlinarith
  have : |z| < 1 := by exact_mod_cast h3
  have : z = 0 := Int.abs_lt_one_iff.1 this
  simp [this]

/-- the aligned grid point is the argmin when it exists -/
theorem argmin_aligned {s1 s2 u : ℕ} [NeZero s1] [NeZero s2] (hy : 2 ≤ ny) (hx : 2 ≤ nx) (hu : 0 < u)
    (h1 : s1 = ny ∨ s1 = 2 * u) (h2 : s2 = nx ∨ s2 = 2 * u) (a b : Fin ny × Fin nx → ℝ) (s : ℝ)
    (hs : s ≠ 0) (ty tx : ℝ) (hb : ∀ p, (b p : ℂ) = cshift ty tx a p)
    (h10 : dft (fun p => (a p : ℂ)) (1, 0) ≠ 0) (h01 : dft (fun p => (a p : ℂ)) (0, 1) ≠ 0)
    (q : Fin ny × Fin nx) (i0 : Fin s1 × Fin s2)
    (hy0 : ∃ z : ℤ, Spec.gridShift ny q.1 u s1 i0.1 + ty = z * ny)
    (hx0 : ∃ z : ℤ, Spec.gridShift nx q.2 u s2 i0.2 + tx = z * nx) :
    Np.argmin (fun i : Fin s1 × Fin s2 => Spec.resid a b s
      (Spec.gridShift ny q.1 u s1 i.1) (Spec.gridShift nx q.2 u s2 i.2)) = i0 := by
  apply Np.argmin_eq_of_unique
  intro j hj
  have hz0 : Spec.resid a b s (Spec.gridShift ny q.1 u s1 i0.1) (Spec.gridShift nx q.2 u s2 i0.2) = 0 := by
    rw [resid_eq_zero_iff _ _ _ hs, cshift_cshift _ _ _ _ _ _ hb]
    obtain ⟨z, hz⟩ := hy0
    obtain ⟨w, hw⟩ := hx0
    intro p
    rw [hz, hw, cshift_period]
  rw [hz0]
  refine lt_of_le_of_ne (resid_nonneg _ _ _ _ _) fun hc => hj ?_
  have hj0 := (resid_eq_zero_iff _ _ _ hs _ _).1 hc.symm
  rw [cshift_cshift _ _ _ _ _ _ hb] at hj0
  obtain ⟨py, px⟩ := period_of_cshift_self a hy hx h10 h01 _ _ hj0
  have hu' : (u : ℝ) ≠ 0 := by exact_mod_cast hu.ne'
  have key : ∀ (n s : ℕ) (q : Fin n) (t : ℝ) (i j : Fin s), 2 ≤ n → (s = n ∨ s = 2 * u) →
      (∃ z : ℤ, Spec.gridShift n q u s i + t = z * n) →
      (∃ z : ℤ, Spec.gridShift n q u s j + t = z * n) → j = i := by
    rintro n s q t i j hn hsz ⟨z, hz⟩ ⟨w, hw⟩
    have hd : (((j : ℕ) : ℝ) - ((i : ℕ) : ℝ)) / u = ((w - z : ℤ) : ℝ) * n := by
      unfold Spec.gridShift at hz hw
      push_cast
      have : (((j : ℕ) : ℝ) - ((i : ℕ) : ℝ)) / u
        = (((j : ℕ) : ℝ) - ((s : ℝ) - 1) / 2) / u - (((i : ℕ) : ℝ) - ((s : ℝ) - 1) / 2) / u := by ring
      rw [this]; linarith
    have h0 := eq_zero_of_mul_lt ⟨_, hd⟩ (window_lt hn hu hsz j i)
    rw [div_eq_zero_iff, or_iff_left hu', sub_eq_zero] at h0
    exact Fin.ext (by exact_mod_cast h0)
  exact Prod.ext (key ny s1 q.1 ty i0.1 j.1 hy h1 hy0 py) (key nx s2 q.2 tx i0.2 j.2 hx h2 hx0 px)

theorem prep_cshift (zm : Bool) (a b : Fin ny × Fin nx → ℝ) (ty tx : ℝ)
    (hb : ∀ p, (b p : ℂ) = cshift ty tx a p) (p : Fin ny × Fin nx) :
    (prep zm (realArr b) p : ℂ) = cshift ty tx (prep zm (realArr a)) p := by
  have hsum : ∑ p, b p = ∑ p, a p := by
    have h := sum_filt (fun k => ex (-(freq2 tx ty k))) (fun i : Fin ny × Fin nx => (a i : ℂ))
    rw [freq2_zero, neg_zero, ex_zero, mul_one] at h
    have : ∑ p, (b p : ℂ) = ∑ p, (a p : ℂ) := by
      rw [← h]; exact Finset.sum_congr rfl fun p _ => hb p
    exact_mod_cast this
  have hmean : Spec.mean b = Spec.mean a := by unfold Spec.mean; rw [hsum]
  rw [prep_real, prep_real, hmean]
  generalize (if zm = true then Spec.mean a else 0) = m
  have e1 : cshift ty tx (fun p => a p - m) p = cshift ty tx a p + (-m : ℂ) := by
    unfold cshift
    have h1 : (fun i => ((a i - m : ℝ) : ℂ)) = fun i => (a i : ℂ) + (-m : ℂ) * 1 := by
      funext i; push_cast; ring
    rw [h1, filt_add, filt_smul]
    have h2 : filt (fun k : Fin ny × Fin nx => ex (-(freq2 tx ty k))) (fun _ => (1 : ℂ)) = fun _ => 1 := by
      have hconst : ∀ k : Fin ny × Fin nx, dft (fun _ : Fin ny × Fin nx => (1 : ℂ)) k * ex (-(freq2 tx ty k))
          = dft (fun _ : Fin ny × Fin nx => (1 : ℂ)) k := by
        intro k
        by_cases hk : k = 0
        · rw [hk, freq2_zero]; simp
        · have h0 : dft (fun _ : Fin ny × Fin nx => (1 : ℂ)) k = 0 := by
            unfold dft
            simp only [one_mul]
            rw [← map_sum, e_orth_right, if_neg hk, map_zero]
          rw [h0, zero_mul]
      unfold filt
      simp only [hconst]
      exact idft_dft _
    rw [h2]; simp only [mul_one]
  rw [e1, ← hb]; push_cast; ring

/-- C33: whole-pixel recovery. If `im2` is `im1` rolled by `(dy, dx)`, the lowest frequency of `im1`
is present along both axes (so the shift is identifiable) and the search grid contains whole pixels,
`chi2_shift` returns exactly the shift: the representative of `(dx, dy)` modulo the image size with
`-n ≤ 2·d < n`. -/
theorem C33_recovers_roll (cfg : FFTConfig) (st : Stats) (hst : Spec.validStats st)
    (im1 : Fin ny × Fin nx → ℝ) (hy : 2 ≤ ny) (hx : 2 ≤ nx)
    (h10 : dft (fun p => (im1 p : ℂ)) (1, 0) ≠ 0) (h01 : dft (fun p => (im1 p : ℂ)) (0, 1) ≠ 0)
    (dy dx : ℤ) (err : ErrArg ny nx) (s : ℝ) (hs : s ≠ 0) (herr : Spec.isScalarErr err s)
    (u : ℕ) (hu : 0 < u) (zm : Bool) (nf : ℝ) (mas : ℕ) (mns : ℝ) (ah : Bool)
    (hf : Spec.fits ah ny nx)
    (hgy : Spec.wholeOnGrid ny (if ny ≤ u then 2 * u else ny) u)
    (hgx : Spec.wholeOnGrid nx (if ny ≤ u then 2 * u else nx) u) :
    ∃ dx' dy' : ℤ,
      chi2Shift cfg st (realArr im1) (realArr (Spec.roll2 dy dx im1)) err (.int u) zm nf false false
        false mas mns ah = .ok [.num dx', .num dy'] ∧
      dx' ≡ dx [ZMOD nx] ∧ -(nx : ℤ) ≤ 2 * dx' ∧ 2 * dx' < nx ∧
      dy' ≡ dy [ZMOD ny] ∧ -(ny : ℤ) ≤ 2 * dy' ∧ 2 * dy' < ny := by
  obtain ⟨cm, hcm, hchi, s1, s2, i1, i2, hg, uu, huu, hu0, yv, xv, hyv, hxv, c, hc, er, her, hres⟩ :=
    chi2Shift_scalar cfg st hst (realArr im1) (realArr (Spec.roll2 dy dx im1)) err s herr (.int u) zm nf
      mas mns ah hf hu
  replace huu : uu = (u : ℝ) := huu
  subst huu
  have hb := prep_cshift zm im1 (Spec.roll2 dy dx im1) dy dx (Spec.roll2_eq_cshift im1 dy dx)
  have h10' : dft (fun p => (prep zm (realArr im1) p : ℂ)) (1, 0) ≠ 0 := by
    rw [prep_real, dft_sub_const _ _ _ ?_]
    · exact h10
    · intro h
      have := congrArg (fun k => ((k.1 : Fin ny) : ℕ)) h
      simp [Nat.mod_eq_of_lt (show 1 < ny by omega)] at this
  have h01' : dft (fun p => (prep zm (realArr im1) p : ℂ)) (0, 1) ≠ 0 := by
    rw [prep_real, dft_sub_const _ _ _ ?_]
    · exact h01
    · intro h
      have := congrArg (fun k => ((k.2 : Fin nx) : ℕ)) h
      simp [Nat.mod_eq_of_lt (show 1 < nx by omega)] at this
  -- the coarse minimum
  have hq0 : cm.chi2 (Np.argmin cm.chi2) = 0 := by
    have hw : cm.chi2 (Spec.wrap ny (((ny - 1) / 2 : ℕ) - dy), Spec.wrap nx (((nx - 1) / 2 : ℕ) - dx)) = 0 := by
      rw [hchi, resid_eq_zero_iff _ _ _ hs, cshift_cshift _ _ _ _ _ _ hb]
      obtain ⟨zy, hzy⟩ := (Spec.lag_wrap ny dy).symm.dvd
      obtain ⟨zx, hzx⟩ := (Spec.lag_wrap nx dx).symm.dvd
      intro p
      have e1 : ((-Spec.lag ny (Spec.wrap ny (((ny - 1) / 2 : ℕ) - dy)) : ℤ) : ℝ) + (dy : ℝ)
          = ((-zy : ℤ) : ℝ) * ny := by
        have : -Spec.lag ny (Spec.wrap ny (((ny - 1) / 2 : ℕ) - dy)) + dy = -zy * ny := by linarith
        exact_mod_cast this
      have e2 : ((-Spec.lag nx (Spec.wrap nx (((nx - 1) / 2 : ℕ) - dx)) : ℤ) : ℝ) + (dx : ℝ)
          = ((-zx : ℤ) : ℝ) * nx := by
        have : -Spec.lag nx (Spec.wrap nx (((nx - 1) / 2 : ℕ) - dx)) + dx = -zx * nx := by linarith
        exact_mod_cast this
      simp only [e1, e2, cshift_period]
    have h1 := (Np.argmin_spec cm.chi2).1
      (Spec.wrap ny (((ny - 1) / 2 : ℕ) - dy), Spec.wrap nx (((nx - 1) / 2 : ℕ) - dx))
    rw [hw] at h1
    refine le_antisymm h1 ?_
    rw [hchi]; exact resid_nonneg _ _ _ _ _
  generalize Np.argmin cm.chi2 = q at hq0 hyv hxv
  have hqp : (∃ z : ℤ, ((-Spec.lag ny q.1 : ℤ) : ℝ) + dy = z * ny) ∧
      ∃ z : ℤ, ((-Spec.lag nx q.2 : ℤ) : ℝ) + dx = z * nx := by
    rw [hchi, resid_eq_zero_iff _ _ _ hs, cshift_cshift _ _ _ _ _ _ hb] at hq0
    exact period_of_cshift_self _ hy hx h10' h01' _ _ hq0
  obtain ⟨⟨zy, hzy⟩, ⟨zx, hzx⟩⟩ := hqp
  -- the grid point
  have hs12 : (s1, s2) = (if ny ≤ u then 2 * u else ny, if ny ≤ u then 2 * u else nx) := by
    rw [hg]; simp only [Spec.gridSize]; split_ifs <;> rfl
  have hs1 : s1 = if ny ≤ u then 2 * u else ny := by injection hs12
  have hs2 : s2 = if ny ≤ u then 2 * u else nx := by injection hs12
  rw [← hs1] at hgy
  rw [← hs2] at hgx
  obtain ⟨jy, hjy⟩ := wholeOnGrid_exists hu hgy
  obtain ⟨jx, hjx⟩ := wholeOnGrid_exists hu hgx
  have gy : Spec.gridShift ny q.1 u s1 jy = ((-Spec.lag ny q.1 : ℤ) : ℝ) := by
    unfold Spec.gridShift Spec.lag; rw [add_assoc, hjy]; push_cast; ring
  have gx : Spec.gridShift nx q.2 u s2 jx = ((-Spec.lag nx q.2 : ℤ) : ℝ) := by
    unfold Spec.gridShift Spec.lag; rw [add_assoc, hjx]; push_cast; ring
  obtain ⟨hc1, hc2⟩ := gridSize_int_cases hg
  have harg : Np.argmin c = (jy, jx) := by
    rw [hc, hyv, hxv]
    exact argmin_aligned hy hx hu hc1 hc2 _ _ s hs _ _ hb h10' h01' q (jy, jx)
      ⟨zy, by rw [gy]; exact hzy⟩ ⟨zx, by rw [gx]; exact hzx⟩
  refine ⟨Spec.lag nx q.2, Spec.lag ny q.1, ?_, ?_⟩
  · rw [hres false false, harg, hyv, hxv]
    simp only [Spec.layout, gy, gx]
    push_cast
    simp
  · have r : ∀ (n : ℕ) (i : Fin n), -(n : ℤ) ≤ 2 * Spec.lag n i ∧ 2 * Spec.lag n i < n := by
      intro n i
      have := i.isLt
      unfold Spec.lag Spec.zeroLag
      omega
    have m : ∀ (n : ℕ) (l d z : ℤ), ((-l : ℤ) : ℝ) + d = z * n → l ≡ d [ZMOD n] := by
      intro n l d z h
      have h' : -l + d = z * n := by exact_mod_cast h
      exact Int.modEq_iff_dvd.2 ⟨z, by linarith⟩
    exact ⟨m _ _ _ _ hzx, (r nx q.2).1, (r nx q.2).2, m _ _ _ _ hzy, (r ny q.1).1, (r ny q.1).2⟩

/-- C33, odd image sizes: any upsampling factor below the number of rows finds the shift. -/
theorem C33_odd_sizes (cfg : FFTConfig) (st : Stats) (hst : Spec.validStats st)
    (im1 : Fin ny × Fin nx → ℝ) (hy : 2 ≤ ny) (hx : 2 ≤ nx) (oy : Odd ny) (ox : Odd nx)
    (h10 : dft (fun p => (im1 p : ℂ)) (1, 0) ≠ 0) (h01 : dft (fun p => (im1 p : ℂ)) (0, 1) ≠ 0)
    (dy dx : ℤ) (hdy : 2 * |dy| < ny) (hdx : 2 * |dx| < nx)
    (err : ErrArg ny nx) (s : ℝ) (hs : s ≠ 0) (herr : Spec.isScalarErr err s) (u : ℕ) (hu : 0 < u) (hlt : u < ny) (zm : Bool) (nf : ℝ) (mas : ℕ) (mns : ℝ)
    (ah : Bool) (hf : Spec.fits ah ny nx) :
    chi2Shift cfg st (realArr im1) (realArr (Spec.roll2 dy dx im1)) err (.int u) zm nf false
      false false mas mns ah = .ok [.num dx, .num dy] := by
  have hn : ¬ ny ≤ u := by omega
  obtain ⟨dx', dy', h, a1, a2, a3, b1, b2, b3⟩ := C33_recovers_roll cfg st hst im1 hy hx h10 h01 dy dx
    err s hs herr u hu zm nf mas mns ah hf (by rw [if_neg hn]; exact Or.inl ⟨oy, oy⟩)
    (by rw [if_neg hn]; exact Or.inl ⟨ox, ox⟩)
  have key : ∀ (n : ℕ) (d d' : ℤ), Odd n → d' ≡ d [ZMOD n] → -(n : ℤ) ≤ 2 * d' → 2 * d' < n →
      2 * |d| < n → d' = d := by
    intro n d d' ho hm h1 h2 h3
    obtain ⟨c, hc⟩ := hm.dvd
    have h4 := abs_lt.1 (show |2 * d| < (n : ℤ) by rw [abs_mul]; exact h3)
    obtain ⟨k, rfl⟩ := ho
    push_cast at *
    have : c = 0 := by
      have hc1 : c < 1 := by
        by_contra hcon; push Not at hcon
        nlinarith
      have hc2 : -1 < c := by
        by_contra hcon; push Not at hcon
        nlinarith
      omega
    rw [this] at hc; linarith
  rw [h, key nx dx dx' ox a1 a2 a3 hdx, key ny dy dy' oy b1 b2 b3 hdy]

/-- C33, sub-pixel shifts: if `im2` is the Fourier-shifted `im1` (`shift2d(im1, dx, dy)`, which is real
for every odd-sized image) and `(-dx, -dy)` is one of the returned grid points, then exactly `(dx, dy)`
is returned. -/
theorem C33_recovers_subpixel (cfg cfg' : FFTConfig) (st : Stats) (hst : Spec.validStats st)
    (im1 im2 : Fin ny × Fin nx → ℝ) (hy : 2 ≤ ny) (hx : 2 ≤ nx)
    (h10 : dft (fun p => (im1 p : ℂ)) (1, 0) ≠ 0) (h01 : dft (fun p => (im1 p : ℂ)) (0, 1) ≠ 0)
    (dy dx : ℝ) (him2 : shift2d cfg' (rArr im1) dx dy 0 false false = .cplx (rArr im2))
    (err : ErrArg ny nx) (s : ℝ) (hs : s ≠ 0) (herr : Spec.isScalarErr err s)
    (u : ℕ) (hu : 0 < u) (zm : Bool) (nf : ℝ) (mas : ℕ) (mns : ℝ) (ah : Bool)
    (hf : Spec.fits ah ny nx) :
    ∃ (rx ry : ℝ) (s1 s2 : ℕ) (xv yv c : Fin s1 × Fin s2 → ℝ),
      chi2Shift cfg st (realArr im1) (realArr im2) err (.int u) zm nf false false true mas mns ah
        = .ok [.num rx, .num ry, .arrays s1 s2 xv yv c] ∧
      ((∃ i, xv i = -dx ∧ yv i = -dy) → rx = dx ∧ ry = dy) := by
  obtain ⟨cm, hcm, hchi, s1, s2, i1, i2, hg, uu, huu, hu0, yv, xv, hyv, hxv, c, hc, er, her, hres⟩ :=
    chi2Shift_scalar cfg st hst (realArr im1) (realArr im2) err s herr (.int u) zm nf
      mas mns ah hf hu
  replace huu : uu = (u : ℝ) := huu
  subst huu
  have hb0 : ∀ p, (im2 p : ℂ) = cshift dy dx im1 p := by
    rw [shift2d_eq, denan_rArr] at him2
    simp only [shiftKernel_zero] at him2
    rw [shiftReturn_cplx] at him2
    intro p
    have h1 : cArr (filt (fun k => ex (-freq2 dx dy k)) fun i => (im1 i : ℂ)) = rArr im2 := by
      injection him2
    have h2 := congrFun h1 p
    simp only [cArr, rArr, Option.some.injEq] at h2
    exact h2.symm
  have hb := prep_cshift zm im1 im2 dy dx hb0
  have h10' : dft (fun p => (prep zm (realArr im1) p : ℂ)) (1, 0) ≠ 0 := by
    rw [prep_real, dft_sub_const _ _ _ ?_]
    · exact h10
    · intro h
      have := congrArg (fun k => ((k.1 : Fin ny) : ℕ)) h
      simp [Nat.mod_eq_of_lt (show 1 < ny by omega)] at this
  have h01' : dft (fun p => (prep zm (realArr im1) p : ℂ)) (0, 1) ≠ 0 := by
    rw [prep_real, dft_sub_const _ _ _ ?_]
    · exact h01
    · intro h
      have := congrArg (fun k => ((k.2 : Fin nx) : ℕ)) h
      simp [Nat.mod_eq_of_lt (show 1 < nx by omega)] at this
  refine ⟨_, _, s1, s2, xv, yv, c, (hres false true).trans rfl, ?_⟩
  rintro ⟨i, hix, hiy⟩
  obtain ⟨hc1, hc2⟩ := gridSize_int_cases hg
  have harg : Np.argmin c = i := by
    rw [hc]
    rw [hxv] at hix
    rw [hyv] at hiy
    simp only at hix hiy
    rw [hyv, hxv]
    exact argmin_aligned hy hx hu hc1 hc2 _ _ s hs _ _ hb h10' h01' (Np.argmin cm.chi2) i
      ⟨0, by rw [hiy]; simp⟩ ⟨0, by rw [hix]; simp⟩
  rw [harg, hix, hiy]
  simp

/-- C33, the limits: for an odd number of rows and an upsampling factor at least that large, the
grid has no whole-pixel point, and the reported row shift is at least `1/(2·upsample_factor)` away from
every whole number, even for two identical images. -/
theorem C33_odd_large_factor_never_whole (cfg : FFTConfig) (st : Stats) (hst : Spec.validStats st)
    (im1 im2 : Fin ny × Fin nx → Pix) (err : ErrArg ny nx) (oy : Odd ny)
    (u : ℕ) (hle : ny ≤ u) (zm : Bool) (nf : ℝ) (mas : ℕ) (mns : ℝ) (ah : Bool)
    (hf : Spec.fits ah ny nx) :
    ∃ dx dy : ℝ, chi2Shift cfg st im1 im2 err (.int u) zm nf false false false mas mns ah
        = .ok [.num dx, .num dy] ∧ ∀ z : ℤ, 1 / (2 * (u : ℝ)) ≤ |dy - z| := by
  have hny := Nat.pos_of_ne_zero (NeZero.ne ny)
  have hu : 0 < u := by omega
  obtain ⟨cm, hcm, s1, s2, i1, i2, hg, uu, huu, hu0, yv, xv, hyv, hxv, c, hc, er, her, hres⟩ :=
    chi2Shift_ok cfg st hst im1 im2 err (.int u) zm nf mas mns ah hf hu
  refine ⟨_, _, (hres false false).trans rfl, fun z => ?_⟩
  replace huu : uu = (u : ℝ) := huu
  subst huu
  have hs1 : s1 = 2 * u := by
    simp only [Spec.gridSize, hle, if_true] at hg
    injection hg
  rw [hyv]
  simp only [Spec.gridShift]
  have hh : Spec.halfPix ny = 0 := by
    have : ¬ ny % 2 = 0 := by rw [Nat.odd_iff] at oy; omega
    simp [Spec.halfPix, this]
  rw [hh]
  generalize ((Np.argmin cm.chi2).1 : ℕ) = q
  generalize ((Np.argmin c).1 : ℕ) = j
  rw [hs1]
  have hup : (0 : ℝ) < u := hu0
  have e : (-((q : ℝ) - (Spec.zeroLag ny : ℕ) + 0 + ((j : ℝ) - (((2 * u : ℕ) : ℝ) - 1) / 2) / u) - z)
      = ((2 * (u : ℤ) * ((Spec.zeroLag ny : ℕ) - q - z) - 2 * j + 2 * u - 1 : ℤ) : ℝ) * (1 / (2 * u)) := by
    push_cast
    field_simp
    ring
  rw [e, abs_mul, abs_of_pos (by positivity : (0 : ℝ) < 1 / (2 * u))]
  have : (1 : ℝ) ≤ |((2 * (u : ℤ) * ((Spec.zeroLag ny : ℕ) - q - z) - 2 * j + 2 * u - 1 : ℤ) : ℝ)| := by
    rw [← Int.cast_abs]
    have hne : (2 * (u : ℤ) * ((Spec.zeroLag ny : ℕ) - q - z) - 2 * j + 2 * u - 1 : ℤ) ≠ 0 := by
      intro h0
      have := congrArg (· % 2) h0
      have e2 : (2 * (u : ℤ) * ((Spec.zeroLag ny : ℕ) - q - z) - 2 * j + 2 * u - 1 : ℤ)
        = 2 * ((u : ℤ) * ((Spec.zeroLag ny : ℕ) - q - z) - j + u) - 1 := by ring
      rw [e2] at h0; omega
    exact_mod_cast Int.one_le_abs hne
  nlinarith [show (0 : ℝ) < 1 / (2 * u) by positivity]

/-! ## C34 -/

/-- C34: the reported shift stays within half the zoomed window (plus half a pixel for an even image
size) of the best whole-pixel shift, the one belonging to the first minimum `q` of the chi-squared
map; that whole-pixel shift lies between `-n/2` and `n/2`. -/
theorem C34_window (cfg : FFTConfig) (st : Stats) (hst : Spec.validStats st)
    (im1 im2 : Fin ny × Fin nx → Pix) (err : ErrArg ny nx) (us : UsFactor) (zm : Bool) (nf : ℝ)
    (mas : ℕ) (mns : ℝ) (ah : Bool) (hf : Spec.fits ah ny nx) (hus : Spec.validUs ny mas us) :
    ∃ (chi2 : Fin ny × Fin nx → ℝ) (q : Fin ny × Fin nx) (dx dy : ℝ),
      chi2nMap cfg im1 im2 err zm false false ah = .ok (.only chi2) ∧ Np.IsFirstMin chi2 q ∧
      chi2Shift cfg st im1 im2 err us zm nf false false false mas mns ah
        = .ok [.num dx, .num dy] ∧
      ∃ u : ℝ, 0 < u ∧ u = Spec.usUsed chi2 (Spec.autoThreshold st mns nf) mas us ∧
        |dy - (((ny - 1) / 2 : ℕ) - ((q.1 : ℕ) : ℝ))|
          ≤ (((Spec.gridSize ny nx mas us).1 : ℝ) - 1) / (2 * u) + (if Even ny then 1 / 2 else 0) ∧
        |dx - (((nx - 1) / 2 : ℕ) - ((q.2 : ℕ) : ℝ))|
          ≤ (((Spec.gridSize ny nx mas us).2 : ℝ) - 1) / (2 * u) + (if Even nx then 1 / 2 else 0) ∧
        |2 * ((((ny - 1) / 2 : ℕ) : ℤ) - ((q.1 : ℕ) : ℤ))| ≤ (ny : ℤ) ∧
        |2 * ((((nx - 1) / 2 : ℕ) : ℤ) - ((q.2 : ℕ) : ℤ))| ≤ (nx : ℤ) := by
  obtain ⟨cm, hcm, s1, s2, i1, i2, hg, u, hu, hu0, yv, xv, hyv, hxv, c, hc, er, her, hres⟩ :=
    chi2Shift_ok cfg st hst im1 im2 err us zm nf mas mns ah hf hus
  refine ⟨cm.chi2, Np.argmin cm.chi2, _, _, by rw [chi2nMap_same, hcm]; rfl, Np.argmin_spec _,
    (hres false false).trans rfl, u, hu0, autoThreshold_eq st mns nf ▸ hu, ?_⟩
  rw [← hg]
  have key : ∀ (n s : ℕ) (q : Fin n) (j : Fin s),
      |-Spec.gridShift n q u s j - (((n - 1) / 2 : ℕ) - ((q : ℕ) : ℝ))|
        ≤ ((s : ℝ) - 1) / (2 * u) + (if Even n then 1 / 2 else 0) := by
    intro n s q j
    have hj := j.isLt
    have hj' : ((j : ℕ) : ℝ) ≤ (s : ℝ) - 1 := by
      have : ((j : ℕ) : ℝ) + 1 ≤ s := by exact_mod_cast hj
      linarith
    have hj0 : (0 : ℝ) ≤ ((j : ℕ) : ℝ) := by positivity
    have hh : Spec.halfPix n = if Even n then 1 / 2 else 0 := by
      unfold Spec.halfPix; simp only [Nat.even_iff]
    unfold Spec.gridShift Spec.zeroLag
    rw [hh]
    have e : -(((q : ℕ) : ℝ) - ((n - 1) / 2 : ℕ) + (if Even n then 1 / 2 else 0)
          + (((j : ℕ) : ℝ) - ((s : ℝ) - 1) / 2) / u) - (((n - 1) / 2 : ℕ) - ((q : ℕ) : ℝ))
        = -(if Even n then 1 / 2 else 0) + -((((j : ℕ) : ℝ) - ((s : ℝ) - 1) / 2) / u) := by ring
    rw [e]
    refine (abs_add_le _ _).trans ?_
    rw [abs_neg, abs_neg, add_comm]
    refine add_le_add ?_ ?_
    · rw [abs_div, abs_of_pos hu0, ← div_div]
      gcongr
      rw [abs_le]; constructor <;> linarith
    · rw [abs_of_nonneg]; split_ifs <;> norm_num
  have r : ∀ (n : ℕ) (i : Fin n), |2 * ((((n - 1) / 2 : ℕ) : ℤ) - ((i : ℕ) : ℤ))| ≤ (n : ℤ) := by
    intro n i
    have := i.isLt
    rw [abs_le]; omega
  rw [hyv, hxv]
  exact ⟨key _ _ _ _, key _ _ _ _, r _ _, r _ _⟩

/-! ## C35 -/

theorem regionSize_bound (chi2 : Fin ny × Fin nx → ℝ) (t : ℝ) (p q : Fin ny × Fin nx)
    (hp : chi2 p - chi2 (Np.argmin chi2) < t) (hq : chi2 q - chi2 (Np.argmin chi2) < t) :
    |((p.1 : ℕ) : ℝ) - ((q.1 : ℕ) : ℝ)| ≤ Spec.regionSize chi2 t ∧
    |((p.2 : ℕ) : ℝ) - ((q.2 : ℕ) : ℝ)| ≤ Spec.regionSize chi2 t := by
  classical
  by_cases hpq : p = q
  · subst hpq
    have := regionSize_pos chi2 t
    simp only [sub_self, abs_zero]
    exact ⟨by linarith, by linarith⟩
  unfold Spec.regionSize
  have hcard : 1 < (univ.filter fun i => chi2 i - chi2 (Np.argmin chi2) < t).card :=
    Finset.one_lt_card.2 ⟨p, by simpa using hp, q, by simpa using hq, hpq⟩
  rw [dif_pos hcard]
  have key : ∀ (S : Finset (Fin ny × Fin nx)) (hS : S.Nonempty) (v : Fin ny × Fin nx → ℝ),
      p ∈ S → q ∈ S → |v p - v q| ≤ Np.maxOver S hS v - Np.minOver S hS v := by
    intro S hS v h1 h2
    have a1 : v p ≤ Np.maxOver S hS v := Finset.le_sup' v h1
    have a2 : v q ≤ Np.maxOver S hS v := Finset.le_sup' v h2
    have b1 : Np.minOver S hS v ≤ v p := Finset.inf'_le v h1
    have b2 : Np.minOver S hS v ≤ v q := Finset.inf'_le v h2
    rw [abs_le]; constructor <;> linarith
  have mp : p ∈ univ.filter fun i => chi2 i - chi2 (Np.argmin chi2) < t := by simpa using hp
  have mq : q ∈ univ.filter fun i => chi2 i - chi2 (Np.argmin chi2) < t := by simpa using hq
  exact ⟨(key _ _ (fun i => ((i.1 : ℕ) : ℝ)) mp mq).trans (le_max_right _ _),
    (key _ _ (fun i => ((i.2 : ℕ) : ℝ)) mp mq).trans (le_max_left _ _)⟩

theorem regionSize_attained (chi2 : Fin ny × Fin nx → ℝ) (t : ℝ) :
    Spec.regionSize chi2 t = 1 ∨ ∃ p q : Fin ny × Fin nx, chi2 p - chi2 (Np.argmin chi2) < t ∧
      chi2 q - chi2 (Np.argmin chi2) < t ∧
      (Spec.regionSize chi2 t = ((p.1 : ℕ) : ℝ) - ((q.1 : ℕ) : ℝ) ∨
       Spec.regionSize chi2 t = ((p.2 : ℕ) : ℝ) - ((q.2 : ℕ) : ℝ)) := by
  classical
  by_cases hcard : 1 < (univ.filter fun i => chi2 i - chi2 (Np.argmin chi2) < t).card
  · right
    unfold Spec.regionSize
    rw [dif_pos hcard]
    have key : ∀ (S : Finset (Fin ny × Fin nx)) (hS : S.Nonempty) (v : Fin ny × Fin nx → ℝ),
        ∃ p ∈ S, ∃ q ∈ S, Np.maxOver S hS v - Np.minOver S hS v = v p - v q := by
      intro S hS v
      obtain ⟨p, hp, h1⟩ := Finset.exists_mem_eq_sup' hS v
      obtain ⟨q, hq, h2⟩ := Finset.exists_mem_eq_inf' hS v
      exact ⟨p, hp, q, hq, by unfold Np.maxOver Np.minOver; rw [h1, h2]⟩
    have hne := card_pos.1 (Nat.lt_of_lt_of_le Nat.zero_lt_one hcard.le)
    rcases max_choice (Np.maxOver _ hne (fun i : Fin ny × Fin nx => ((i.2 : ℕ) : ℝ))
        - Np.minOver _ hne (fun i => ((i.2 : ℕ) : ℝ)))
      (Np.maxOver _ hne (fun i => ((i.1 : ℕ) : ℝ)) - Np.minOver _ hne (fun i => ((i.1 : ℕ) : ℝ))) with h | h
    · obtain ⟨p, hp, q, hq, e⟩ := key _ hne (fun i => ((i.2 : ℕ) : ℝ))
      exact ⟨p, q, by simpa using hp, by simpa using hq, Or.inr (h.trans e)⟩
    · obtain ⟨p, hp, q, hq, e⟩ := key _ hne (fun i => ((i.1 : ℕ) : ℝ))
      exact ⟨p, q, by simpa using hp, by simpa using hq, Or.inl (h.trans e)⟩
  · left
    unfold Spec.regionSize
    rw [dif_neg hcard]

/-- C35: with `upsample_factor='auto'` the zoomed arrays are `max_auto_size × max_auto_size`, spaced
by `1/us` in both axes with `us = max(1, max_auto_size/2/size)`, where `size ≥ 1` is the larger side
of the bounding box of the region `Δχ² < m_auto` of the chi-squared map (1 if the region is one pixel);
`m_auto` is the `max_nsig` threshold for `nfitted` parameters, 2.6088233328527037 without scipy.
Whenever the region fits into half the array, the zoomed window is at least as long as the region. -/
theorem C35_auto (cfg : FFTConfig) (st : Stats) (hst : Spec.validStats st)
    (im1 im2 : Fin ny × Fin nx → Pix) (err : ErrArg ny nx) (zm : Bool) (nf : ℝ)
    (mas : ℕ) (hmas : 0 < mas) (mns : ℝ) (ah : Bool) (hf : Spec.fits ah ny nx) :
    ∃ (chi2 : Fin ny × Fin nx → ℝ) (q : Fin ny × Fin nx) (size us : ℝ),
      chi2nMap cfg im1 im2 err zm false false ah = .ok (.only chi2) ∧ Np.IsFirstMin chi2 q ∧
      1 ≤ size ∧ 1 ≤ us ∧ us = max 1 ((mas : ℝ) / 2 / size) ∧
      (∀ p p' : Fin ny × Fin nx, chi2 p - chi2 q < Spec.autoThreshold st mns nf → chi2 p' - chi2 q < Spec.autoThreshold st mns nf →
        |((p.1 : ℕ) : ℝ) - ((p'.1 : ℕ) : ℝ)| ≤ size ∧ |((p.2 : ℕ) : ℝ) - ((p'.2 : ℕ) : ℝ)| ≤ size) ∧
      (size = 1 ∨ ∃ p p' : Fin ny × Fin nx, chi2 p - chi2 q < Spec.autoThreshold st mns nf ∧
        chi2 p' - chi2 q < Spec.autoThreshold st mns nf ∧
        (size = ((p.1 : ℕ) : ℝ) - ((p'.1 : ℕ) : ℝ) ∨ size = ((p.2 : ℕ) : ℝ) - ((p'.2 : ℕ) : ℝ))) ∧
      (2 ≤ mas → 2 * size ≤ mas → size ≤ ((mas : ℝ) - 1) / us) ∧
      ∃ (dx dy : ℝ) (xv yv c : Fin mas × Fin mas → ℝ),
        chi2Shift cfg st im1 im2 err .auto zm nf false false true mas mns ah
          = .ok [.num dx, .num dy, .arrays mas mas xv yv c] ∧
        ∀ i j : Fin mas × Fin mas,
          xv i - xv j = (((i.2 : ℕ) : ℝ) - ((j.2 : ℕ) : ℝ)) / us ∧
          yv i - yv j = (((i.1 : ℕ) : ℝ) - ((j.1 : ℕ) : ℝ)) / us := by
  rw [← autoThreshold_eq]
  obtain ⟨cm, hcm, s1, s2, i1, i2, hg, u, hu, hu0, yv, xv, hyv, hxv, c, hc, er, her, hres⟩ :=
    chi2Shift_ok cfg st hst im1 im2 err .auto zm nf mas mns ah hf hmas
  simp only [Spec.gridSize, Prod.mk.injEq] at hg
  obtain ⟨rfl, rfl⟩ := hg
  have hsz := regionSize_pos cm.chi2 (mAuto st mns nf)
  refine ⟨cm.chi2, Np.argmin cm.chi2, Spec.regionSize cm.chi2 (mAuto st mns nf), u,
    by rw [chi2nMap_same, hcm]; rfl, Np.argmin_spec _, hsz, ?_, hu, ?_,
    regionSize_attained _ _, ?_, _, _, xv, yv, c, (hres false true).trans rfl, ?_⟩
  · rw [hu]; exact le_max_left _ _
  · intro p p' h1 h2
    exact regionSize_bound cm.chi2 _ p p' h1 h2
  · intro h2 hle
    have e : u = (s2 : ℝ) / 2 / Spec.regionSize cm.chi2 (mAuto st mns nf) := by
      rw [hu]
      refine max_eq_right ?_
      rw [le_div_iff₀ (by linarith)]
      linarith
    have h2' : (2 : ℝ) ≤ s2 := by exact_mod_cast h2
    rw [le_div_iff₀ hu0, e]
    have hpos : 0 < Spec.regionSize cm.chi2 (mAuto st mns nf) := by linarith
    rw [mul_div_cancel₀ _ hpos.ne']
    linarith
  · intro i j
    rw [hyv, hxv]
    simp only [Spec.gridShift]
    constructor <;> ring

/-! ## C38 -/

/-- with an explicit factor, the reported shift only depends on the chi-squared map up to a positive
factor -/
theorem chi2Shift_of_scaled (cfg cfg' : FFTConfig) (st : Stats) (hst : Spec.validStats st)
    (im1 im2 im1' im2' : Fin ny × Fin nx → Pix) (err err' : ErrArg ny nx) (us : UsFactor)
    (zm zm' : Bool) (nf : ℝ) (mas : ℕ) (mns : ℝ) (ah : Bool) (hf : Spec.fits ah ny nx)
    (hus : Spec.validUs ny mas us) (hna : us ≠ .auto) (k : ℝ) (hk : 0 < k) (cm cm' : Chi2Map ny nx)
    (hcm : chi2nMapBody cfg im1 im2 err zm false ah = .ok cm)
    (hcm' : chi2nMapBody cfg' im1' im2' err' zm' false ah = .ok cm')
    (hs : ∀ i, cm'.chi2 i = k * cm.chi2 i) :
    chi2Shift cfg' st im1' im2' err' us zm' nf false false false mas mns ah
      = chi2Shift cfg st im1 im2 err us zm nf false false false mas mns ah := by
  obtain ⟨c1, hc1, s1, s2, i1, i2, hg, u, hu, hu0, yv, xv, hyv, hxv, c, hc, er, her, hres⟩ :=
    chi2Shift_ok cfg st hst im1 im2 err us zm nf mas mns ah hf hus
  obtain ⟨c2, hc2, s1', s2', i1', i2', hg', u', hu', hu0', yv', xv', hyv', hxv', c', hc', er', her', hres'⟩ :=
    chi2Shift_ok cfg' st hst im1' im2' err' us zm' nf mas mns ah hf hus
  rw [hcm] at hc1
  rw [hcm'] at hc2
  obtain rfl : cm = c1 := by injection hc1
  obtain rfl : cm' = c2 := by injection hc2
  have hgg := hg.trans hg'.symm
  obtain ⟨rfl, rfl⟩ := Prod.mk.inj hgg
  have huu : u' = u := by
    rw [hu, hu']
    cases us with
    | auto => exact absurd rfl hna
    | int _ => rfl
    | float _ => rfl
  subst huu
  have harg : Np.argmin cm'.chi2 = Np.argmin cm.chi2 := by
    apply Np.argmin_comp
    intro i j
    rw [hs, hs]
    exact mul_le_mul_iff_right₀ hk
  have ey : yv' = yv := by rw [hyv, hyv', harg]
  have ex : xv' = xv := by rw [hxv, hxv', harg]
  have ec : c' = fun i => k * c i := by
    rw [hc, hc', ey, ex]
    funext i
    have : (fun i => ((cm'.chi2 i : ℝ) : ℂ)) = fun i => (k : ℂ) * (cm.chi2 i : ℂ) := by
      funext i; rw [hs]; push_cast; rfl
    simp only [this]
    rw [interp2C_smul, Complex.re_ofReal_mul]
  have harg2 : Np.argmin c' = Np.argmin c := by
    apply Np.argmin_comp
    intro i j
    rw [ec]
    exact mul_le_mul_iff_right₀ hk
  rw [hres, hres', ey, ex, harg2]
  rfl

omit [NeZero ny] [NeZero nx] in
theorem prep_smul (zm : Bool) (t : ℝ) (im : Fin ny × Fin nx → Pix) :
    prep zm (fun i => (im i).map (t * ·)) = fun i => t * prep zm im i := by
  have h0 : ∀ im : Fin ny × Fin nx → Pix, Spec.nan0 (fun i => (im i).map (t * ·))
      = fun i => t * Spec.nan0 im i := by
    intro im; funext i
    show ((im i).map (t * ·)).getD 0 = t * (im i).getD 0
    rcases im i <;> simp
  rw [prep_def, prep_def]
  cases zm with
  | false => exact h0 im
  | true =>
    simp only [if_true]
    have hfil : (univ.filter fun i => ((im i).map (t * ·)).isSome)
        = univ.filter fun i => (im i).isSome := by
      ext i; simp
    have hmean : nanMean (fun i => (im i).map (t * ·)) = (nanMean im).map (t * ·) := by
      unfold nanMean
      rw [hfil]
      split_ifs with h
      · rfl
      · simp only [Option.map_some]
        congr 1
        rw [← mul_div_assoc, Finset.mul_sum]
        congr 1
        refine Finset.sum_congr rfl fun i _ => ?_
        show ((im i).map (t * ·)).getD 0 = t * (im i).getD 0
        rcases im i <;> simp
    have hsub : subPix (fun i => (im i).map (t * ·)) ((nanMean im).map (t * ·))
        = fun i => (subPix im (nanMean im) i).map (t * ·) := by
      funext i
      show Option.map₂ (· - ·) ((im i).map (t * ·)) ((nanMean im).map (t * ·))
        = (Option.map₂ (· - ·) (im i) (nanMean im)).map (t * ·)
      rcases im i with _ | v <;> rcases nanMean im with _ | m <;> simp [mul_sub]
    rw [hmean, hsub, h0]

/-- C38: with an explicit upsampling factor, multiplying both images by the same nonzero number leaves
the reported shift unchanged, whatever the errors and NaN pixels. -/
theorem C38_scale_images (cfg : FFTConfig) (st : Stats) (hst : Spec.validStats st)
    (im1 im2 : Fin ny × Fin nx → Pix) (err : ErrArg ny nx) (us : UsFactor) (zm : Bool) (nf : ℝ)
    (mas : ℕ) (mns : ℝ) (ah : Bool) (hf : Spec.fits ah ny nx) (hus : Spec.validUs ny mas us)
    (hna : us ≠ .auto) (t : ℝ) (ht : t ≠ 0) :
    chi2Shift cfg st (fun i => (im1 i).map (t * ·)) (fun i => (im2 i).map (t * ·)) err us zm nf false
        false false mas mns ah
      = chi2Shift cfg st im1 im2 err us zm nf false false false mas mns ah := by
  obtain ⟨m, h1, h2⟩ := chi2nMapBody_chi2 cfg im1 im2 err zm ah hf
  obtain ⟨m', h1', h2'⟩ := chi2nMapBody_chi2 cfg (fun i => (im1 i).map (t * ·))
    (fun i => (im2 i).map (t * ·)) err zm ah hf
  refine chi2Shift_of_scaled cfg cfg st hst _ _ _ _ _ _ us zm zm nf mas mns ah hf hus hna (t ^ 2)
    (by positivity) m m' h1 h1' fun i => ?_
  rw [h2, h2', prep_smul, prep_smul]
  have hm : ∀ a : Fin ny × Fin nx → ℝ, Spec.maskOf err (fun i => t * a i)
      = fun i => t * Spec.maskOf err a i := by
    intro a; funext i
    cases err <;> simp [Spec.maskOf]
  rw [hm, hm]
  unfold Spec.chi2
  rw [Finset.mul_sum]
  exact Finset.sum_congr rfl fun p _ => by ring

/-- C38: with an explicit upsampling factor the size of a nonzero scalar error does not matter. -/
theorem C38_scale_err (cfg : FFTConfig) (st : Stats) (hst : Spec.validStats st)
    (im1 im2 : Fin ny × Fin nx → Pix) (us : UsFactor) (zm : Bool) (nf : ℝ)
    (mas : ℕ) (mns : ℝ) (ah : Bool) (hf : Spec.fits ah ny nx) (hus : Spec.validUs ny mas us)
    (hna : us ≠ .auto) (s t : ℝ) (hs : s ≠ 0) (ht : t ≠ 0) :
    chi2Shift cfg st im1 im2 (.scalar s) us zm nf false false false mas mns ah
      = chi2Shift cfg st im1 im2 (.scalar t) us zm nf false false false mas mns ah := by
  obtain ⟨m, h1, h2⟩ := chi2nMapBody_chi2 cfg im1 im2 (.scalar t) zm ah hf
  obtain ⟨m', h1', h2'⟩ := chi2nMapBody_chi2 cfg im1 im2 (.scalar s) zm ah hf
  refine chi2Shift_of_scaled cfg cfg st hst _ _ _ _ _ _ us zm zm nf mas mns ah hf hus hna
    (t ^ 2 / s ^ 2) (by positivity) m m' h1 h1' fun i => ?_
  rw [h2, h2']
  unfold Spec.chi2 Spec.errOf Spec.maskOf
  rw [Finset.mul_sum]
  refine Finset.sum_congr rfl fun p _ => ?_
  field_simp

end

/-! ## C37 -/

section
variable {m n : ℕ} [NeZero m] [NeZero n]

/-- C37: for a positive threshold and zoom factor, `chi2map_to_errors` returns the distances, in
original pixels, from the first minimum `p` to the four sides of the bounding box of
`{Δχ² < threshold}`: all four are non-negative, bound every pixel of the region, and are attained. -/
theorem C37_bounding_box (st : Stats) (c : Fin m × Fin n → ℝ) (zf nsig nf : ℝ) (_hz : 0 < zf)
    (hT : 0 < sigmaToChi2 st nf nsig) :
    ∃ er p, chi2mapToErrors st c zf nsig nf = .ok er ∧ Np.IsFirstMin c p ∧
      0 ≤ er.xLow ∧ 0 ≤ er.xHigh ∧ 0 ≤ er.yLow ∧ 0 ≤ er.yHigh ∧
      (∀ i, c i - c p < sigmaToChi2 st nf nsig →
        (((p.2 : ℕ) : ℝ) - ((i.2 : ℕ) : ℝ)) / zf ≤ er.xLow ∧
        (((i.2 : ℕ) : ℝ) - ((p.2 : ℕ) : ℝ)) / zf ≤ er.xHigh ∧
        (((p.1 : ℕ) : ℝ) - ((i.1 : ℕ) : ℝ)) / zf ≤ er.yLow ∧
        (((i.1 : ℕ) : ℝ) - ((p.1 : ℕ) : ℝ)) / zf ≤ er.yHigh) ∧
      (∃ i, c i - c p < sigmaToChi2 st nf nsig ∧ er.xLow = (((p.2 : ℕ) : ℝ) - ((i.2 : ℕ) : ℝ)) / zf) ∧
      (∃ i, c i - c p < sigmaToChi2 st nf nsig ∧ er.xHigh = (((i.2 : ℕ) : ℝ) - ((p.2 : ℕ) : ℝ)) / zf) ∧
      (∃ i, c i - c p < sigmaToChi2 st nf nsig ∧ er.yLow = (((p.1 : ℕ) : ℝ) - ((i.1 : ℕ) : ℝ)) / zf) ∧
      (∃ i, c i - c p < sigmaToChi2 st nf nsig ∧ er.yHigh = (((i.1 : ℕ) : ℝ) - ((p.1 : ℕ) : ℝ)) / zf) := by
  classical
  set S := univ.filter fun i => c i - c (Np.argmin c) < sigmaToChi2 st nf nsig with hS
  have hp : Np.argmin c ∈ S := by simp [hS, hT]
  have hne : S.Nonempty := ⟨_, hp⟩
  have hmem : ∀ i, i ∈ S ↔ c i - c (Np.argmin c) < sigmaToChi2 st nf nsig := by intro i; simp [hS]
  set xx := fun i : Fin m × Fin n => (((i.2 : ℕ) : ℝ) - (n : ℝ) / 2) / zf with hxx
  set yy := fun i : Fin m × Fin n => (((i.1 : ℕ) : ℝ) - (m : ℝ) / 2) / zf with hyy
  have hval : chi2mapToErrors st c zf nsig nf = .ok ⟨xx (Np.argmin c) - Np.minOver S hne xx,
      Np.maxOver S hne xx - xx (Np.argmin c), yy (Np.argmin c) - Np.minOver S hne yy,
      Np.maxOver S hne yy - yy (Np.argmin c)⟩ := by
    unfold chi2mapToErrors
    simp only []
    rw [dif_pos (show (univ.filter fun i => c i - c (Np.argmin c) < sigmaToChi2 st nf nsig).Nonempty from hne)]
  have hlo : ∀ (v : Fin m × Fin n → ℝ), ∀ i ∈ S, Np.minOver S hne v ≤ v i := fun v i hi =>
    Finset.inf'_le v hi
  have hhi : ∀ (v : Fin m × Fin n → ℝ), ∀ i ∈ S, v i ≤ Np.maxOver S hne v := fun v i hi =>
    Finset.le_sup' v hi
  have elo : ∀ (v : Fin m × Fin n → ℝ), ∃ i ∈ S, Np.minOver S hne v = v i := fun v =>
    Finset.exists_mem_eq_inf' hne v
  have ehi : ∀ (v : Fin m × Fin n → ℝ), ∃ i ∈ S, Np.maxOver S hne v = v i := fun v =>
    Finset.exists_mem_eq_sup' hne v
  have dx : ∀ i j, xx i - xx j = (((i.2 : ℕ) : ℝ) - ((j.2 : ℕ) : ℝ)) / zf := fun i j => by
    rw [hxx]; ring
  have dy : ∀ i j, yy i - yy j = (((i.1 : ℕ) : ℝ) - ((j.1 : ℕ) : ℝ)) / zf := fun i j => by
    rw [hyy]; ring
  refine ⟨_, Np.argmin c, hval, Np.argmin_spec c, ?_, ?_, ?_, ?_, ?_, ?_, ?_, ?_, ?_⟩
  · linarith [hlo xx _ hp]
  · linarith [hhi xx _ hp]
  · linarith [hlo yy _ hp]
  · linarith [hhi yy _ hp]
  · intro i hi
    have hi' := (hmem i).2 hi
    rw [← dx, ← dx, ← dy, ← dy]
    have a1 := hlo xx i hi'
    have a2 := hhi xx i hi'
    have a3 := hlo yy i hi'
    have a4 := hhi yy i hi'
    exact ⟨by linarith, by linarith, by linarith, by linarith⟩
  · obtain ⟨i, hi, h⟩ := elo xx
    exact ⟨i, (hmem i).1 hi, by rw [← dx, h]⟩
  · obtain ⟨i, hi, h⟩ := ehi xx
    exact ⟨i, (hmem i).1 hi, by rw [← dx, h]⟩
  · obtain ⟨i, hi, h⟩ := elo yy
    exact ⟨i, (hmem i).1 hi, by rw [← dy, h]⟩
  · obtain ⟨i, hi, h⟩ := ehi yy
    exact ⟨i, (hmem i).1 hi, by rw [← dy, h]⟩

/-- C37: the errors scale as `1/zoomfactor`. -/
theorem C37_zoomfactor (st : Stats) (c : Fin m × Fin n → ℝ) (zf k nsig nf : ℝ) (hz : 0 < zf)
    (hk : 0 < k) (hT : 0 < sigmaToChi2 st nf nsig) :
    ∃ er er', chi2mapToErrors st c zf nsig nf = .ok er ∧ chi2mapToErrors st c (k * zf) nsig nf = .ok er' ∧
      er'.xLow = er.xLow / k ∧ er'.xHigh = er.xHigh / k ∧ er'.yLow = er.yLow / k ∧
      er'.yHigh = er.yHigh / k := by
  obtain ⟨er, p, h, hp, -, -, -, -, b, ⟨i1, m1, e1⟩, ⟨i2, m2, e2⟩, ⟨i3, m3, e3⟩, ⟨i4, m4, e4⟩⟩ :=
    C37_bounding_box st c zf nsig nf hz hT
  obtain ⟨er', p', h', hp', -, -, -, -, b', ⟨j1, n1, f1⟩, ⟨j2, n2, f2⟩, ⟨j3, n3, f3⟩, ⟨j4, n4, f4⟩⟩ :=
    C37_bounding_box st c (k * zf) nsig nf (by positivity) hT
  obtain rfl := hp.unique hp'
  have hdiv : ∀ x : ℝ, x / (k * zf) = x / zf / k := fun x => by rw [mul_comm, div_div]
  refine ⟨er, er', h, h', ?_, ?_, ?_, ?_⟩
  · refine le_antisymm ?_ ?_
    · rw [f1, hdiv]; exact div_le_div_of_nonneg_right (b j1 n1).1 hk.le
    · rw [e1, ← hdiv]; exact (b' i1 m1).1
  · refine le_antisymm ?_ ?_
    · rw [f2, hdiv]; exact div_le_div_of_nonneg_right (b j2 n2).2.1 hk.le
    · rw [e2, ← hdiv]; exact (b' i2 m2).2.1
  · refine le_antisymm ?_ ?_
    · rw [f3, hdiv]; exact div_le_div_of_nonneg_right (b j3 n3).2.2.1 hk.le
    · rw [e3, ← hdiv]; exact (b' i3 m3).2.2.1
  · refine le_antisymm ?_ ?_
    · rw [f4, hdiv]; exact div_le_div_of_nonneg_right (b j4 n4).2.2.2 hk.le
    · rw [e4, ← hdiv]; exact (b' i4 m4).2.2.2

/-- C37: the errors grow with the threshold. -/
theorem C37_monotone (st st' : Stats) (c : Fin m × Fin n → ℝ) (zf nsig nf nsig' nf' : ℝ) (hz : 0 < zf)
    (hT : 0 < sigmaToChi2 st nf nsig) (hTT : sigmaToChi2 st nf nsig ≤ sigmaToChi2 st' nf' nsig') :
    ∃ er er', chi2mapToErrors st c zf nsig nf = .ok er ∧ chi2mapToErrors st' c zf nsig' nf' = .ok er' ∧
      er.xLow ≤ er'.xLow ∧ er.xHigh ≤ er'.xHigh ∧ er.yLow ≤ er'.yLow ∧ er.yHigh ≤ er'.yHigh := by
  obtain ⟨er, p, h, hp, -, -, -, -, b, ⟨i1, m1, e1⟩, ⟨i2, m2, e2⟩, ⟨i3, m3, e3⟩, ⟨i4, m4, e4⟩⟩ :=
    C37_bounding_box st c zf nsig nf hz hT
  obtain ⟨er', p', h', hp', -, -, -, -, b', -⟩ :=
    C37_bounding_box st' c zf nsig' nf' hz (lt_of_lt_of_le hT hTT)
  obtain rfl := hp.unique hp'
  refine ⟨er, er', h, h', ?_, ?_, ?_, ?_⟩
  · rw [e1]; exact (b' i1 (by linarith)).1
  · rw [e2]; exact (b' i2 (by linarith)).2.1
  · rw [e3]; exact (b' i3 (by linarith)).2.2.1
  · rw [e4]; exact (b' i4 (by linarith)).2.2.2

/-- C37: adding a constant to the map changes nothing; a non-positive threshold is a ValueError. -/
theorem C37_constant_and_empty (st : Stats) (c : Fin m × Fin n → ℝ) (k zf nsig nf : ℝ) :
    chi2mapToErrors st (fun i => c i + k) zf nsig nf = chi2mapToErrors st c zf nsig nf ∧
    (sigmaToChi2 st nf nsig ≤ 0 → chi2mapToErrors st c zf nsig nf = .error .valueError) := by
  classical
  constructor
  · have harg : Np.argmin (fun i => c i + k) = Np.argmin c :=
      Np.argmin_comp fun i j => by simp
    unfold chi2mapToErrors
    simp only [harg, add_sub_add_right_eq_sub]
  · intro hT
    unfold chi2mapToErrors
    simp only []
    rw [dif_neg]
    rintro ⟨i, hi⟩
    have h1 : c i - c (Np.argmin c) < sigmaToChi2 st nf nsig := by simpa using hi
    have h2 := (Np.argmin_spec c).1 i
    linarith

end

/-- C37: the errors reported by `chi2_shift` are non-negative. -/
theorem C37_chi2_shift_nonneg {ny nx : ℕ} [NeZero ny] [NeZero nx] (cfg : FFTConfig) (st : Stats)
    (hst : Spec.validStats st)
    (im1 im2 : Fin ny × Fin nx → Pix) (err : ErrArg ny nx) (us : UsFactor) (zm : Bool) (nf : ℝ)
    (mas : ℕ) (mns : ℝ) (ah : Bool) (hf : Spec.fits ah ny nx) (hus : Spec.validUs ny mas us) :
    ∃ dx dy ex ey : ℝ, chi2Shift cfg st im1 im2 err us zm nf false true false mas mns ah
        = .ok [.num dx, .num dy, .num ex, .num ey] ∧ 0 ≤ ex ∧ 0 ≤ ey := by
  obtain ⟨cm, hcm, s1, s2, i1, i2, hg, u, hu, hu0, yv, xv, hyv, hxv, c, hc, er, her, hres⟩ :=
    chi2Shift_ok cfg st hst im1 im2 err us zm nf mas mns ah hf hus
  obtain ⟨er', p, h, -, a1, a2, a3, a4, -⟩ := C37_bounding_box st c u 1 2 hu0 (sigma_pos st hst)
  rw [her] at h
  obtain rfl : er = er' := by injection h
  exact ⟨_, _, _, _, (hres true false).trans rfl, by linarith, by linarith⟩

/-! ## The hypotheses can be met -/

/-- a 3×3 image with a single bright pixel has its lowest frequency along both axes, and
`upsample_factor = 1` is below its 3 rows: `C33_odd_sizes` applies to it -/
example (cfg : FFTConfig) (zm : Bool) :
    chi2Shift cfg none (realArr fun p : Fin 3 × Fin 3 => if p = 0 then (1 : ℝ) else 0)
      (realArr (Spec.roll2 1 (-1) fun p : Fin 3 × Fin 3 => if p = 0 then (1 : ℝ) else 0))
      (.scalar 2) (.int 1) zm 2 false false false 512 1.1 false
      = .ok [.num ((-1 : ℤ) : ℝ), .num ((1 : ℤ) : ℝ)] := by
  have hd : ∀ k : Fin 3 × Fin 3,
      dft (fun p : Fin 3 × Fin 3 => ((if p = 0 then (1 : ℝ) else 0 : ℝ) : ℂ)) k ≠ 0 := by
    intro k
    have h1 : dft (fun p : Fin 3 × Fin 3 => ((if p = 0 then (1 : ℝ) else 0 : ℝ) : ℂ)) k = 1 := by
      unfold dft
      rw [Finset.sum_eq_single 0]
      · simp [FFTIndex.e_zero]
      · intro b _ hb; simp [hb]
      · simp
    rw [h1]; exact one_ne_zero
  exact C33_odd_sizes cfg none trivial _ (by norm_num) (by norm_num) ⟨1, rfl⟩ ⟨1, rfl⟩ (hd _) (hd _)
    1 (-1) (by norm_num) (by norm_num) (.scalar 2) 2 two_ne_zero rfl 1 one_pos (by norm_num) zm 2 512 1.1 false
    (Or.inr (by norm_num))

end ImgReg
