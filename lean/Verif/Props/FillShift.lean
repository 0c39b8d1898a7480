import Verif.Props.Fill

/-!
# `chi2_shift` with `boundary='fill'` (C94), and what holds for every boundary mode
-/

open Complex Finset

namespace ImgReg

section
variable {ny nx : ℕ} [NeZero ny] [NeZero nx]

/-! ### an object that stays in the frame can only be moved in one way -/

omit [NeZero ny] [NeZero nx] in
/-- a nonzero image has no period in the plane -/
theorem plane_no_period (a : Fin ny × Fin nx → ℝ) (ha : ∃ p, a p ≠ 0) (ty tx : ℤ)
    (h : ∀ y x : ℤ, Spec.plane a (y + ty) (x + tx) = Spec.plane a y x) : ty = 0 ∧ tx = 0 := by
  obtain ⟨p, hp⟩ := ha
  have hk : ∀ k : ℕ, Spec.plane a (((p.1 : ℕ) : ℤ) + k * ty) (((p.2 : ℕ) : ℤ) + k * tx) = a p := by
    intro k
    induction k with
    | zero => simp [plane_in]
    | succ k ih =>
      rw [← ih, ← h (((p.1 : ℕ) : ℤ) + k * ty)]
      push_cast
      congr 1 <;> ring
  have hin : ∀ k : ℕ, (0 ≤ ((p.1 : ℕ) : ℤ) + k * ty ∧ ((p.1 : ℕ) : ℤ) + k * ty < ny) ∧
      0 ≤ ((p.2 : ℕ) : ℤ) + k * tx ∧ ((p.2 : ℕ) : ℤ) + k * tx < nx := by
    intro k
    by_contra hc
    exact hp (by rw [← hk k, plane_out _ _ _ hc])
  have one : ∀ (n : ℕ) (q t : ℤ), 0 ≤ q → q < n → (0 ≤ q + n * t ∧ q + n * t < n) → t = 0 := by
    intro n q t h0 h1 h2
    by_contra ht
    rcases lt_or_gt_of_ne ht with h | h
    · have : (n : ℤ) * t ≤ n * (-1) := mul_le_mul_of_nonneg_left (by omega) (by omega)
      omega
    · have : (n : ℤ) * 1 ≤ n * t := mul_le_mul_of_nonneg_left (by omega) (by omega)
      omega
  have h1 := p.1.isLt
  have h2 := p.2.isLt
  exact ⟨one ny _ _ (by omega) (by omega) (hin ny).1, one nx _ _ (by omega) (by omega) (hin nx).2⟩

omit [NeZero ny] [NeZero nx] in
/-- the energy of a moved image inside the frame -/
theorem sum_plane_sq (a : Fin ny × Fin nx → ℝ) (ey ex : ℤ) :
    ∑ q : Fin ny × Fin nx, Spec.plane a (((q.1 : ℕ) : ℤ) - ey) (((q.2 : ℕ) : ℤ) - ex) ^ 2
      = ∑ p : Fin ny × Fin nx, a p ^ 2 * (if (0 ≤ ((p.1 : ℕ) : ℤ) + ey ∧ ((p.1 : ℕ) : ℤ) + ey < ny) ∧
          0 ≤ ((p.2 : ℕ) : ℤ) + ex ∧ ((p.2 : ℕ) : ℤ) + ex < nx then 1 else 0) := by
  have h := sum_plane_swap (fun p => a p ^ 2) (fun _ : Fin ny × Fin nx => (1 : ℝ)) ey ex
  simp only [mul_one] at h
  simp only [plane_map (· ^ 2) (by norm_num)] at h
  rw [← h]
  refine Finset.sum_congr rfl fun p _ => ?_
  unfold Spec.plane
  congr 1

omit [NeZero ny] [NeZero nx] in
theorem moved_unique (a : Fin ny × Fin nx → ℝ) (ha : ∃ p, a p ≠ 0) (dy dx ey ex : ℤ)
    (hin : ∀ p : Fin ny × Fin nx, a p ≠ 0 → (0 ≤ ((p.1 : ℕ) : ℤ) + dy ∧ ((p.1 : ℕ) : ℤ) + dy < ny) ∧
      0 ≤ ((p.2 : ℕ) : ℤ) + dx ∧ ((p.2 : ℕ) : ℤ) + dx < nx)
    (he : ∀ q : Fin ny × Fin nx, Spec.plane a (((q.1 : ℕ) : ℤ) - ey) (((q.2 : ℕ) : ℤ) - ex)
      = Spec.plane a (((q.1 : ℕ) : ℤ) - dy) (((q.2 : ℕ) : ℤ) - dx)) : ey = dy ∧ ex = dx := by
  have hE : ∑ p : Fin ny × Fin nx, a p ^ 2 * (if (0 ≤ ((p.1 : ℕ) : ℤ) + ey ∧ ((p.1 : ℕ) : ℤ) + ey < ny) ∧
          0 ≤ ((p.2 : ℕ) : ℤ) + ex ∧ ((p.2 : ℕ) : ℤ) + ex < nx then 1 else 0) = ∑ p, a p ^ 2 := by
    rw [← sum_plane_sq]
    simp only [he]
    rw [sum_plane_sq]
    refine Finset.sum_congr rfl fun p _ => ?_
    by_cases h : a p = 0
    · simp [h]
    · rw [if_pos (hin p h), mul_one]
  have hin' : ∀ p : Fin ny × Fin nx, a p ≠ 0 → (0 ≤ ((p.1 : ℕ) : ℤ) + ey ∧ ((p.1 : ℕ) : ℤ) + ey < ny) ∧
      0 ≤ ((p.2 : ℕ) : ℤ) + ex ∧ ((p.2 : ℕ) : ℤ) + ex < nx := by
    intro p hp
    by_contra hc
    have h0 := (Finset.sum_eq_sum_iff_of_le (s := univ) (f := fun p : Fin ny × Fin nx => a p ^ 2 *
      (if (0 ≤ ((p.1 : ℕ) : ℤ) + ey ∧ ((p.1 : ℕ) : ℤ) + ey < ny) ∧
          0 ≤ ((p.2 : ℕ) : ℤ) + ex ∧ ((p.2 : ℕ) : ℤ) + ex < nx then 1 else 0)) (g := fun p => a p ^ 2) (fun p _ => by
        split_ifs
        · rw [mul_one]
        · rw [mul_zero]; positivity)).1 hE p (Finset.mem_univ _)
    rw [if_neg hc, mul_zero] at h0
    exact hp (pow_eq_zero_iff (by norm_num) |>.1 h0.symm)
  have hall : ∀ y x : ℤ, Spec.plane a (y - ey) (x - ex) = Spec.plane a (y - dy) (x - dx) := by
    intro y x
    by_cases h : (0 ≤ y ∧ y < ny) ∧ 0 ≤ x ∧ x < nx
    · obtain ⟨q, rfl, rfl⟩ := plane_cases y x h
      exact he q
    · have out : ∀ fy fx : ℤ, (∀ p : Fin ny × Fin nx, a p ≠ 0 → (0 ≤ ((p.1 : ℕ) : ℤ) + fy ∧ ((p.1 : ℕ) : ℤ) + fy < ny) ∧
          0 ≤ ((p.2 : ℕ) : ℤ) + fx ∧ ((p.2 : ℕ) : ℤ) + fx < nx) → Spec.plane a (y - fy) (x - fx) = 0 := by
        intro fy fx hf
        by_contra hne
        by_cases h2 : (0 ≤ y - fy ∧ y - fy < ny) ∧ 0 ≤ x - fx ∧ x - fx < nx
        · obtain ⟨p, p1, p2⟩ := plane_cases _ _ h2
          rw [← p1, ← p2, plane_in] at hne
          have := hf p hne
          apply h
          omega
        · exact hne (plane_out _ _ _ h2)
      rw [out ey ex hin', out dy dx hin]
  have := plane_no_period a ha (ey - dy) (ex - dx) fun y x => by
    have := hall (y + ey) (x + ex)
    rw [add_sub_cancel_right, add_sub_cancel_right] at this
    rw [this]
    congr 1 <;> ring
  omega

/-! ## C94 -/

/-- C94: let `im2` be `im1` moved by `(dy, dx)` with zeros moving in, so that nothing leaves the frame, and let the map cover that
displacement (`-n ≤ 2d < n`).  Then with `boundary='fill'`, for every nonzero image (no condition on its spectrum) and every
nonzero scalar error or error image without zero or NaN pixels, the chi-squared map is 0 at the entry of that displacement and
positive everywhere else. -/
theorem C94_unique_zero (cfg : FFTConfig) (pad : ℕ × ℕ → ℕ × ℕ → ℕ × ℕ) (hp : Spec.padsEnough pad) (ah : Bool)
    (h : Spec.fits ah (pad (ny, nx) (ny, nx)).1 (pad (ny, nx) (ny, nx)).2)
    (im1 im2 : Fin ny × Fin nx → ℝ) (h1 : ∃ p, im1 p ≠ 0) (dy dx : ℤ)
    (hin : ∀ p : Fin ny × Fin nx, im1 p ≠ 0 → (0 ≤ ((p.1 : ℕ) : ℤ) + dy ∧ ((p.1 : ℕ) : ℤ) + dy < ny) ∧
      0 ≤ ((p.2 : ℕ) : ℤ) + dx ∧ ((p.2 : ℕ) : ℤ) + dx < nx)
    (hm : ∀ q : Fin ny × Fin nx, im2 q = Spec.plane im1 (((q.1 : ℕ) : ℤ) - dy) (((q.2 : ℕ) : ℤ) - dx))
    (ly : -(ny : ℤ) ≤ 2 * dy) (uy : 2 * dy < ny) (lx : -(nx : ℤ) ≤ 2 * dx) (ux : 2 * dx < nx)
    (err : ErrArg ny nx) (he : (∃ s, s ≠ 0 ∧ Spec.isScalarErr err s) ∨ ∃ e : Fin ny × Fin nx → ℝ, (∀ p, e p ≠ 0) ∧ err = .image (realArr e)) :
    ∃ (c : Fin ny × Fin nx → ℝ) (q : Fin ny × Fin nx),
      chi2nMapB cfg (.fill pad) (realArr im1) (realArr im2) err false false false ah = .ok (.only c) ∧
      ((q.1 : ℕ) : ℤ) = ((ny - 1) / 2 : ℕ) - dy ∧ ((q.2 : ℕ) : ℤ) = ((nx - 1) / 2 : ℕ) - dx ∧
      c q = 0 ∧ ∀ i, i ≠ q → 0 < c i := by
  have n1 := Nat.pos_of_ne_zero (NeZero.ne ny)
  have n2 := Nat.pos_of_ne_zero (NeZero.ne nx)
  have key : ∀ (e : Fin ny × Fin nx → ℝ), (∀ p, e p ≠ 0) → ∀ (i : Fin ny × Fin nx),
      (∑ q : Fin ny × Fin nx, (Spec.plane im1 (((q.1 : ℕ) : ℤ) - (((ny - 1) / 2 : ℕ) - ((i.1 : ℕ) : ℤ)))
        (((q.2 : ℕ) : ℤ) - (((nx - 1) / 2 : ℕ) - ((i.2 : ℕ) : ℤ))) - im2 q) ^ 2 / e q ^ 2 = 0) →
      (((ny - 1) / 2 : ℕ) : ℤ) - ((i.1 : ℕ) : ℤ) = dy ∧ (((nx - 1) / 2 : ℕ) : ℤ) - ((i.2 : ℕ) : ℤ) = dx := by
    intro e hne i h0
    apply moved_unique im1 h1 dy dx _ _ hin
    intro q
    have := (Finset.sum_eq_zero_iff_of_nonneg fun q _ => by positivity).1 h0 q (Finset.mem_univ _)
    rw [div_eq_zero_iff] at this
    rcases this with h2 | h2
    · rw [pow_eq_zero_iff (by norm_num), sub_eq_zero, hm q] at h2
      exact h2
    · exact absurd (pow_eq_zero_iff (by norm_num) |>.1 h2) (hne q)
  let q : Fin ny × Fin nx := (⟨(((ny - 1) / 2 : ℕ) - dy : ℤ).toNat, by omega⟩, ⟨(((nx - 1) / 2 : ℕ) - dx : ℤ).toNat, by omega⟩)
  have q1 : ((q.1 : ℕ) : ℤ) = ((ny - 1) / 2 : ℕ) - dy := by
    show (((((ny - 1) / 2 : ℕ) - dy : ℤ).toNat : ℕ) : ℤ) = _
    omega
  have q2 : ((q.2 : ℕ) : ℤ) = ((nx - 1) / 2 : ℕ) - dx := by
    show (((((nx - 1) / 2 : ℕ) - dx : ℤ).toNat : ℕ) : ℤ) = _
    omega
  have uniq : ∀ i : Fin ny × Fin nx, (((ny - 1) / 2 : ℕ) : ℤ) - ((i.1 : ℕ) : ℤ) = dy ∧
      (((nx - 1) / 2 : ℕ) : ℤ) - ((i.2 : ℕ) : ℤ) = dx → i = q := by
    intro i hi
    exact Prod.ext (Fin.ext (by omega)) (Fin.ext (by omega))
  have zero : ∀ e : Fin ny × Fin nx → ℝ, ∑ r : Fin ny × Fin nx,
      (Spec.plane im1 (((r.1 : ℕ) : ℤ) - (((ny - 1) / 2 : ℕ) - ((q.1 : ℕ) : ℤ)))
        (((r.2 : ℕ) : ℤ) - (((nx - 1) / 2 : ℕ) - ((q.2 : ℕ) : ℤ))) - im2 r) ^ 2 / e r ^ 2 = 0 := by
    intro e
    refine Finset.sum_eq_zero fun r _ => ?_
    rw [q1, q2, sub_sub_cancel, sub_sub_cancel, ← hm r]
    simp
  have nn : ∀ im : Fin ny × Fin nx → ℝ, Spec.nan0 (realArr im) = im := fun _ => rfl
  rcases he with ⟨s, hs, hes⟩ | ⟨e, hne, rfl⟩
  · obtain ⟨c0, k0, e0⟩ := C93_scalar_error cfg pad hp ah h (realArr im1) (realArr im2) err s hs hes
    obtain ⟨c, c', k1, k2, hcc⟩ := C93_scalar_vs_image cfg pad hp ah h (realArr im1) (realArr im2) s hs
    obtain ⟨cs, k3, e3⟩ := C93_scalar_error cfg pad hp ah h (realArr im1) (realArr im2) (.scalar s) s hs rfl
    obtain ⟨ci, k4, e4⟩ := C93_error_image cfg pad hp ah h (realArr im1) (realArr im2) (realArr fun _ => s)
    obtain rfl : c = cs := by rw [k1] at k3; simpa using k3
    obtain rfl : c' = ci := by rw [k2] at k4; simpa using k4
    have hc0 : ∀ i, c0 i = c i := fun i => by rw [e0, e3]
    have e4' : ∀ i, c' i = ∑ q : Fin ny × Fin nx, (Spec.plane im1 (((q.1 : ℕ) : ℤ) - (((ny - 1) / 2 : ℕ) - ((i.1 : ℕ) : ℤ)))
        (((q.2 : ℕ) : ℤ) - (((nx - 1) / 2 : ℕ) - ((i.2 : ℕ) : ℤ))) - im2 q) ^ 2 / s ^ 2 := by
      intro i
      rw [e4]
      simp only [nn, hs, if_false]
    refine ⟨c0, q, k0, q1, q2, ?_, fun i hi => ?_⟩
    · rw [hc0, hcc, e4', zero, zero_add]
      refine Finset.sum_eq_zero fun p _ => ?_
      split_ifs with hc
      · rfl
      · by_cases hp0 : im1 p = 0
        · rw [nn]; simp [hp0]
        · exfalso
          apply hc
          rw [q1, q2, sub_sub_cancel, sub_sub_cancel]
          exact hin p hp0
    · rw [hc0, hcc]
      have hpos : 0 ≤ c' i := by rw [e4']; exact Finset.sum_nonneg fun q _ => by positivity
      have hne0 : c' i ≠ 0 := by
        rw [e4']
        intro h0
        exact hi (uniq i (key (fun _ => s) (fun _ => hs) i h0))
      have h2 : 0 ≤ ∑ p : Fin ny × Fin nx,
        if (0 ≤ ((p.1 : ℕ) : ℤ) + (((ny - 1) / 2 : ℕ) - ((i.1 : ℕ) : ℤ)) ∧ ((p.1 : ℕ) : ℤ) + (((ny - 1) / 2 : ℕ) - ((i.1 : ℕ) : ℤ)) < ny) ∧
           (0 ≤ ((p.2 : ℕ) : ℤ) + (((nx - 1) / 2 : ℕ) - ((i.2 : ℕ) : ℤ)) ∧ ((p.2 : ℕ) : ℤ) + (((nx - 1) / 2 : ℕ) - ((i.2 : ℕ) : ℤ)) < nx)
        then 0 else Spec.nan0 (realArr im1) p ^ 2 / s ^ 2 :=
        Finset.sum_nonneg fun p _ => by split_ifs <;> positivity
      have := lt_of_le_of_ne hpos (Ne.symm hne0)
      linarith
  · obtain ⟨c, k4, e4⟩ := C93_error_image cfg pad hp ah h (realArr im1) (realArr im2) (realArr e)
    have e4' : ∀ i, c i = ∑ q : Fin ny × Fin nx, (Spec.plane im1 (((q.1 : ℕ) : ℤ) - (((ny - 1) / 2 : ℕ) - ((i.1 : ℕ) : ℤ)))
        (((q.2 : ℕ) : ℤ) - (((nx - 1) / 2 : ℕ) - ((i.2 : ℕ) : ℤ))) - im2 q) ^ 2 / e q ^ 2 := by
      intro i
      rw [e4]
      simp only [nn, hne, if_false]
    refine ⟨c, q, k4, q1, q2, ?_, fun i hi => ?_⟩
    · rw [e4', zero]
    · refine lt_of_le_of_ne ?_ ?_
      · rw [e4']; exact Finset.sum_nonneg fun q _ => by positivity
      · intro h0
        exact hi (uniq i (key e hne i (by rw [← e4', ← h0])))

/-! ### `chi2_shift` at upsampling factor 1 -/

/-- with `upsample_factor=1` the answer is the position of the (unique) minimum of the chi-squared map, for every boundary mode -/
theorem chi2ShiftB_one (cfg : FFTConfig) (bd : CorrBoundary) (st : Stats) (hst : Spec.validStats st)
    (im1 im2 : Fin ny × Fin nx → Pix) (err : ErrArg ny nx) (zm : Bool) (nf : ℝ)
    (mas : ℕ) (mns : ℝ) (ah : Bool) (hy : 2 ≤ ny)
    (cm : Chi2Map ny nx) (hcm : chi2nMapBodyB cfg bd im1 im2 err zm false ah = .ok cm)
    (q : Fin ny × Fin nx) (hq : ∀ i, i ≠ q → cm.chi2 q < cm.chi2 i) :
    chi2ShiftB cfg bd st im1 im2 err (.int 1) zm nf false false false mas mns ah
      = .ok [.num ((((nx - 1) / 2 : ℕ) : ℝ) - ((q.2 : ℕ) : ℝ)), .num ((((ny - 1) / 2 : ℕ) : ℝ) - ((q.1 : ℕ) : ℝ))] := by
  obtain ⟨s1, s2, i1, i2, hs, u, hu, -, yv, xv, hyv, hxv, c, hc, er, -, hres⟩ :=
    chi2ShiftB_ok cfg bd st hst im1 im2 err (.int 1) zm nf mas mns ah (by exact Nat.one_pos) cm hcm
  rw [hres false false]
  have hg : Spec.gridSize ny nx mas (.int 1) = (ny, nx) := by
    simp only [Spec.gridSize]
    rw [if_neg (by omega)]
  rw [hg] at hs
  obtain ⟨rfl, rfl⟩ := Prod.mk.inj hs
  have hu1 : u = 1 := by rw [hu]; simp [Spec.usUsed]
  have hmin : Np.argmin cm.chi2 = q := Np.argmin_eq_of_unique hq
  have hz : ∀ (n : ℕ) [NeZero n] (a i : Fin n), Spec.gridShift n a 1 n i
      = (((((a : ℕ) : ℤ) + ((i : ℕ) : ℤ) - 2 * (Spec.zeroLag n : ℤ) : ℤ)) : ℝ) := by
    intro n _ a i
    unfold Spec.gridShift
    rw [halfPix_eq]; push_cast; ring
  have hval : ∀ i, c i = cm.chi2 (Spec.wrap s1 (((q.1 : ℕ) : ℤ) + ((i.1 : ℕ) : ℤ) - (Spec.zeroLag s1 : ℤ)),
      Spec.wrap s2 (((q.2 : ℕ) : ℤ) + ((i.2 : ℕ) : ℤ) - (Spec.zeroLag s2 : ℤ))) := by
    intro i
    rw [hc, hyv, hxv]
    simp only [hmin, hu1, hz]
    have e : ∀ (n : ℕ) (a i : Fin n), (((((a : ℕ) : ℤ) + ((i : ℕ) : ℤ) - 2 * (Spec.zeroLag n : ℤ) : ℤ)) : ℝ) + ((Spec.zeroLag n : ℕ) : ℝ)
        = ((((a : ℕ) : ℤ) + ((i : ℕ) : ℤ) - (Spec.zeroLag n : ℤ) : ℤ) : ℝ) := by
      intro n a i; push_cast; ring
    rw [e, e, interp2C_int, Complex.ofReal_re]
  have zl : ∀ n : ℕ, [NeZero n] → Spec.zeroLag n < n := by
    intro n _
    have := Nat.pos_of_ne_zero (NeZero.ne n)
    unfold Spec.zeroLag; omega
  have hcm' : Np.argmin c = (⟨Spec.zeroLag s1, zl s1⟩, ⟨Spec.zeroLag s2, zl s2⟩) := by
    apply Np.argmin_eq_of_unique
    intro j hj
    have e0 : c (⟨Spec.zeroLag s1, zl s1⟩, ⟨Spec.zeroLag s2, zl s2⟩) = cm.chi2 q := by
      rw [hval]
      simp only [add_sub_cancel_right, Spec.wrap_val]
    rw [e0, hval]
    apply hq
    intro hw
    apply hj
    have back : ∀ (n : ℕ) [NeZero n] (a i : Fin n), Spec.wrap n (((a : ℕ) : ℤ) + ((i : ℕ) : ℤ) - (Spec.zeroLag n : ℤ)) = a →
        i = ⟨Spec.zeroLag n, zl n⟩ := by
      intro n _ a i hwr
      rw [Spec.wrap_eq_iff] at hwr
      have h2 := (hwr.sub (Int.ModEq.refl ((a : ℕ) : ℤ))).add (Int.ModEq.refl (Spec.zeroLag n : ℤ))
      have e1 : ((a : ℕ) : ℤ) + ((i : ℕ) : ℤ) - (Spec.zeroLag n : ℤ) - ((a : ℕ) : ℤ) + (Spec.zeroLag n : ℤ) = ((i : ℕ) : ℤ) := by ring
      have e2 : ((a : ℕ) : ℤ) - ((a : ℕ) : ℤ) + (Spec.zeroLag n : ℤ) = (((⟨Spec.zeroLag n, zl n⟩ : Fin n) : ℕ) : ℤ) := by simp
      rw [e1, e2] at h2
      exact Fin.eq_of_modEq h2
    exact Prod.ext (back s1 q.1 j.1 (congrArg Prod.fst hw)) (back s2 q.2 j.2 (congrArg Prod.snd hw))
  rw [hcm', hyv, hxv]
  simp only [hmin, hu1, hz, Spec.layout, Bool.false_eq_true, if_false, List.append_nil]
  have e : ∀ (n : ℕ) [NeZero n] (a : Fin n), -(((((a : ℕ) : ℤ) + (((⟨Spec.zeroLag n, zl n⟩ : Fin n) : ℕ) : ℤ) - 2 * (Spec.zeroLag n : ℤ) : ℤ)) : ℝ)
      = (((n - 1) / 2 : ℕ) : ℝ) - ((a : ℕ) : ℝ) := by
    intro n _ a
    have : (((n - 1) / 2 : ℕ) : ℝ) = ((Spec.zeroLag n : ℕ) : ℝ) := rfl
    rw [this]; push_cast; ring
  rw [e, e]

/-- C94: whole-pixel recovery with `boundary='fill'`. If `im2` is `im1` moved by `(dy, dx)` with zeros moving in and nothing
leaving the frame, `-n ≤ 2d < n`, then for every nonzero image and every nonzero scalar error or error image without zero or NaN
pixels, `chi2_shift` with `upsample_factor=1` returns exactly `[dx, dy]`. -/
theorem C94_recovers_move (cfg : FFTConfig) (pad : ℕ × ℕ → ℕ × ℕ → ℕ × ℕ) (hp : Spec.padsEnough pad) (st : Stats)
    (hst : Spec.validStats st) (ah : Bool)
    (h : Spec.fits ah (pad (ny, nx) (ny, nx)).1 (pad (ny, nx) (ny, nx)).2) (hy : 2 ≤ ny)
    (im1 im2 : Fin ny × Fin nx → ℝ) (h1 : ∃ p, im1 p ≠ 0) (dy dx : ℤ)
    (hin : ∀ p : Fin ny × Fin nx, im1 p ≠ 0 → (0 ≤ ((p.1 : ℕ) : ℤ) + dy ∧ ((p.1 : ℕ) : ℤ) + dy < ny) ∧
      0 ≤ ((p.2 : ℕ) : ℤ) + dx ∧ ((p.2 : ℕ) : ℤ) + dx < nx)
    (hm : ∀ q : Fin ny × Fin nx, im2 q = Spec.plane im1 (((q.1 : ℕ) : ℤ) - dy) (((q.2 : ℕ) : ℤ) - dx))
    (ly : -(ny : ℤ) ≤ 2 * dy) (uy : 2 * dy < ny) (lx : -(nx : ℤ) ≤ 2 * dx) (ux : 2 * dx < nx)
    (err : ErrArg ny nx) (he : (∃ s, s ≠ 0 ∧ Spec.isScalarErr err s) ∨ ∃ e : Fin ny × Fin nx → ℝ, (∀ p, e p ≠ 0) ∧ err = .image (realArr e))
    (nf : ℝ) (mas : ℕ) (mns : ℝ) :
    chi2ShiftB cfg (.fill pad) st (realArr im1) (realArr im2) err (.int 1) false nf false false false mas mns ah
      = .ok [.num (dx : ℝ), .num (dy : ℝ)] := by
  obtain ⟨c, q, hc, q1, q2, h0, hpos⟩ := C94_unique_zero cfg pad hp ah h im1 im2 h1 dy dx hin hm ly uy lx ux err he
  obtain ⟨cm, hcm, -⟩ := chi2nMapBodyB_fill cfg pad hp pos_of_neZero (realArr im1) (realArr im2) err false false ah h
  obtain rfl : cm.chi2 = c := by
    rw [chi2nMapB_same, hcm] at hc
    simpa [bind, Except.bind, pure, Except.pure] using hc
  rw [chi2ShiftB_one cfg (.fill pad) st hst _ _ err false nf mas mns ah hy cm hcm q fun i hi => by rw [h0]; exact hpos i hi]
  have e1 : (((ny - 1) / 2 : ℕ) : ℝ) - ((q.1 : ℕ) : ℝ) = (dy : ℝ) := by
    have : (dy : ℤ) = ((((ny - 1) / 2 : ℕ) : ℤ)) - ((q.1 : ℕ) : ℤ) := by omega
    rw [this, Int.cast_sub, Int.cast_natCast, Int.cast_natCast]
  have e2 : (((nx - 1) / 2 : ℕ) : ℝ) - ((q.2 : ℕ) : ℝ) = (dx : ℝ) := by
    have : (dx : ℤ) = ((((nx - 1) / 2 : ℕ) : ℤ)) - ((q.2 : ℕ) : ℤ) := by omega
    rw [this, Int.cast_sub, Int.cast_natCast, Int.cast_natCast]
  rw [e1, e2]

end

end ImgReg
