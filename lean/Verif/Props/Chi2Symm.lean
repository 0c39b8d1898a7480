import Verif.Props.Chi2Recover

/-!
# Symmetries of `chi2_shift` (C76, C77)
-/

open Complex Finset
open scoped ComplexConjugate

namespace ImgReg

section
variable {ny nx : ℕ} [NeZero ny] [NeZero nx]

/-- `chi2_shift` depends on its images and errors only through the chi-squared map -/
theorem chi2Shift_congr (cfg : FFTConfig) (st : Stats)
    (im1 im2 im1' im2' : Fin ny × Fin nx → Pix) (err err' : ErrArg ny nx) (us : UsFactor)
    (zm zm' : Bool) (nf : ℝ) (vb re rc : Bool) (mas : ℕ) (mns : ℝ) (ah : Bool) (cm cm' : Chi2Map ny nx)
    (hcm : chi2nMapBody cfg im1 im2 err zm false ah = .ok cm)
    (hcm' : chi2nMapBody cfg im1' im2' err' zm' false ah = .ok cm')
    (h : cm'.chi2 = cm.chi2) :
    chi2Shift cfg st im1' im2' err' us zm' nf vb re rc mas mns ah
      = chi2Shift cfg st im1 im2 err us zm nf vb re rc mas mns ah := by
  unfold chi2Shift chi2ShiftB
  rw [chi2nMapB_wrap, chi2nMap_same, chi2nMapB_wrap, chi2nMap_same, hcm, hcm']
  simp only [bind, Except.bind, pure, Except.pure, if_true, h]

/-- C76: rolling both images by the same whole-pixel amount changes nothing in the result of
`chi2_shift` (scalar error, wrapped boundary). -/
theorem C76_common_roll (cfg : FFTConfig) (st : Stats) (im1 im2 : Fin ny × Fin nx → Pix)
    (err : ErrArg ny nx) (s : ℝ) (herr : Spec.isScalarErr err s) (us : UsFactor)
    (zm : Bool) (nf : ℝ) (vb re rc : Bool) (mas : ℕ) (mns : ℝ) (ah : Bool) (dy dx : ℤ) :
    chi2Shift cfg st (Spec.roll2 dy dx im1) (Spec.roll2 dy dx im2) err us zm nf vb re rc mas mns ah
      = chi2Shift cfg st im1 im2 err us zm nf vb re rc mas mns ah := by
  by_cases hf : Spec.fits ah ny nx
  · obtain ⟨m, h1, h2⟩ := chi2nMapBody_chi2 cfg im1 im2 err zm ah hf
    obtain ⟨m', h1', h2'⟩ := chi2nMapBody_chi2 cfg (Spec.roll2 dy dx im1) (Spec.roll2 dy dx im2) err zm ah hf
    refine chi2Shift_congr cfg st _ _ _ _ _ _ us zm zm nf vb re rc mas mns ah m m' h1 h1' ?_
    funext i
    rw [h2, h2', scalarErr_errOf herr]
    simp only [scalarErr_maskOf herr, prep_roll2]
    unfold Spec.chi2
    symm
    refine Fintype.sum_bijective _ (Spec.move_bijective dy dx) _ _ fun p => ?_
    rw [Spec.roll2_move]
    congr 3
    have : Spec.move (Spec.lag ny i.1) (Spec.lag nx i.2) (Spec.move dy dx p)
        = Spec.move dy dx (Spec.move (Spec.lag ny i.1) (Spec.lag nx i.2) p) := by
      simp only [Spec.move_eq]; abel
    rw [this, Spec.roll2_move]
  · unfold chi2Shift chi2ShiftB
    rw [chi2nMapB_wrap, chi2nMap_same, chi2nMapB_wrap, chi2nMap_same, chi2nMapBody_huge _ _ _ _ _ _ _ hf, chi2nMapBody_huge _ _ _ _ _ _ _ hf]

/-- exchanging the images negates the shift in the residual -/
theorem resid_swap (a b : Fin ny × Fin nx → ℝ) (s dy dx : ℝ) :
    Spec.resid b a s (-dy) (-dx) = Spec.resid a b s dy dx := by
  rw [resid_expand, resid_expand]
  have h : ∑ p, (b p : ℂ) * cshift (-dy) (-dx) a p = conj (∑ p, (a p : ℂ) * cshift dy dx b p) := by
    have e1 : ∀ (x y : Fin ny × Fin nx → ℝ) (t u : ℝ), ∑ p, (x p : ℂ) * cshift t u y p
        = (1 / (Fintype.card (Fin ny × Fin nx) : ℂ)) * ∑ k, dft (fun p => (y p : ℂ)) k
          * ex (-(freq2 u t k)) * conj (dft (fun p => (x p : ℂ)) k) := by
      intro x y t u
      have h := parseval (cshift t u y) (fun p => (x p : ℂ))
      simp only [Complex.conj_ofReal] at h
      have e : dft (cshift t u y) = fun k => dft (fun p => (y p : ℂ)) k * ex (-(freq2 u t k)) := by
        unfold cshift filt; rw [dft_idft]
      rw [e] at h
      rw [← h]
      exact Finset.sum_congr rfl fun p _ => mul_comm _ _
    rw [e1, e1, map_mul, map_sum]
    congr 1
    · simp
    refine Finset.sum_congr rfl fun k _ => ?_
    rw [map_mul, map_mul, conj_ex, Complex.conj_conj]
    have : freq2 (-dx) (-dy) k = -freq2 dx dy k := by unfold freq2; ring
    rw [this]; ring
  rw [h, Complex.conj_re]
  ring

/-- C77: for odd image sizes, if the minima of the chi-squared map and of the zoomed map are unique,
exchanging the two images exactly negates the shift reported by `chi2_shift` (scalar error, explicit
upsampling factor). -/
theorem C77_exchange (cfg : FFTConfig) (st : Stats) (hst : Spec.validStats st)
    (im1 im2 : Fin ny × Fin nx → Pix) (oy : Odd ny) (ox : Odd nx)
    (err : ErrArg ny nx) (s : ℝ) (herr : Spec.isScalarErr err s) (us : UsFactor) (hna : us ≠ .auto)
    (zm : Bool) (nf : ℝ) (mas : ℕ) (mns : ℝ) (ah : Bool) (hf : Spec.fits ah ny nx)
    (hus : Spec.validUs ny mas us) :
    ∃ (chi2 : Fin ny × Fin nx → ℝ) (dx dy : ℝ) (s1 s2 : ℕ) (xv yv c : Fin s1 × Fin s2 → ℝ),
      chi2nMap cfg im1 im2 err zm false false ah = .ok (.only chi2) ∧
      chi2Shift cfg st im1 im2 err us zm nf false false true mas mns ah
        = .ok [.num dx, .num dy, .arrays s1 s2 xv yv c] ∧
      ((∃ q, ∀ q', q' ≠ q → chi2 q < chi2 q') → (∃ i, ∀ i', i' ≠ i → c i < c i') →
        chi2Shift cfg st im2 im1 err us zm nf false false false mas mns ah
          = .ok [.num (-dx), .num (-dy)]) := by
  obtain ⟨cm, hcm, hchi, s1, s2, i1, i2, hg, u, hu, hu0, yv, xv, hyv, hxv, c, hc, er, her, hres⟩ :=
    chi2Shift_scalar cfg st hst im1 im2 err s herr us zm nf mas mns ah hf hus
  obtain ⟨cm', hcm', hchi', s1', s2', i1', i2', hg', u', hu', hu0', yv', xv', hyv', hxv', c', hc', er', her',
    hres'⟩ := chi2Shift_scalar cfg st hst im2 im1 err s herr us zm nf mas mns ah hf hus
  obtain ⟨rfl, rfl⟩ := Prod.mk.inj (hg.trans hg'.symm)
  have huu : u' = u := by
    rw [hu, hu']
    cases us with
    | auto => exact absurd rfl hna
    | int _ => rfl
    | float _ => rfl
  subst huu
  refine ⟨cm.chi2, _, _, s1, s2, xv, yv, c, by rw [chi2nMap_same, hcm]; rfl, (hres false true).trans rfl, ?_⟩
  rintro ⟨q, hq⟩ ⟨i, hi⟩
  have hlag : ∀ (n : ℕ) (j : Fin n), Odd n → Spec.lag n j.rev = -Spec.lag n j := by
    rintro n j ⟨k, rfl⟩
    have := j.isLt
    unfold Spec.lag Spec.zeroLag
    rw [Fin.val_rev]; omega
  have hm : ∀ j : Fin ny × Fin nx, cm'.chi2 (j.1.rev, j.2.rev) = cm.chi2 j := by
    intro j
    rw [hchi', hchi, hlag ny _ oy, hlag nx _ ox]
    have := resid_swap (prep zm im1) (prep zm im2) s ((-Spec.lag ny j.1 : ℤ)) ((-Spec.lag nx j.2 : ℤ))
    rw [← this]; push_cast; rfl
  have hq1 : Np.argmin cm.chi2 = q := Np.argmin_eq_of_unique hq
  have hq2 : Np.argmin cm'.chi2 = (q.1.rev, q.2.rev) := by
    apply Np.argmin_eq_of_unique
    intro j hj
    have : j = ((j.1.rev).rev, (j.2.rev).rev) := by simp
    rw [this, hm, hm (j.1.rev, j.2.rev)]
    refine hq _ fun h => hj ?_
    rw [this, ← h]
  have hgs : ∀ (n s : ℕ) (q : Fin n) (j : Fin s), Odd n →
      Spec.gridShift n q.rev u' s j.rev = -Spec.gridShift n q u' s j := by
    intro n s q j ho
    have h1 : ((j.rev : ℕ) : ℝ) = (s : ℝ) - 1 - ((j : ℕ) : ℝ) := by
      have := j.isLt
      rw [Fin.val_rev, Nat.cast_sub (by omega)]; push_cast; ring
    have h2 := hlag n q ho
    unfold Spec.lag at h2
    have h2' : (Spec.zeroLag n : ℝ) - ((q.rev : ℕ) : ℝ) = -((Spec.zeroLag n : ℝ) - ((q : ℕ) : ℝ)) := by
      exact_mod_cast h2
    have hh : Spec.halfPix n = 0 := by
      have : ¬ n % 2 = 0 := by rw [Nat.odd_iff] at ho; omega
      simp [Spec.halfPix, this]
    unfold Spec.gridShift
    rw [hh, h1]
    have e : ((s : ℝ) - 1 - ((j : ℕ) : ℝ) - ((s : ℝ) - 1) / 2) / u'
        = -((((j : ℕ) : ℝ) - ((s : ℝ) - 1) / 2) / u') := by ring
    rw [e]; linarith
  have hyr : ∀ j, yv' (j.1.rev, j.2.rev) = -yv j := by
    intro j; rw [hyv, hyv', hq1, hq2]; exact hgs ny s1 q.1 j.1 oy
  have hxr : ∀ j, xv' (j.1.rev, j.2.rev) = -xv j := by
    intro j; rw [hxv, hxv', hq1, hq2]; exact hgs nx s2 q.2 j.2 ox
  have hcr : ∀ j, c' (j.1.rev, j.2.rev) = c j := by
    intro j
    rw [hc, hc']
    simp only [hyr, hxr]
    exact resid_swap _ _ _ _ _
  have hi1 : Np.argmin c = i := Np.argmin_eq_of_unique hi
  have hi2 : Np.argmin c' = (i.1.rev, i.2.rev) := by
    apply Np.argmin_eq_of_unique
    intro j hj
    have : j = ((j.1.rev).rev, (j.2.rev).rev) := by simp
    rw [this, hcr, hcr (j.1.rev, j.2.rev)]
    refine hi _ fun h => hj ?_
    rw [this, ← h]
  rw [hres' false false, hi2, hi1, hyr, hxr]
  rfl

end

end ImgReg
