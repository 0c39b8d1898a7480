import Verif.Lemmas.Chi2Shift

/-! # When the residual of a sub-pixel shift vanishes -/

open Complex Finset
open scoped ComplexConjugate

namespace ImgReg

section
variable {ny nx : ℕ} [NeZero ny] [NeZero nx]

theorem cshift_cshift (t u t' u' : ℝ) (b c : Fin ny × Fin nx → ℝ)
    (h : ∀ p, (b p : ℂ) = cshift t' u' c p) : cshift t u b = cshift (t + t') (u + u') c := by
  unfold cshift at h ⊢
  have : (fun i => (b i : ℂ)) = filt (fun k => ex (-(freq2 u' t' k))) fun i => (c i : ℂ) := by
    funext p; exact h p
  rw [this, filt_filt]
  congr 1
  funext k
  rw [freq2_add, ← ex_add]; congr 1; ring

theorem resid_eq_zero_iff (a b : Fin ny × Fin nx → ℝ) (s : ℝ) (hs : s ≠ 0) (dy dx : ℝ) :
    Spec.resid a b s dy dx = 0 ↔ ∀ p, (a p : ℂ) = cshift dy dx b p := by
  unfold Spec.resid
  rw [Finset.sum_eq_zero_iff_of_nonneg (fun p _ => by positivity)]
  constructor
  · intro h p
    have := h p (mem_univ _)
    rw [div_eq_zero_iff, or_iff_left (pow_ne_zero 2 hs), pow_eq_zero_iff two_ne_zero, norm_eq_zero,
      sub_eq_zero] at this
    exact this
  · intro h p _
    rw [h p, sub_self]; simp

theorem fftfreq_one (n : ℕ) [NeZero n] (h : 2 ≤ n) :
    ∃ z : ℤ, (z = 1 ∨ z = -1) ∧ Np.fftfreq n (1 : Fin n) = (z : ℝ) / n := by
  have h1 : ((1 : Fin n) : ℕ) = 1 := by
    rw [Fin.val_one']; exact Nat.mod_eq_of_lt (by omega)
  rw [Np.fftfreq_eq, h1, Np.fftfreqInt_eq n 1 (by omega)]
  split_ifs with h2
  · exact ⟨1, Or.inl rfl, by push_cast; ring⟩
  · have : n = 2 := by omega
    subst this
    exact ⟨-1, Or.inr rfl, by push_cast; norm_num⟩

theorem int_mul_of_ex_fftfreq_one (n : ℕ) [NeZero n] (h : 2 ≤ n) (t : ℝ)
    (he : ex (-(t * Np.fftfreq n (1 : Fin n))) = 1) : ∃ z : ℤ, t = z * n := by
  obtain ⟨z, hz, hf⟩ := fftfreq_one n h
  rw [ex_eq_one_iff] at he
  obtain ⟨w, hw⟩ := he
  rw [hf] at hw
  have hn : (n : ℝ) ≠ 0 := by exact_mod_cast NeZero.ne n
  field_simp at hw
  rcases hz with rfl | rfl
  · refine ⟨-w, ?_⟩; push_cast at hw ⊢; linarith
  · refine ⟨w, ?_⟩; push_cast at hw ⊢; linarith

theorem cshift_self (a : Fin ny × Fin nx → ℝ) (t u : ℝ) (h : ∀ p, (a p : ℂ) = cshift t u a p)
    (k : Fin ny × Fin nx) (hk : dft (fun p => (a p : ℂ)) k ≠ 0) : ex (-(freq2 u t k)) = 1 := by
  have h1 : (fun p => (a p : ℂ)) = cshift t u a := by funext p; exact h p
  have h2 := congrFun (congrArg dft h1) k
  unfold cshift filt at h2
  rw [dft_idft] at h2
  exact mul_left_cancel₀ hk (by rw [mul_one]; exact h2.symm)

/-- an image that is not invariant along either axis (its lowest frequency is present along both)
is reproduced by a Fourier shift only if the shift is a whole number of periods -/
theorem period_of_cshift_self (a : Fin ny × Fin nx → ℝ) (hy : 2 ≤ ny) (hx : 2 ≤ nx)
    (h10 : dft (fun p => (a p : ℂ)) (1, 0) ≠ 0) (h01 : dft (fun p => (a p : ℂ)) (0, 1) ≠ 0)
    (t u : ℝ) (h : ∀ p, (a p : ℂ) = cshift t u a p) :
    (∃ z : ℤ, t = z * ny) ∧ ∃ z : ℤ, u = z * nx := by
  have e1 := cshift_self a t u h (1, 0) h10
  have e2 := cshift_self a t u h (0, 1) h01
  simp only [freq2, Np.fftfreq_zero, mul_zero, zero_add, add_zero] at e1 e2
  exact ⟨int_mul_of_ex_fftfreq_one ny hy t e1, int_mul_of_ex_fftfreq_one nx hx u e2⟩

theorem cshift_period (a : Fin ny × Fin nx → ℝ) (z w : ℤ) (p : Fin ny × Fin nx) :
    cshift (z * ny) (w * nx) a p = a p := by
  have := cshift_int (z * ny) (w * nx) a p
  push_cast at this
  rw [this]
  unfold Spec.roll2
  have : ∀ (n : ℕ) [NeZero n] (i : Fin n) (z : ℤ), Spec.wrap n (((i : ℕ) : ℤ) - z * n) = i := by
    intro n _ i z
    rw [Spec.wrap_eq_iff]
    exact (Int.modEq_iff_dvd.2 ⟨z, by ring⟩)
  rw [this, this]

/-- the chi-squared map at whole-pixel lags is the residual -/
theorem chi2_eq_resid (a b : Fin ny × Fin nx → ℝ) (s : ℝ) (dy dx : ℤ) :
    Spec.chi2 a b (fun _ => s) dy dx = Spec.resid a b s (-dy : ℤ) (-dx : ℤ) := by
  unfold Spec.chi2 Spec.resid
  refine Finset.sum_congr rfl fun p _ => ?_
  rw [cshift_int, ← Complex.ofReal_sub, Complex.norm_real, Real.norm_eq_abs, sq_abs]
  unfold Spec.roll2 Spec.move
  simp only [sub_neg_eq_add]

theorem Spec.roll2_eq_cshift (a : Fin ny × Fin nx → ℝ) (dy dx : ℤ) (p : Fin ny × Fin nx) :
    ((Spec.roll2 dy dx a p : ℝ) : ℂ) = cshift dy dx a p := (cshift_int dy dx a p).symm

/-! ### mean subtraction -/

theorem Spec.roll2_sum (dy dx : ℤ) (a : Fin ny × Fin nx → ℝ) :
    ∑ p, Spec.roll2 dy dx a p = ∑ p, a p := by
  rw [← Spec.sum_move dy dx]
  exact Finset.sum_congr rfl fun p _ => Spec.roll2_move dy dx a p

/-- mean of a real image -/
noncomputable def Spec.mean (a : Fin ny × Fin nx → ℝ) : ℝ := (∑ p, a p) / (ny * nx : ℕ)

theorem prep_real (zm : Bool) (a : Fin ny × Fin nx → ℝ) :
    prep zm (realArr a) = fun p => a p - (if zm then Spec.mean a else 0) := by
  rw [prep_def]
  cases zm with
  | false => funext p; simp [Spec.nan0, realArr]
  | true =>
    have hm : nanMean (realArr a) = some (Spec.mean a) := by
      unfold nanMean Spec.mean
      simp [realArr, NeZero.ne ny, NeZero.ne nx]
    funext p
    simp [hm, subPix, realArr, Spec.nan0]

theorem dft_sub_const (a : Fin ny × Fin nx → ℝ) (c : ℝ) (k : Fin ny × Fin nx) (hk : k ≠ 0) :
    dft (fun p => ((a p - c : ℝ) : ℂ)) k = dft (fun p => (a p : ℂ)) k := by
  have : (fun p => ((a p - c : ℝ) : ℂ)) = fun p => (a p : ℂ) + (-c : ℂ) * 1 := by
    funext p; push_cast; ring
  rw [this, dft_add]
  simp only
  rw [dft_smul]
  simp only
  have h0 : dft (fun _ : Fin ny × Fin nx => (1 : ℂ)) k = 0 := by
    unfold dft
    simp only [one_mul]
    rw [← map_sum, e_orth_right, if_neg hk, map_zero]
  rw [h0]; simp

end

end ImgReg
