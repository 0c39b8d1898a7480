import Verif.Lemmas.IterZoom
import Verif.Lemmas.InexactZoom
import Verif.Props.Noise

/-!
# The Lipschitz constant of the Fourier interpolant, and runs of the loop of `iterative_zoom`
-/

open Complex Finset

namespace ImgReg

/-- how much the pixels of an image differ from `c`: `sqrt(Σ (x - c)²)` -/
noncomputable def spreadAbout {ι : Type} [Fintype ι] (x : ι → ℝ) (c : ℝ) : ℝ := Real.sqrt (∑ i, (x i - c) ^ 2)

theorem sum_norm_idft_le {ι : Type} [Fintype ι] [AddCommGroup ι] [DecidableEq ι] [FFTIndex ι] (y : ι → ℂ) :
    ∑ k, ‖idft y k‖ ≤ l2 y := by
  have h := sum_norm_le_l2 (idft y)
  have e := l2_idft_eq y
  linarith

section two
variable {ny nx : ℕ} [NeZero ny] [NeZero nx]

theorem interp2C_lip (y : Fin ny × Fin nx → ℂ) (s t s' t' : ℝ) :
    ‖interp2C y s t - interp2C y s' t'‖ ≤ Real.pi * l2 y * (|s - s'| + |t - t'|) := by
  unfold interp2C
  rw [← Finset.sum_sub_distrib]
  refine (norm_sum_le _ _).trans ?_
  have hk : ∀ k : Fin ny × Fin nx, ‖idft y k * ex (-(Np.fftfreq ny k.1 * s)) * ex (-(Np.fftfreq nx k.2 * t))
      - idft y k * ex (-(Np.fftfreq ny k.1 * s')) * ex (-(Np.fftfreq nx k.2 * t'))‖
      ≤ ‖idft y k‖ * (Real.pi * (|s - s'| + |t - t'|)) := by
    intro k
    rw [mul_assoc, mul_assoc, ← mul_sub, norm_mul, ← ex_add, ← ex_add]
    refine mul_le_mul_of_nonneg_left ?_ (norm_nonneg _)
    refine (norm_ex_sub_ex _ _).trans ?_
    rw [show -(Np.fftfreq ny k.1 * s) + -(Np.fftfreq nx k.2 * t) - (-(Np.fftfreq ny k.1 * s') + -(Np.fftfreq nx k.2 * t'))
      = -(Np.fftfreq ny k.1 * (s - s') + Np.fftfreq nx k.2 * (t - t')) by ring, abs_neg]
    have h := abs_add_le (Np.fftfreq ny k.1 * (s - s')) (Np.fftfreq nx k.2 * (t - t'))
    rw [abs_mul, abs_mul] at h
    have h1 := mul_le_mul_of_nonneg_right (abs_fftfreq_le ny k.1) (abs_nonneg (s - s'))
    have h2 := mul_le_mul_of_nonneg_right (abs_fftfreq_le nx k.2) (abs_nonneg (t - t'))
    have h3 : |Np.fftfreq ny k.1 * (s - s') + Np.fftfreq nx k.2 * (t - t')| ≤ 1 / 2 * (|s - s'| + |t - t'|) := by linarith
    have := mul_le_mul_of_nonneg_left h3 (by positivity : (0 : ℝ) ≤ 2 * Real.pi)
    linarith
  refine (Finset.sum_le_sum fun k _ => hk k).trans ?_
  rw [← Finset.sum_mul]
  have := mul_le_mul_of_nonneg_right (sum_norm_idft_le y)
    (by have := Real.pi_pos; positivity : (0 : ℝ) ≤ Real.pi * (|s - s'| + |t - t'|))
  linarith

theorem interp2C_lip_real (x : Fin ny × Fin nx → ℝ) (c : ℝ) (s t s' t' : ℝ) :
    |(interp2C (fun j => (x j : ℂ)) s t).re - (interp2C (fun j => (x j : ℂ)) s' t').re|
      ≤ Real.pi * spreadAbout x c * (|s - s'| + |t - t'|) := by
  have e : ∀ a b : ℝ, interp2C (fun j => (x j : ℂ)) a b = interp2C (fun j => ((x j - c : ℝ) : ℂ)) a b + c := by
    intro a b
    have := interp2C_add (fun j : Fin ny × Fin nx => ((x j - c : ℝ) : ℂ)) (fun _ => (c : ℂ)) a b
    rw [interp2C_const] at this
    rw [← this]
    congr 1
    funext j
    push_cast
    ring
  rw [← Complex.sub_re, e, e, add_sub_add_right_eq_sub]
  refine (Complex.abs_re_le_norm _).trans ((interp2C_lip _ _ _ _ _).trans (le_of_eq ?_))
  rw [l2_real]
  rfl

/-- the values in a zoomed view differ by at most `π·‖x - c‖·(m+l-2)/zf` -/
theorem gridView_spread_le (x : Fin ny × Fin nx → ℝ) (b : ℝ) (m l : ℕ) [NeZero m] [NeZero l] (c : ℝ × ℝ) (zf : ℝ) (hzf : 0 < zf)
    (i j : Fin m × Fin l) : |(gridView x m l c zf).data i - (gridView x m l c zf).data j|
      ≤ Real.pi * spreadAbout x b * ((m : ℝ) - 1 + ((l : ℝ) - 1)) / zf := by
  refine (interp2C_lip_real x b _ _ _ _).trans ?_
  rw [mul_div_assoc, add_div]
  refine mul_le_mul_of_nonneg_left ?_ (mul_nonneg Real.pi_pos.le (Real.sqrt_nonneg _))
  exact add_le_add (grid_spread _ _ hzf _ _ _) (grid_spread _ _ hzf _ _ _)

end two

section one
variable {n : ℕ} [NeZero n]

theorem interpC_const' (c : ℂ) (t : ℝ) : interpC (fun _ : Fin n => c) t = c := by
  have h := interpC_exp (n := n) 0 (by simpa using Nat.pos_of_neZero n) t
  have := interpC_smul (n := n) (fun j : Fin n => ex (((0 : ℤ) : ℝ) * ((j : ℕ) : ℝ) / n)) c t
  rw [h] at this
  simpa [ex] using this

theorem interpC_lip (y : Fin n → ℂ) (s s' : ℝ) : ‖interpC y s - interpC y s'‖ ≤ Real.pi * l2 y * |s - s'| := by
  unfold interpC
  rw [← Finset.sum_sub_distrib]
  refine (norm_sum_le _ _).trans ?_
  have hk : ∀ k : Fin n, ‖idft y k * ex (-(Np.fftfreq n k * s)) - idft y k * ex (-(Np.fftfreq n k * s'))‖
      ≤ ‖idft y k‖ * (Real.pi * |s - s'|) := by
    intro k
    rw [← mul_sub, norm_mul]
    refine mul_le_mul_of_nonneg_left ?_ (norm_nonneg _)
    refine (norm_ex_sub_ex _ _).trans ?_
    rw [show -(Np.fftfreq n k * s) - -(Np.fftfreq n k * s') = -(Np.fftfreq n k * (s - s')) by ring, abs_neg, abs_mul]
    have h1 := mul_le_mul_of_nonneg_right (abs_fftfreq_le n k) (abs_nonneg (s - s'))
    have := mul_le_mul_of_nonneg_left h1 (by positivity : (0 : ℝ) ≤ 2 * Real.pi)
    linarith
  refine (Finset.sum_le_sum fun k _ => hk k).trans ?_
  rw [← Finset.sum_mul]
  have := mul_le_mul_of_nonneg_right (sum_norm_idft_le y) (by have := Real.pi_pos; positivity : (0 : ℝ) ≤ Real.pi * |s - s'|)
  linarith

theorem gridView1_spread_le (x : Fin n → ℝ) (b : ℝ) (l : ℕ) [NeZero l] (c : ℝ × ℝ) (zf : ℝ) (hzf : 0 < zf)
    (i j : Fin 1 × Fin l) : |(gridView1 x l c zf).data i - (gridView1 x l c zf).data j|
      ≤ Real.pi * spreadAbout x b * ((l : ℝ) - 1) / zf := by
  have e : ∀ a : ℝ, interpC (fun j => (x j : ℂ)) a = interpC (fun j => ((x j - b : ℝ) : ℂ)) a + b := by
    intro a
    have := interpC_add (fun j : Fin n => ((x j - b : ℝ) : ℂ)) (fun _ => (b : ℂ)) a
    rw [interpC_const'] at this
    rw [← this]
    congr 1
    funext j
    push_cast
    ring
  change |(interpC (fun j => (x j : ℂ)) _).re - (interpC (fun j => (x j : ℂ)) _).re| ≤ _
  rw [← Complex.sub_re, e, e, add_sub_add_right_eq_sub]
  refine (Complex.abs_re_le_norm _).trans ((interpC_lip _ _ _).trans ?_)
  rw [mul_div_assoc, l2_ofReal]
  exact mul_le_mul_of_nonneg_left (grid_spread _ _ hzf _ _ _) (mul_nonneg Real.pi_pos.le (Real.sqrt_nonneg _))

end one

/-! ### the number of iterations -/

/-- If the body of the loop keeps the invariant `P k` (`k` = number of runs so far) and after `K` runs the differences are at most `mindiff`,
the loop ends after at most `K` runs. -/
theorem zoomLoop_within {zoomOn : ℝ × ℝ → ℝ → Py ZoomView} {mid : ℝ × ℝ} {mm : MinMax} {step mindiff : ℝ}
    (P : ℕ → ZoomState → Prop) (hP : ∀ k s s', P k s → zoomStep zoomOn mid mm step s = .ok s' → P (k + 1) s') (K : ℕ)
    (hK : ∀ s, P K s → ∀ i, |s.view.delta mm i| ≤ mindiff) (j k : ℕ) (hj : k + j = K) (s : ZoomState) (hs : P k s) :
    ∃ r, zoomLoop zoomOn mid mm step mindiff (j + 1) s = some r ∧ ∀ s', r = .ok s' → ∃ k', k ≤ k' ∧ k' ≤ K ∧ P k' s' := by
  classical
  induction j generalizing k s with
  | zero =>
    unfold zoomLoop
    cases hd : s.view.minDelta mm with
    | none => exact ⟨_, rfl, fun s' h => by cases h⟩
    | some d =>
      have hle : ¬ d > mindiff := by
        obtain ⟨⟨i, -, rfl⟩, -⟩ := ZoomView.minDelta_some hd
        exact not_lt.2 (hK s (by rw [← hj]; exact hs) i)
      simp only [hle, if_false]
      exact ⟨_, rfl, fun s' h => ⟨k, le_rfl, by omega, by cases h; exact hs⟩⟩
  | succ j ih =>
    rw [zoomLoop]
    cases hd : s.view.minDelta mm with
    | none => exact ⟨_, rfl, fun s' h => by cases h⟩
    | some d =>
      by_cases hgt : d > mindiff
      · simp only [hgt, if_true]
        cases hst : zoomStep zoomOn mid mm step s with
        | error e => exact ⟨_, rfl, fun s' h => by cases h⟩
        | ok s1 =>
          have h1 := hP k s s1 hs hst
          by_cases hall : ∀ i, s1.view.delta mm i = 0
          · simp only [hall, implies_true, if_true]
            exact ⟨_, rfl, fun s' h => ⟨k + 1, by omega, by omega, by cases h; exact h1⟩⟩
          · simp only [hall, if_false]
            obtain ⟨r, hr, h2⟩ := ih (k + 1) (by omega) s1 h1
            refine ⟨r, hr, fun s' h => ?_⟩
            obtain ⟨k', a, b, c⟩ := h2 s' h
            exact ⟨k', by omega, b, c⟩
      · simp only [hgt, if_false]
        exact ⟨_, rfl, fun s' h => ⟨k, le_rfl, by omega, by cases h; exact hs⟩⟩

theorem zoomStep_view {zoomOn : ℝ × ℝ → ℝ → Py ZoomView} {mid : ℝ × ℝ} {mm : MinMax} {step : ℝ} {s s' : ZoomState}
    (h : zoomStep zoomOn mid mm step s = .ok s') :
    zoomOn (s.view.ext mm) (s.zf * step) = .ok s'.view ∧ s'.zf = s.zf * step := by
  unfold zoomStep at h
  simp only [bind, Except.bind] at h
  split at h
  · simp at h
  · rename_i v hv
    simp only [pure, Except.pure, Except.ok.injEq] at h
    subst h
    exact ⟨hv, rfl⟩

theorem zoomFinish_zoomed {coords : ℝ × ℝ → List ℝ} {rz rc : Bool} {s : ZoomState} {v : ZoomView} {zf : ℝ} {out : List ℝ}
    (h : zoomFinish coords rz rc s = .ok (.zoomed v zf out)) : rz = true ∧ v = s.view ∧ zf = s.zf := by
  unfold zoomFinish at h
  cases rc with
  | false => cases rz <;> simp [bind, Except.bind, pure, Except.pure] at h ⊢; exact ⟨h.1.symm, h.2.1.symm⟩
  | true =>
    cases hc : s.center with
    | none => simp [bind, Except.bind, hc] at h
    | some c => cases rz <;> simp [bind, Except.bind, pure, Except.pure, hc] at h ⊢; exact ⟨h.1.symm, h.2.1.symm⟩

end ImgReg
