import Verif.Model.IterZoom
import Verif.Lemmas.Zoom
import Mathlib.Analysis.SpecialFunctions.Trigonometric.Bounds

/-! # Lemmas about `iterative_zoom` -/

open Complex Finset

namespace ImgReg

/-! ### the value sought, its distance to the rest -/

/-- `p` is the first (C order) position of the minimum / maximum of `f` -/
def Spec.IsFirstExt (mm : MinMax) {m n : ℕ} (f : Fin m × Fin n → ℝ) (p : Fin m × Fin n) : Prop :=
  match mm with
  | .min => Np.IsFirstMin f p
  | .max => Np.IsFirstMax f p

theorem ZoomView.pos_spec (v : ZoomView) (mm : MinMax) : Spec.IsFirstExt mm v.data (v.pos mm) := by
  have := v.hm
  have := v.hn
  cases mm
  · exact Np.argmin_spec v.data
  · exact Np.argmax_spec v.data

theorem ZoomView.pos_eq (v : ZoomView) (mm : MinMax) {p : Fin v.m × Fin v.n}
    (h : Spec.IsFirstExt mm v.data p) : v.pos mm = p := by
  have := v.hm
  have := v.hn
  cases mm
  · exact Np.argmin_eq h
  · exact Np.argmax_eq h

theorem ZoomView.minDelta_none {v : ZoomView} {mm : MinMax} :
    v.minDelta mm = none ↔ ∀ i, v.delta mm i = 0 := by
  classical
  unfold ZoomView.minDelta
  simp only [dite_eq_right_iff, reduceCtorEq, imp_false, Finset.not_nonempty_iff_eq_empty,
    Finset.filter_eq_empty_iff, Finset.mem_univ, forall_const, not_lt, abs_nonpos_iff, gt_iff_lt]

theorem ZoomView.minDelta_some {v : ZoomView} {mm : MinMax} {d : ℝ} (h : v.minDelta mm = some d) :
    (∃ i, 0 < |v.delta mm i| ∧ |v.delta mm i| = d) ∧ ∀ i, 0 < |v.delta mm i| → d ≤ |v.delta mm i| := by
  classical
  unfold ZoomView.minDelta at h
  simp only [Option.dite_none_right_eq_some, Option.some.injEq] at h
  obtain ⟨hne, h⟩ := h
  subst h
  constructor
  · obtain ⟨i, hi, he⟩ := Finset.exists_mem_eq_inf' hne fun i => |v.delta mm i|
    simp only [Finset.mem_filter, Finset.mem_univ, true_and, gt_iff_lt] at hi
    exact ⟨i, hi, he.symm⟩
  · intro i hi
    exact Finset.inf'_le _ (by simpa using hi)

/-! ### the sequence of views -/

section seq
variable (G : ℝ × ℝ → ℝ → ZoomView) (v0 : ZoomView) (mm : MinMax) (step : ℝ)

/-- coordinates of the extremum of a view -/
noncomputable def ZoomView.ext (v : ZoomView) (mm : MinMax) : ℝ × ℝ := (v.yax (v.pos mm), v.xax (v.pos mm))

/-- The views: the image itself, then zooms by `step`, `step²`, … on the extremum of the previous view. -/
noncomputable def zoomViews : ℕ → ZoomView
  | 0 => v0
  | k + 1 => G ((zoomViews k).ext mm) (step ^ (k + 1))

/-- the local variables after `k` runs of the loop body -/
noncomputable def zoomStates (mid : ℝ × ℝ) : ℕ → ZoomState
  | 0 => ⟨v0, 1, none, (0, 0)⟩
  | k + 1 => ⟨zoomViews G v0 mm step (k + 1), step ^ (k + 1), some ((zoomViews G v0 mm step k).ext mm),
      (((zoomViews G v0 mm step k).ext mm).1 - mid.1, ((zoomViews G v0 mm step k).ext mm).2 - mid.2)⟩

theorem zoomStates_view (mid : ℝ × ℝ) (k : ℕ) :
    (zoomStates G v0 mm step mid k).view = zoomViews G v0 mm step k := by
  cases k <;> rfl

theorem zoomStates_zf (mid : ℝ × ℝ) (k : ℕ) : (zoomStates G v0 mm step mid k).zf = step ^ k := by
  cases k <;> simp [zoomStates]

/-- the loop goes on while the view is not flat and its smallest nonzero difference exceeds `mindiff` -/
def ZoomView.Goes (v : ZoomView) (mm : MinMax) (mindiff : ℝ) : Prop :=
  (∃ i, v.delta mm i ≠ 0) ∧ ∀ i, v.delta mm i ≠ 0 → mindiff < |v.delta mm i|

theorem ZoomView.goes_iff {v : ZoomView} {mm : MinMax} {mindiff : ℝ} :
    v.Goes mm mindiff ↔ ∃ d, v.minDelta mm = some d ∧ mindiff < d := by
  constructor
  · rintro ⟨⟨i, hi⟩, h⟩
    cases hd : v.minDelta mm with
    | none => exact absurd (ZoomView.minDelta_none.1 hd i) hi
    | some d =>
      obtain ⟨⟨j, hj, rfl⟩, -⟩ := ZoomView.minDelta_some hd
      exact ⟨_, rfl, h j (abs_pos.1 hj)⟩
  · rintro ⟨d, hd, h⟩
    obtain ⟨⟨j, hj, rfl⟩, h2⟩ := ZoomView.minDelta_some hd
    exact ⟨⟨j, abs_pos.1 hj⟩, fun i hi => h.trans_le (h2 i (abs_pos.2 hi))⟩

variable {G mm step}

theorem zoomStep_ok {zoomOn : ℝ × ℝ → ℝ → Py ZoomView} (hz : ∀ c zf v, zoomOn c zf = .ok v → v = G c zf)
    {mid : ℝ × ℝ} {k : ℕ} {s' : ZoomState}
    (h : zoomStep zoomOn mid mm step (zoomStates G v0 mm step mid k) = .ok s') :
    s' = zoomStates G v0 mm step mid (k + 1) := by
  unfold zoomStep at h
  simp only [zoomStates_zf, bind, Except.bind] at h
  split at h
  · simp at h
  · rename_i v hv
    have := hz _ _ _ hv
    subst this
    simp only [pure, Except.pure, Except.ok.injEq] at h
    subst h
    cases k <;> simp [zoomStates, zoomViews, ZoomView.ext, pow_succ]

/-- What the loop computes: the state after some number `k` of runs of the body, where the loop condition
has held before every one of them and fails (or the view is flat) after the last. -/
theorem zoomLoop_ok {zoomOn : ℝ × ℝ → ℝ → Py ZoomView} (hz : ∀ c zf v, zoomOn c zf = .ok v → v = G c zf)
    {mid : ℝ × ℝ} {mindiff : ℝ} (fuel : ℕ) {k : ℕ} {s' : ZoomState}
    (h : zoomLoop zoomOn mid mm step mindiff fuel (zoomStates G v0 mm step mid k) = some (.ok s')) :
    ∃ k', k ≤ k' ∧ s' = zoomStates G v0 mm step mid k' ∧
      ¬ (zoomViews G v0 mm step k').Goes mm mindiff ∧
      (k = k' → ∃ i, (zoomViews G v0 mm step k').delta mm i ≠ 0) ∧
      ∀ j, k ≤ j → j < k' → (zoomViews G v0 mm step j).Goes mm mindiff := by
  classical
  induction fuel generalizing k with
  | zero => simp [zoomLoop] at h
  | succ fuel ih =>
    unfold zoomLoop at h
    simp only [zoomStates_view] at h
    cases hd : (zoomViews G v0 mm step k).minDelta mm with
    | none => simp [hd] at h
    | some d =>
      simp only [hd] at h
      by_cases hgt : d > mindiff
      · have hgo : (zoomViews G v0 mm step k).Goes mm mindiff := ZoomView.goes_iff.2 ⟨d, hd, hgt⟩
        simp only [hgt, if_true] at h
        cases hs : zoomStep zoomOn mid mm step (zoomStates G v0 mm step mid k) with
        | error e => simp [hs] at h
        | ok s1 =>
          simp only [hs] at h
          have := zoomStep_ok v0 hz hs
          subst this
          by_cases hall : ∀ i, (zoomStates G v0 mm step mid (k + 1)).view.delta mm i = 0
          · simp only [hall, implies_true, if_true, Option.some.injEq, Except.ok.injEq] at h
            refine ⟨k + 1, by omega, h.symm, ?_, by omega, ?_⟩
            · rintro ⟨⟨i, hi⟩, -⟩
              exact hi (hall i)
            · intro j h1 h2
              obtain rfl : j = k := by omega
              exact hgo
          · rw [if_neg hall] at h
            obtain ⟨k', h1, h2, h3, h4, h5⟩ := ih h
            refine ⟨k', by omega, h2, h3, by omega, fun j hj hj' => ?_⟩
            rcases Nat.eq_or_lt_of_le hj with rfl | hlt
            · exact hgo
            · exact h5 j hlt hj'
      · simp only [hgt, if_false, Option.some.injEq, Except.ok.injEq] at h
        refine ⟨k, le_rfl, h.symm, ?_, fun _ => ?_, by omega⟩
        · rw [ZoomView.goes_iff]
          rintro ⟨d', hd', h'⟩
          rw [hd] at hd'
          simp only [Option.some.injEq] at hd'
          subst hd'
          exact hgt h'
        · obtain ⟨⟨j, hj, -⟩, -⟩ := ZoomView.minDelta_some hd
          exact ⟨j, abs_pos.1 hj⟩

end seq

/-- The answer does not depend on the fuel. -/
theorem zoomLoop_mono {zoomOn : ℝ × ℝ → ℝ → Py ZoomView} {mid : ℝ × ℝ} {mm : MinMax} {step mindiff : ℝ}
    (fuel : ℕ) (s : ZoomState) (r : Py ZoomState)
    (h : zoomLoop zoomOn mid mm step mindiff fuel s = some r) (fuel' : ℕ) (hf : fuel ≤ fuel') :
    zoomLoop zoomOn mid mm step mindiff fuel' s = some r := by
  classical
  induction fuel generalizing s fuel' with
  | zero => simp [zoomLoop] at h
  | succ fuel ih =>
    obtain ⟨f', rfl⟩ : ∃ f', fuel' = f' + 1 := ⟨fuel' - 1, by omega⟩
    unfold zoomLoop at h ⊢
    cases hd : s.view.minDelta mm with
    | none => simpa [hd] using h
    | some d =>
      simp only [hd] at h ⊢
      by_cases hgt : d > mindiff
      · simp only [hgt, if_true] at h ⊢
        cases hs : zoomStep zoomOn mid mm step s with
        | error e => simpa [hs] using h
        | ok s1 =>
          simp only [hs] at h ⊢
          by_cases hall : ∀ i, s1.view.delta mm i = 0
          · rw [if_pos hall] at h ⊢
            exact h
          · rw [if_neg hall] at h ⊢
            exact ih s1 h f' (by omega)
      · simpa [hgt] using h

/-- Termination: if the views flatten like `B / zf`, the loop stops. -/
theorem zoomLoop_terminates {zoomOn : ℝ × ℝ → ℝ → Py ZoomView} {mid : ℝ × ℝ} {mm : MinMax}
    {step mindiff B : ℝ} (hstep : 1 ≤ step) (hmd : 0 < mindiff)
    (hB : ∀ c zf v, 0 < zf → zoomOn c zf = .ok v → ∀ i j, |v.data i - v.data j| ≤ B / zf)
    (k : ℕ) (s : ZoomState) (hzf : 0 < s.zf) (hk : B ≤ mindiff * (s.zf * step ^ k)) :
    zoomLoop zoomOn mid mm step mindiff (k + 2) s ≠ none := by
  classical
  induction k generalizing s with
  | zero =>
    unfold zoomLoop
    cases hd : s.view.minDelta mm with
    | none => simp
    | some d =>
      by_cases hgt : d > mindiff
      · simp only [hgt, if_true]
        cases hs : zoomStep zoomOn mid mm step s with
        | error e => simp
        | ok s1 =>
          by_cases hall : ∀ i, s1.view.delta mm i = 0
          · simp [hall]
          · simp only [hall, if_false]
            unfold zoomLoop
            cases hd1 : s1.view.minDelta mm with
            | none => simp
            | some d1 =>
              have hle : ¬ d1 > mindiff := by
                obtain ⟨⟨i, -, rfl⟩, -⟩ := ZoomView.minDelta_some hd1
                unfold zoomStep at hs
                simp only [bind, Except.bind] at hs
                split at hs
                · simp at hs
                · rename_i v hv
                  simp only [pure, Except.pure, Except.ok.injEq] at hs
                  subst hs
                  have hp : 0 < s.zf * step := by positivity
                  have := hB _ _ _ hp hv i (v.pos mm)
                  rw [not_lt]
                  refine this.trans ?_
                  rw [div_le_iff₀ hp]
                  refine hk.trans ?_
                  gcongr
                  simpa using hstep
              simp [hle]
      · simp [hgt]
  | succ k ih =>
    rw [show k + 1 + 2 = (k + 2) + 1 by omega, zoomLoop]
    cases hd : s.view.minDelta mm with
    | none => simp
    | some d =>
      by_cases hgt : d > mindiff
      · simp only [hgt, if_true]
        cases hs : zoomStep zoomOn mid mm step s with
        | error e => simp
        | ok s1 =>
          by_cases hall : ∀ i, s1.view.delta mm i = 0
          · simp [hall]
          · simp only [hall, if_false]
            have hz1 : s1.zf = s.zf * step := by
              unfold zoomStep at hs
              simp only [bind, Except.bind] at hs
              split at hs
              · simp at hs
              · simp only [pure, Except.pure, Except.ok.injEq] at hs
                subst hs
                rfl
            apply ih
            · rw [hz1]; positivity
            · rw [hz1, mul_assoc, ← pow_succ']; exact hk
      · simp [hgt]

/-- No error comes from the loop when zooming always succeeds and the first view is not flat. -/
theorem zoomLoop_no_error {zoomOn : ℝ × ℝ → ℝ → Py ZoomView} {mid : ℝ × ℝ} {mm : MinMax}
    {step mindiff : ℝ} (hstep : 0 < step) (hz : ∀ c zf, 0 < zf → ∃ v, zoomOn c zf = .ok v)
    (fuel : ℕ) (s : ZoomState) (hzf : 0 < s.zf) (hs : ∃ i, s.view.delta mm i ≠ 0) (e : PyErr) :
    zoomLoop zoomOn mid mm step mindiff fuel s ≠ some (.error e) := by
  classical
  induction fuel generalizing s with
  | zero => simp [zoomLoop]
  | succ fuel ih =>
    unfold zoomLoop
    cases hd : s.view.minDelta mm with
    | none =>
      obtain ⟨i, hi⟩ := hs
      exact absurd (ZoomView.minDelta_none.1 hd i) hi
    | some d =>
      by_cases hgt : d > mindiff
      · simp only [hgt, if_true]
        obtain ⟨v, hv⟩ := hz (s.view.yax (s.view.pos mm), s.view.xax (s.view.pos mm)) (s.zf * step) (by positivity)
        have : zoomStep zoomOn mid mm step s = .ok ⟨v, s.zf * step,
            some (s.view.yax (s.view.pos mm), s.view.xax (s.view.pos mm)),
            (s.view.yax (s.view.pos mm) - mid.1, s.view.xax (s.view.pos mm) - mid.2)⟩ := by
          unfold zoomStep
          simp only [hv, bind, Except.bind]
          rfl
        simp only [this]
        by_cases hall : ∀ i, v.delta mm i = 0
        · simp [hall]
        · simp only [hall, if_false]
          push Not at hall
          exact ih _ (by positivity) hall
      · simp [hgt]

/-! ### the zoomed views -/

section two
variable {ny nx : ℕ} [NeZero ny] [NeZero nx]

/-- the image itself with its pixel indices -/
noncomputable def imageView (x : Fin ny × Fin nx → ℝ) : ZoomView :=
  ⟨ny, nx, inferInstance, inferInstance, x, fun i => ((i.1 : ℕ) : ℝ), fun i => ((i.2 : ℕ) : ℝ)⟩

/-- the Fourier interpolant of the image on a grid of `m × l` points spaced by `1/zf` around `c` -/
noncomputable def gridView (x : Fin ny × Fin nx → ℝ) (m l : ℕ) [hm : NeZero m] [hl : NeZero l]
    (c : ℝ × ℝ) (zf : ℝ) : ZoomView :=
  ⟨m, l, hm, hl,
    fun i => (interp2C (fun j => (x j : ℂ)) (Spec.zoomGrid c.1 zf m i.1) (Spec.zoomGrid c.2 zf l i.2)).re,
    fun i => Spec.zoomGrid c.1 zf m i.1, fun i => Spec.zoomGrid c.2 zf l i.2⟩

theorem zoomOn2_eq (cfg : FFTConfig) (x : Fin ny × Fin nx → ℝ) (m l : ℕ) [NeZero m] [NeZero l]
    (c : ℝ × ℝ) (zf : ℝ) (hzf : zf ≠ 0) :
    (zoomOnPixel2 cfg (rArr x) [c.1, c.2] zf (some (m, l)) true true >>= viewOf2)
      = .ok (gridView x m l c zf) := by
  obtain ⟨cube, hs, hv, he⟩ := zoomOnPixel2_eq cfg (fun j => (x j : ℂ)) [c.1, c.2] zf hzf (some (m, l)) m l rfl
    (Nat.pos_of_neZero m) (Nat.pos_of_neZero l) true true
  rw [rArr_eq_cArr, he]
  simp only [List.getElem?_cons_zero, List.getElem?_cons_succ, zoomAxis_some] at hv ⊢
  simp only [zoomReturn, if_true, bind, Except.bind, viewOf2, retReal, NeZero.ne, ne_eq, not_false_eq_true,
    and_self, dif_pos, hv, gridView]
  rfl

theorem zoomOn2_zero (cfg : FFTConfig) (x : Fin ny × Fin nx → CPix) (m l : ℕ) (c : ℝ × ℝ) :
    (zoomOnPixel2 cfg x [c.1, c.2] 0 (some (m, l)) true true >>= viewOf2) = .error .zeroDivisionError := by
  simp [zoomOnPixel2, bind, Except.bind]

end two

section one
variable {n : ℕ} [NeZero n]

noncomputable def imageView1 (x : Fin n → ℝ) : ZoomView :=
  ⟨1, n, ⟨one_ne_zero⟩, inferInstance, fun i => x i.2, fun _ => 0, fun i => ((i.2 : ℕ) : ℝ)⟩

noncomputable def gridView1 (x : Fin n → ℝ) (l : ℕ) [hl : NeZero l] (c : ℝ × ℝ) (zf : ℝ) : ZoomView :=
  ⟨1, l, ⟨one_ne_zero⟩, hl, fun i => (interpC (fun j => (x j : ℂ)) (Spec.zoomGrid c.2 zf l i.2)).re,
    fun _ => 0, fun i => Spec.zoomGrid c.2 zf l i.2⟩

theorem zoomOn1_eq (cfg : FFTConfig) (x : Fin n → ℝ) (l : ℕ) [NeZero l] (hl : l ≠ 1)
    (c : ℝ × ℝ) (zf : ℝ) (hzf : zf ≠ 0) :
    (zoomOnPixel1 cfg (rArr x) [c.2] zf (some l) true true >>= viewOf1) = .ok (gridView1 x l c zf) := by
  obtain ⟨cube, hs, hv, he⟩ := zoomOnPixel1_eq cfg (fun j => (x j : ℂ)) [c.2] zf hzf (some l) hl true true
  rw [rArr_eq_cArr, he]
  simp only [Option.getD_some, List.getElem?_cons_zero, zoomAxis_some] at hv ⊢
  simp only [zoomReturn, if_true, bind, Except.bind, viewOf1, retReal, NeZero.ne, ne_eq, not_false_eq_true,
    dif_pos, hv, gridView1]
  rfl

theorem zoomOn1_zero (cfg : FFTConfig) (x : Fin n → CPix) (l : ℕ) (c : ℝ × ℝ) :
    (zoomOnPixel1 cfg x [c.2] 0 (some l) true true >>= viewOf1) = .error .zeroDivisionError := by
  simp [zoomOnPixel1, bind, Except.bind]

end one

/-! ### the interpolant is Lipschitz -/

theorem norm_ex_sub_ex (s t : ℝ) : ‖ex s - ex t‖ ≤ 2 * Real.pi * |s - t| := by
  have h : ex s - ex t = ex t * (Complex.exp (I * ((2 * Real.pi * (s - t) : ℝ) : ℂ)) - 1) := by
    rw [mul_sub, mul_one, sub_left_inj]
    unfold ex
    rw [← Complex.exp_add]
    congr 1
    push_cast
    ring
  rw [h, norm_mul, norm_ex, one_mul]
  refine Real.norm_exp_I_mul_ofReal_sub_one_le.trans ?_
  rw [Real.norm_eq_abs, abs_mul, abs_of_pos (by positivity)]

theorem interpC_lipschitz {n : ℕ} [NeZero n] (x : Fin n → ℂ) :
    ∃ L : ℝ, 0 ≤ L ∧ ∀ s t : ℝ, |(interpC x s).re - (interpC x t).re| ≤ L * |s - t| := by
  refine ⟨∑ k, ‖idft x k‖ * (2 * Real.pi * |Np.fftfreq n k|), by positivity, fun s t => ?_⟩
  rw [← Complex.sub_re]
  refine (Complex.abs_re_le_norm _).trans ?_
  unfold interpC
  rw [← Finset.sum_sub_distrib, Finset.sum_mul]
  refine (norm_sum_le _ _).trans (Finset.sum_le_sum fun k _ => ?_)
  rw [← mul_sub, norm_mul, mul_assoc]
  refine mul_le_mul_of_nonneg_left ?_ (norm_nonneg _)
  refine (norm_ex_sub_ex _ _).trans (le_of_eq ?_)
  rw [show -(Np.fftfreq n k * s) - -(Np.fftfreq n k * t) = -(Np.fftfreq n k * (s - t)) by ring, abs_neg,
    abs_mul]
  ring

theorem interp2C_lipschitz {ny nx : ℕ} [NeZero ny] [NeZero nx] (x : Fin ny × Fin nx → ℂ) :
    ∃ L : ℝ, 0 ≤ L ∧ ∀ s t s' t' : ℝ,
      |(interp2C x s t).re - (interp2C x s' t').re| ≤ L * (|s - s'| + |t - t'|) := by
  refine ⟨∑ k : Fin ny × Fin nx, ‖idft x k‖ * (2 * Real.pi * (|Np.fftfreq ny k.1| + |Np.fftfreq nx k.2|)),
    by positivity, fun s t s' t' => ?_⟩
  rw [← Complex.sub_re]
  refine (Complex.abs_re_le_norm _).trans ?_
  unfold interp2C
  rw [← Finset.sum_sub_distrib, Finset.sum_mul]
  refine (norm_sum_le _ _).trans (Finset.sum_le_sum fun k _ => ?_)
  rw [mul_assoc, mul_assoc, ← mul_sub, norm_mul, mul_assoc, ← ex_add, ← ex_add]
  refine mul_le_mul_of_nonneg_left ?_ (norm_nonneg _)
  refine (norm_ex_sub_ex _ _).trans ?_
  rw [mul_assoc (2 * Real.pi)]
  refine mul_le_mul_of_nonneg_left ?_ (by positivity)
  rw [show -(Np.fftfreq ny k.1 * s) + -(Np.fftfreq nx k.2 * t) - (-(Np.fftfreq ny k.1 * s') + -(Np.fftfreq nx k.2 * t'))
    = -(Np.fftfreq ny k.1 * (s - s') + Np.fftfreq nx k.2 * (t - t')) by ring, abs_neg]
  refine (abs_add_le _ _).trans ?_
  rw [abs_mul, abs_mul]
  have h1 := mul_nonneg (abs_nonneg (Np.fftfreq ny k.1)) (abs_nonneg (t - t'))
  have h2 := mul_nonneg (abs_nonneg (Np.fftfreq nx k.2)) (abs_nonneg (s - s'))
  nlinarith

/-- a grid point is at most half the width of the grid from its centre -/
theorem grid_near (c zf : ℝ) (hzf : 0 < zf) (o : ℕ) (i : Fin o) :
    |Spec.zoomGrid c zf o i - c| ≤ ((o : ℝ) - 1) / 2 / zf := by
  unfold Spec.zoomGrid
  rw [add_sub_cancel_left, abs_div, abs_of_pos hzf]
  refine div_le_div_of_nonneg_right ?_ hzf.le
  have h : ((i : ℕ) : ℝ) ≤ (o : ℝ) - 1 := by
    have : (i : ℕ) + 1 ≤ o := i.isLt
    have : ((i : ℕ) : ℝ) + 1 ≤ o := by exact_mod_cast this
    linarith
  have h0 : (0 : ℝ) ≤ ((i : ℕ) : ℝ) := Nat.cast_nonneg _
  rw [abs_le]
  constructor <;> linarith

theorem grid_spread (c zf : ℝ) (hzf : 0 < zf) (o : ℕ) (i j : Fin o) :
    |Spec.zoomGrid c zf o i - Spec.zoomGrid c zf o j| ≤ ((o : ℝ) - 1) / zf := by
  have h1 := grid_near c zf hzf o i
  have h2 := grid_near c zf hzf o j
  rw [abs_le] at h1 h2 ⊢
  have : ((o : ℝ) - 1) / zf = ((o : ℝ) - 1) / 2 / zf + ((o : ℝ) - 1) / 2 / zf := by ring
  constructor <;> linarith [h1.1, h1.2, h2.1, h2.2]

theorem gridView_spread {ny nx : ℕ} [NeZero ny] [NeZero nx] (x : Fin ny × Fin nx → ℝ) (m l : ℕ) [NeZero m]
    [NeZero l] : ∃ B : ℝ, ∀ c zf, 0 < zf → ∀ i j,
      |(gridView x m l c zf).data i - (gridView x m l c zf).data j| ≤ B / zf := by
  obtain ⟨L, hL, h⟩ := interp2C_lipschitz fun j => (x j : ℂ)
  refine ⟨L * (((m : ℝ) - 1) + ((l : ℝ) - 1)), fun c zf hzf i j => ?_⟩
  refine (h _ _ _ _).trans ?_
  rw [mul_div_assoc]
  refine mul_le_mul_of_nonneg_left ?_ hL
  rw [add_div]
  exact add_le_add (grid_spread _ _ hzf _ _ _) (grid_spread _ _ hzf _ _ _)

theorem gridView1_spread {n : ℕ} [NeZero n] (x : Fin n → ℝ) (l : ℕ) [NeZero l] : ∃ B : ℝ, ∀ c zf, 0 < zf →
    ∀ i j, |(gridView1 x l c zf).data i - (gridView1 x l c zf).data j| ≤ B / zf := by
  obtain ⟨L, hL, h⟩ := interpC_lipschitz fun j => (x j : ℂ)
  refine ⟨L * ((l : ℝ) - 1), fun c zf hzf i j => ?_⟩
  refine (h _ _).trans ?_
  rw [mul_div_assoc]
  exact mul_le_mul_of_nonneg_left (grid_spread _ _ hzf _ _ _) hL

/-! ### drift -/

/-- if every zoomed coordinate is within `w / zf` of the centre, all extrema found lie within
`w / (step - 1)` of the first one -/
theorem zoomViews_drift {G : ℝ × ℝ → ℝ → ZoomView} (v0 : ZoomView) (mm : MinMax) {step : ℝ} (hs : 1 < step)
    (f : ℝ × ℝ → ℝ) (w : ℝ)
    (hG : ∀ c zf, 0 < zf → |f ((G c zf).ext mm) - f c| ≤ w / zf) (k : ℕ) :
    |f ((zoomViews G v0 mm step k).ext mm) - f (v0.ext mm)| ≤ w / (step - 1) * (1 - 1 / step ^ k) := by
  have h0 : (0 : ℝ) < step := by linarith
  have h1 : (0 : ℝ) < step - 1 := by linarith
  induction k with
  | zero => simp [zoomViews]
  | succ k ih =>
    have hp : (0 : ℝ) < step ^ (k + 1) := by positivity
    have h := hG ((zoomViews G v0 mm step k).ext mm) (step ^ (k + 1)) hp
    have heq : w / (step - 1) * (1 - 1 / step ^ (k + 1))
        = w / (step - 1) * (1 - 1 / step ^ k) + w / step ^ (k + 1) := by
      rw [pow_succ]
      have := pow_pos h0 k
      field_simp
      ring
    rw [heq]
    have htri := abs_add_le (f ((zoomViews G v0 mm step (k + 1)).ext mm) - f ((zoomViews G v0 mm step k).ext mm))
      (f ((zoomViews G v0 mm step k).ext mm) - f (v0.ext mm))
    rw [sub_add_sub_cancel] at htri
    refine htri.trans ?_
    have : zoomViews G v0 mm step (k + 1) = G ((zoomViews G v0 mm step k).ext mm) (step ^ (k + 1)) := rfl
    rw [this]
    linarith

end ImgReg
