import Verif.Model.InexactIterZoom
import Verif.Lemmas.IterZoomBound
import Verif.Props.InexactZoom
import Verif.Props.IterZoomBound

/-!
# The loop of `iterative_zoom` in inexact arithmetic
-/

open Complex Finset

namespace ImgReg

/-- the computed zoomed view -/
noncomputable def gridViewA (Z : ZoomArith) {ny nx : ℕ} [NeZero ny] [NeZero nx] (x : Fin ny × Fin nx → ℝ) (m l : ℕ) [hm : NeZero m]
    [hl : NeZero l] (c : ℝ × ℝ) (zf : ℝ) : ZoomView :=
  ⟨m, l, hm, hl, fun i => ((zoom2A Z (fun i => (x i : ℂ)) c.1 c.2 zf m l).2.2 i).re,
    fun i => (zoom2A Z (fun i => (x i : ℂ)) c.1 c.2 zf m l).1 i.1, fun i => (zoom2A Z (fun i => (x i : ℂ)) c.1 c.2 zf m l).2.1 i.2⟩

theorem zoomOnA_ok {Z : ZoomArith} {ny nx : ℕ} [NeZero ny] [NeZero nx] {x : Fin ny × Fin nx → ℝ} {m l : ℕ} [NeZero m]
    [NeZero l] {c : ℝ × ℝ} {zf : ℝ} {v : ZoomView} (h : zoomOnA Z x m l c zf = .ok v) : v = gridViewA Z x m l c zf := by
  unfold zoomOnA at h
  split_ifs at h
  simp only [Except.ok.injEq] at h
  exact h.symm

theorem zoomStepA_view {Z : ZoomArith} {zoomOn : ℝ × ℝ → ℝ → Py ZoomView} {mid : ℝ × ℝ} {mm : MinMax} {step : ℝ} {s s' : ZoomState}
    (h : zoomStepA Z zoomOn mid mm step s = .ok s') :
    zoomOn (s.view.ext mm) (Z.mulR s.zf step) = .ok s'.view ∧ s'.zf = Z.mulR s.zf step ∧ s'.center = some (s.view.ext mm) ∧
      s'.offset = (Z.addR (s.view.ext mm).1 (-mid.1), Z.addR (s.view.ext mm).2 (-mid.2)) := by
  unfold zoomStepA at h
  simp only [bind, Except.bind] at h
  split at h
  · simp at h
  · rename_i v hv
    simp only [pure, Except.pure, Except.ok.injEq] at h
    subst h
    exact ⟨hv, rfl, rfl, rfl⟩

theorem minDeltaA_some {Z : ZoomArith} {v : ZoomView} {mm : MinMax} {d : ℝ} (h : v.minDeltaA Z mm = some d) :
    ∃ i, d = |v.deltaA Z mm i| := by
  classical
  unfold ZoomView.minDeltaA at h
  simp only [Option.dite_none_right_eq_some, Option.some.injEq] at h
  obtain ⟨hne, h⟩ := h
  subst h
  obtain ⟨i, -, he⟩ := Finset.exists_mem_eq_inf' hne fun i => |v.deltaA Z mm i|
  exact ⟨i, he⟩

/-- As `zoomLoop_within`. -/
theorem zoomLoopA_within {Z : ZoomArith} {zoomOn : ℝ × ℝ → ℝ → Py ZoomView} {mid : ℝ × ℝ} {mm : MinMax} {step mindiff : ℝ}
    (P : ℕ → ZoomState → Prop) (K : ℕ)
    (hP : ∀ k, k < K → ∀ s s', P k s → zoomStepA Z zoomOn mid mm step s = .ok s' → P (k + 1) s')
    (hK : ∀ s, P K s → ∀ i, |s.view.deltaA Z mm i| ≤ mindiff) (j k : ℕ) (hj : k + j = K) (s : ZoomState) (hs : P k s) :
    ∃ r, zoomLoopA Z zoomOn mid mm step mindiff (j + 1) s = some r ∧ ∀ s', r = .ok s' → ∃ k', k ≤ k' ∧ k' ≤ K ∧ P k' s' := by
  classical
  induction j generalizing k s with
  | zero =>
    unfold zoomLoopA
    cases hd : s.view.minDeltaA Z mm with
    | none => exact ⟨_, rfl, fun s' h => by cases h⟩
    | some d =>
      have hle : ¬ d > mindiff := by
        obtain ⟨i, rfl⟩ := minDeltaA_some hd
        exact not_lt.2 (hK s (by rw [← hj]; exact hs) i)
      simp only [hle, if_false]
      exact ⟨_, rfl, fun s' h => ⟨k, le_rfl, by omega, by cases h; exact hs⟩⟩
  | succ j ih =>
    rw [zoomLoopA]
    cases hd : s.view.minDeltaA Z mm with
    | none => exact ⟨_, rfl, fun s' h => by cases h⟩
    | some d =>
      by_cases hgt : d > mindiff
      · simp only [hgt, if_true]
        cases hst : zoomStepA Z zoomOn mid mm step s with
        | error e => exact ⟨_, rfl, fun s' h => by cases h⟩
        | ok s1 =>
          have h1 := hP k (by omega) s s1 hs hst
          by_cases hall : ∀ i, s1.view.deltaA Z mm i = 0
          · simp only [hall, implies_true, if_true]
            exact ⟨_, rfl, fun s' h => ⟨k + 1, by omega, by omega, by cases h; exact h1⟩⟩
          · simp only [hall, if_false]
            obtain ⟨r, hr, h2⟩ := ih (k + 1) (by omega) s1 h1
            refine ⟨r, hr, fun s' h => ?_⟩
            obtain ⟨k', a, b, c⟩ := h2 s' h
            exact ⟨k', by omega, b, c⟩
      · simp only [hgt, if_false]
        exact ⟨_, rfl, fun s' h => ⟨k, le_rfl, by omega, by cases h; exact hs⟩⟩

/-- more tests of the loop condition do not change the answer -/
theorem zoomLoopA_mono {Z : ZoomArith} {zoomOn : ℝ × ℝ → ℝ → Py ZoomView} {mid : ℝ × ℝ} {mm : MinMax} {step mindiff : ℝ}
    (fuel : ℕ) (s : ZoomState) (r : Py ZoomState)
    (h : zoomLoopA Z zoomOn mid mm step mindiff fuel s = some r) (fuel' : ℕ) (hf : fuel ≤ fuel') :
    zoomLoopA Z zoomOn mid mm step mindiff fuel' s = some r := by
  classical
  induction fuel generalizing s fuel' with
  | zero => simp [zoomLoopA] at h
  | succ fuel ih =>
    obtain ⟨f', rfl⟩ : ∃ f', fuel' = f' + 1 := ⟨fuel' - 1, by omega⟩
    unfold zoomLoopA at h ⊢
    cases hd : s.view.minDeltaA Z mm with
    | none => simpa [hd] using h
    | some d =>
      simp only [hd] at h ⊢
      by_cases hgt : d > mindiff
      · simp only [hgt, if_true] at h ⊢
        cases hs : zoomStepA Z zoomOn mid mm step s with
        | error e => simpa [hs] using h
        | ok s1 =>
          simp only [hs] at h ⊢
          by_cases hall : ∀ i, s1.view.deltaA Z mm i = 0
          · rw [if_pos hall] at h ⊢
            exact h
          · rw [if_neg hall] at h ⊢
            exact ih s1 h f' (by omega)
      · simpa [hgt] using h

/-- An invariant of the body of the loop holds at the end. -/
theorem zoomLoopA_inv {Z : ZoomArith} {zoomOn : ℝ × ℝ → ℝ → Py ZoomView} {mid : ℝ × ℝ} {mm : MinMax} {step mindiff : ℝ}
    (P : ℕ → ZoomState → Prop) (K : ℕ)
    (hP : ∀ k, k < K → ∀ s s', P k s → zoomStepA Z zoomOn mid mm step s = .ok s' → P (k + 1) s')
    (fuel k : ℕ) (hj : k + fuel = K) (s : ZoomState) (hs : P k s) (s' : ZoomState)
    (h : zoomLoopA Z zoomOn mid mm step mindiff fuel s = some (.ok s')) : ∃ k', k' ≤ K ∧ P k' s' := by
  classical
  induction fuel generalizing k s with
  | zero => simp [zoomLoopA] at h
  | succ j ih =>
    rw [zoomLoopA] at h
    cases hd : s.view.minDeltaA Z mm with
    | none => simp [hd] at h
    | some d =>
      simp only [hd] at h
      by_cases hgt : d > mindiff
      · simp only [hgt, if_true] at h
        cases hst : zoomStepA Z zoomOn mid mm step s with
        | error e => simp [hst] at h
        | ok s1 =>
          simp only [hst] at h
          have h1 := hP k (by omega) s s1 hs hst
          by_cases hall : ∀ i, s1.view.deltaA Z mm i = 0
          · simp only [hall, implies_true, if_true, Option.some.injEq, Except.ok.injEq] at h
            subst h
            exact ⟨k + 1, by omega, h1⟩
          · simp only [hall, if_false] at h
            exact ih (k + 1) (by omega) s1 h1 h
      · simp only [hgt, if_false, Option.some.injEq, Except.ok.injEq] at h
        subst h
        exact ⟨k, by omega, hs⟩

/-! ### sizes -/

/-- bound on the coordinates after `k` zooms, on an axis of `n` pixels zoomed to `m` points -/
noncomputable def rangeAt (δ q : ℝ) (n m : ℕ) (k : ℕ) : ℝ :=
  (1 + δ) ^ (3 * k) * ((n : ℝ) - 1 + ((m : ℝ) - 1) / (2 * (q - 1)) * (1 - 1 / q ^ k))

/-- the largest coordinate that can occur in `K` zooms of an axis of `n` pixels to `m` points, by factors of at least `q` -/
noncomputable def Spec.zoomRange (δ q : ℝ) (n m : ℕ) (K : ℕ) : ℝ :=
  (1 + δ) ^ (3 * K) * ((n : ℝ) - 1 + ((m : ℝ) - 1) / (2 * (q - 1)))

section sizes
variable {δ q : ℝ} (h0 : 0 ≤ δ) (hq : 1 < q) (n m : ℕ) [NeZero n] [NeZero m]
include h0 hq

omit [NeZero n] h0 in
theorem half_nonneg : 0 ≤ ((m : ℝ) - 1) / (2 * (q - 1)) := by
  have : (1 : ℝ) ≤ m := by exact_mod_cast Nat.pos_of_neZero m
  have : 0 < q - 1 := by linarith
  exact div_nonneg (by linarith) (by linarith)

omit [NeZero n] [NeZero m] h0 in
theorem series_step (k : ℕ) : ((m : ℝ) - 1) / (2 * (q - 1)) * (1 - 1 / q ^ (k + 1))
    = ((m : ℝ) - 1) / (2 * (q - 1)) * (1 - 1 / q ^ k) + ((m : ℝ) - 1) / 2 / q ^ (k + 1) := by
  have : 0 < q - 1 := by linarith
  have h : (0 : ℝ) < q := by linarith
  have := pow_pos h k
  rw [pow_succ]
  field_simp
  ring

omit [NeZero n] h0 in
theorem series_le (k : ℕ) : ((m : ℝ) - 1) / (2 * (q - 1)) * (1 - 1 / q ^ k) ≤ ((m : ℝ) - 1) / (2 * (q - 1)) := by
  have h : (0 : ℝ) < q := by linarith
  have := pow_pos h k
  have h1 : (0 : ℝ) ≤ 1 / q ^ k := by positivity
  have := half_nonneg (q := q) hq m
  nlinarith

omit [NeZero n] h0 in
theorem series_nonneg (k : ℕ) : 0 ≤ ((m : ℝ) - 1) / (2 * (q - 1)) * (1 - 1 / q ^ k) := by
  have h1 : (1 : ℝ) / q ^ k ≤ 1 := by
    rw [div_le_one (pow_pos (by linarith) k)]
    exact one_le_pow₀ hq.le
  exact mul_nonneg (half_nonneg (q := q) hq m) (by linarith)

theorem rangeAt_le {k K : ℕ} (hk : k ≤ K) : rangeAt δ q n m k ≤ Spec.zoomRange δ q n m K := by
  unfold rangeAt Spec.zoomRange
  have h1 : (1 : ℝ) ≤ n := by exact_mod_cast Nat.pos_of_neZero n
  have := series_nonneg (q := q) hq m k
  have := series_le (q := q) hq m k
  refine mul_le_mul (pow_le_pow_right₀ (by linarith) (by omega)) (by linarith) (by linarith) (by positivity)

omit [NeZero n] in
/-- one more zoom, about a point `c` in range, by `zf` -/
theorem reach_le {c zf : ℝ} {k : ℕ} (hc : |c| ≤ rangeAt δ q n m k) (hzf : q ^ (k + 1) ≤ zf) :
    (1 + δ) ^ 3 * Spec.zoomReach c zf m ≤ rangeAt δ q n m (k + 1) ∧ Spec.zoomReach c zf m ≤ rangeAt δ q n m (k + 1) := by
  have hq0 : (0 : ℝ) < q := by linarith
  have hm : (1 : ℝ) ≤ m := by exact_mod_cast Nat.pos_of_neZero m
  have hp : 0 < q ^ (k + 1) := pow_pos hq0 _
  have e : Spec.zoomReach c zf m ≤ rangeAt δ q n m k + ((m : ℝ) - 1) / 2 / q ^ (k + 1) := by
    unfold Spec.zoomReach
    have : |((m : ℝ) - 1) / zf / 2| ≤ ((m : ℝ) - 1) / 2 / q ^ (k + 1) := by
      rw [abs_of_nonneg (div_nonneg (div_nonneg (by linarith) (by linarith)) (by norm_num)), div_right_comm]
      exact div_le_div_of_nonneg_left (by linarith) hp hzf
    linarith
  have hw : 0 ≤ ((m : ℝ) - 1) / 2 / q ^ (k + 1) := div_nonneg (by linarith) hp.le
  have h1 : (1 : ℝ) ≤ (1 + δ) ^ (3 * k) := one_le_pow₀ (by linarith)
  have h3 : (1 : ℝ) ≤ (1 + δ) ^ 3 := one_le_pow₀ (by linarith)
  have key : (1 + δ) ^ 3 * Spec.zoomReach c zf m ≤ rangeAt δ q n m (k + 1) := by
    refine (mul_le_mul_of_nonneg_left e (by linarith)).trans ?_
    unfold rangeAt
    rw [series_step hq m k, show (1 + δ) ^ (3 * (k + 1)) = (1 + δ) ^ (3 * k) * (1 + δ) ^ 3 by rw [← pow_add]; ring_nf]
    have := mul_le_mul_of_nonneg_left (le_mul_of_one_le_left hw h1) (by linarith : (0 : ℝ) ≤ (1 + δ) ^ 3)
    nlinarith
  refine ⟨key, le_trans ?_ key⟩
  exact le_mul_of_one_le_left (zoomReach_nonneg _ _ _) h3

end sizes

/-! ### one zoom -/

section two
variable {ny nx : ℕ} [NeZero ny] [NeZero nx] {Z : ZoomArith} {δ : ℝ} (hZ : Spec.ZoomAccurate Z δ)
include hZ

theorem gridViewA_near (x : Fin ny × Fin nx → ℝ) (m l : ℕ) [NeZero m] [NeZero l] (c : ℝ × ℝ) {zf : ℝ} (hzf : zf ≠ 0) {Ry Rx : ℝ}
    (hy : Spec.zoomReach c.1 zf m ≤ Ry) (hx : Spec.zoomReach c.2 zf l ≤ Rx) (i : Fin m × Fin l) :
    |(gridViewA Z x m l c zf).yax i - Spec.zoomGrid c.1 zf m i.1| ≤ ((1 + δ) ^ 3 - 1) * Ry ∧
    |(gridViewA Z x m l c zf).xax i - Spec.zoomGrid c.2 zf l i.2| ≤ ((1 + δ) ^ 3 - 1) * Rx ∧
    |(gridViewA Z x m l c zf).yax i| ≤ (1 + δ) ^ 3 * Spec.zoomReach c.1 zf m ∧
    |(gridViewA Z x m l c zf).xax i| ≤ (1 + δ) ^ 3 * Spec.zoomReach c.2 zf l ∧
    |(gridViewA Z x m l c zf).data i - (gridView x m l c zf).data i| ≤ Spec.interp2Err δ 7 Ry Rx * Real.sqrt (∑ p, x p ^ 2) := by
  have h0 := hZ.nonneg
  have h3 : (1 : ℝ) ≤ (1 + δ) ^ 3 := one_le_pow₀ (by linarith)
  have tn : ∀ t : ℝ, Near t t ((1 + δ) * |t|) |t| := fun t =>
    (Near.refl t).mono (le_mul_of_one_le_left (abs_nonneg _) (by linarith))
  have ay := zoomAxisA_near hZ hzf (tn c.1) m i.1
  have ax := zoomAxisA_near hZ hzf (tn c.2) l i.2
  have up : ∀ {a' a r R : ℝ}, r ≤ R → Near a' a ((1 + δ) ^ 3 * r) r → Near a' a ((1 + δ) ^ 3 * R) R := by
    intro a' a r R hr hn
    have := mul_le_mul_of_nonneg_left hr (by linarith : (0 : ℝ) ≤ (1 + δ) ^ 3)
    have h4 := mul_le_mul_of_nonneg_left hr (by linarith : (0 : ℝ) ≤ (1 + δ) ^ 3 - 1)
    exact ⟨hn.le'.trans this, hn.le.trans hr, hn.dist.trans (by linarith)⟩
  have ay' := up hy ay
  have ax' := up hx ax
  refine ⟨ay'.dist.trans (le_of_eq (by ring)), ax'.dist.trans (le_of_eq (by ring)), ay.le', ax.le', ?_⟩
  have h := interp2A_near hZ (c' := fun j => (x j : ℂ)) (c := fun j => (x j : ℂ)) (X' := l2 fun j => (x j : ℂ)) (X := l2 fun j => (x j : ℂ))
    le_rfl le_rfl (by simp [l2]) (oy' := zoomAxisA Z c.1 zf m) (ox' := zoomAxisA Z c.2 zf l) i ay' ax'
  change |((interp2A Z _ _ _ i).re - (interp2C _ _ _).re)| ≤ _
  rw [← Complex.sub_re]
  refine (Complex.abs_re_le_norm _).trans (h.trans (le_of_eq ?_))
  unfold Spec.interp2Err
  rw [l2_real]
  ring

end two

end ImgReg
