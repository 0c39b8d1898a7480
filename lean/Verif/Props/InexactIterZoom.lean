import Verif.Lemmas.InexactIterZoom
import Verif.Props.InexactZoomCases
import Mathlib.Analysis.Real.Pi.Bounds

/-!
# `iterative_zoom` in floating point (C131)

C39–C41 and C79 in an arithmetic whose operations have a relative error of at most `δ` (`Spec.ZoomAccurate`).
-/

open Complex Finset

namespace ImgReg

/-- error of a coordinate in one of the first `K` zooms of an axis of `n` pixels to `m` points, by factors of at least `q` each -/
noncomputable def Spec.zoomCoordErr (δ q : ℝ) (n m K : ℕ) : ℝ := ((1 + δ) ^ 3 - 1) * Spec.zoomRange δ q n m K

/-- `a` is at most (for `np.max`: at least) `b`, up to `e` -/
def Spec.NotWorse (mm : MinMax) (a b e : ℝ) : Prop :=
  match mm with
  | .min => a ≤ b + e
  | .max => b - e ≤ a

section two
variable {ny nx : ℕ} [NeZero ny] [NeZero nx]

/-- error of a value in one of the first `K` zoomed views -/
noncomputable def Spec.zoomViewErr (δ q : ℝ) (x : Fin ny × Fin nx → ℝ) (m l K : ℕ) : ℝ :=
  Spec.interp2Err δ 7 (Spec.zoomRange δ q ny m K) (Spec.zoomRange δ q nx l K) * Real.sqrt (∑ p, x p ^ 2)

/-- what can be lost in one zoom: the errors of two values, and of the coordinates -/
noncomputable def Spec.zoomLoss (δ q : ℝ) (x : Fin ny × Fin nx → ℝ) (m l K : ℕ) : ℝ :=
  2 * Spec.zoomViewErr δ q x m l K
    + Real.pi * Spec.scatter x * (Spec.zoomCoordErr δ q ny m K + Spec.zoomCoordErr δ q nx l K)

/-- the interpolated image -/
noncomputable def Spec.between (x : Fin ny × Fin nx → ℝ) (c : ℝ × ℝ) : ℝ := (interp2C (fun j => (x j : ℂ)) c.1 c.2).re

theorem between_lip (x : Fin ny × Fin nx → ℝ) (c c' : ℝ × ℝ) :
    |Spec.between x c - Spec.between x c'| ≤ Real.pi * Spec.scatter x * (|c.1 - c'.1| + |c.2 - c'.2|) :=
  interp2C_lip_real x _ _ _ _ _

theorem between_pixel (x : Fin ny × Fin nx → ℝ) (p : Fin ny × Fin nx) :
    Spec.between x (((p.1 : ℕ) : ℝ), ((p.2 : ℕ) : ℝ)) = x p := by
  unfold Spec.between
  have h := interp2C_int (fun j => (x j : ℂ)) ((p.1 : ℕ) : ℤ) ((p.2 : ℕ) : ℤ)
  simp only [Int.cast_natCast] at h
  rw [h]
  simp [Spec.wrap_val]

/-- What is known of the position `c` of the extremum after `k` zooms. -/
structure Traced (δ q : ℝ) (x : Fin ny × Fin nx → ℝ) (m l : ℕ) (mm : MinMax) (K k : ℕ) (c : ℝ × ℝ) : Prop where
  ry : |c.1| ≤ rangeAt δ q ny m k
  rx : |c.2| ≤ rangeAt δ q nx l k
  dy : |c.1 - ((imageView x).ext mm).1| ≤ ((m : ℝ) - 1) / (2 * (q - 1)) * (1 - 1 / q ^ k) + k * Spec.zoomCoordErr δ q ny m K
  dx : |c.2 - ((imageView x).ext mm).2| ≤ ((l : ℝ) - 1) / (2 * (q - 1)) * (1 - 1 / q ^ k) + k * Spec.zoomCoordErr δ q nx l K
  imp : Odd m → Odd l → Spec.NotWorse mm (Spec.between x c) (x ((imageView x).pos mm)) (k * Spec.zoomLoss δ q x m l K)

/-- What is known of the state after `k` zooms. -/
structure TracedState (δ q : ℝ) (x : Fin ny × Fin nx → ℝ) (m l : ℕ) (mm : MinMax) (K k : ℕ) (s : ZoomState) : Prop where
  zf : q ^ k ≤ s.zf
  ext : Traced δ q x m l mm K k (s.view.ext mm)
  center : ∀ c, s.center = some c → ∃ j, j + 1 = k ∧ Traced δ q x m l mm K j c
  delta : 1 ≤ k → ∀ i, |s.view.delta mm i|
    ≤ Real.pi * Spec.scatter x * ((m : ℝ) + l - 2) / q ^ k + 2 * Spec.zoomViewErr δ q x m l K

theorem exists_mid {m l : ℕ} (hm : Odd m) (hl : Odd l) (c : ℝ × ℝ) (zf : ℝ) :
    ∃ i : Fin m × Fin l, Spec.zoomGrid c.1 zf m i.1 = c.1 ∧ Spec.zoomGrid c.2 zf l i.2 = c.2 := by
  obtain ⟨a, rfl⟩ := hm
  obtain ⟨b, rfl⟩ := hl
  exact ⟨(⟨a, by omega⟩, ⟨b, by omega⟩), grid_mid _ _ _ _, grid_mid _ _ _ _⟩

variable {Z : ZoomArith} {δ q : ℝ} (hZ : Spec.ZoomAccurate Z δ) {step : ℝ} (hstep : 1 < step) (hq : 1 < q) (hqs : q ≤ step * (1 - δ))

include hZ hstep hq hqs in
theorem traced_step (x : Fin ny × Fin nx → ℝ) (m l : ℕ) [NeZero m] [NeZero l] (mm : MinMax) {K k : ℕ} (hk : k < K) (mid : ℝ × ℝ)
    {s s' : ZoomState} (h : TracedState δ q x m l mm K k s) (hs : zoomStepA Z (zoomOnA Z x m l) mid mm step s = .ok s') :
    TracedState δ q x m l mm K (k + 1) s' := by
  have h0 := hZ.nonneg
  have hq0 : (0 : ℝ) < q := by linarith
  obtain ⟨hv, hzf, hc, -⟩ := zoomStepA_view hs
  have hd1 : 0 ≤ 1 - δ := by
    by_contra hcon
    push Not at hcon
    have := mul_neg_of_pos_of_neg (by linarith : (0 : ℝ) < step) hcon
    linarith
  have hzk : 0 < s.zf := (pow_pos hq0 k).trans_le h.zf
  have z1 : q ^ (k + 1) ≤ s'.zf := by
    have hm := hZ.base.mulR s.zf step
    rw [abs_of_pos (mul_pos hzk (by linarith)), abs_le] at hm
    have h2 := mul_le_mul_of_nonneg_left hqs hzk.le
    have h3 := mul_le_mul_of_nonneg_right h.zf hq0.le
    rw [hzf, pow_succ]
    nlinarith [hm.1]
  have hp : 0 < q ^ (k + 1) := pow_pos hq0 _
  have hz' : 0 < s'.zf := hp.trans_le z1
  obtain ⟨ry, rx, dy, dx, imp⟩ := h.ext
  obtain ⟨ry1, ry2⟩ := reach_le h0 hq ny m ry z1
  obtain ⟨rx1, rx2⟩ := reach_le h0 hq nx l rx z1
  have ry3 := ry2.trans (rangeAt_le h0 hq ny m (Nat.succ_le_of_lt hk))
  have rx3 := rx2.trans (rangeAt_le h0 hq nx l (Nat.succ_le_of_lt hk))
  have hview := zoomOnA_ok hv
  rw [← hzf] at hview
  generalize s.view.ext mm = c at *
  obtain ⟨v', zf', ce', off'⟩ := s'
  simp only at hview hz' z1 hc ry1 ry2 rx1 rx2 ry3 rx3
  subst hview
  have near := gridViewA_near hZ x m l c hz'.ne' ry3 rx3
  set V := gridViewA Z x m l c zf' with hV
  have hm1 : (1 : ℝ) ≤ m := by exact_mod_cast Nat.pos_of_neZero m
  have hl1 : (1 : ℝ) ≤ l := by exact_mod_cast Nat.pos_of_neZero l
  have cy0 : 0 ≤ Spec.zoomCoordErr δ q ny m K := (abs_nonneg _).trans (near (0, 0)).1
  have cx0 : 0 ≤ Spec.zoomCoordErr δ q nx l K := (abs_nonneg _).trans (near (0, 0)).2.1
  refine ⟨z1, ?_, ?_, ?_⟩
  · change Traced δ q x m l mm K (k + 1) (V.yax (V.pos mm), V.xax (V.pos mm))
    have ext := ZoomView.pos_spec V mm
    generalize V.pos mm = i at *
    obtain ⟨n1, n2, n3, n4, n5⟩ := near i
    have gy := grid_near c.1 zf' hz' m i.1
    have gx := grid_near c.2 zf' hz' l i.2
    have gy' := gy.trans (div_le_div_of_nonneg_left (by linarith) hp z1)
    have gx' := gx.trans (div_le_div_of_nonneg_left (by linarith) hp z1)
    refine ⟨n3.trans ry1, n4.trans rx1, ?_, ?_, fun hmo hlo => ?_⟩
    · rw [series_step hq m k]
      have t1 := abs_add_le (V.yax i - Spec.zoomGrid c.1 zf' m i.1) (Spec.zoomGrid c.1 zf' m i.1 - c.1)
      have t2 := abs_add_le (V.yax i - c.1) (c.1 - ((imageView x).ext mm).1)
      rw [sub_add_sub_cancel] at t1 t2
      have n1' : |V.yax i - Spec.zoomGrid c.1 zf' m i.1| ≤ Spec.zoomCoordErr δ q ny m K := n1
      push_cast
      linarith
    · rw [series_step hq l k]
      have t1 := abs_add_le (V.xax i - Spec.zoomGrid c.2 zf' l i.2) (Spec.zoomGrid c.2 zf' l i.2 - c.2)
      have t2 := abs_add_le (V.xax i - c.2) (c.2 - ((imageView x).ext mm).2)
      rw [sub_add_sub_cancel] at t1 t2
      have n2' : |V.xax i - Spec.zoomGrid c.2 zf' l i.2| ≤ Spec.zoomCoordErr δ q nx l K := n2
      push_cast
      linarith
    · have imp := imp hmo hlo
      obtain ⟨i0, hi1, hi2⟩ := exists_mid hmo hlo c zf'
      have n5' : |V.data i0 - Spec.between x (Spec.zoomGrid c.1 zf' m i0.1, Spec.zoomGrid c.2 zf' l i0.2)| ≤ Spec.zoomViewErr δ q x m l K :=
        (near i0).2.2.2.2
      rw [hi1, hi2] at n5'
      have n5'' : |V.data i - Spec.between x (Spec.zoomGrid c.1 zf' m i.1, Spec.zoomGrid c.2 zf' l i.2)| ≤ Spec.zoomViewErr δ q x m l K := n5
      have lip := between_lip x (V.yax i, V.xax i) (Spec.zoomGrid c.1 zf' m i.1, Spec.zoomGrid c.2 zf' l i.2)
      have hsc : 0 ≤ Real.pi * Spec.scatter x := mul_nonneg Real.pi_pos.le (Real.sqrt_nonneg _)
      have n1' : |V.yax i - Spec.zoomGrid c.1 zf' m i.1| ≤ Spec.zoomCoordErr δ q ny m K := n1
      have n2' : |V.xax i - Spec.zoomGrid c.2 zf' l i.2| ≤ Spec.zoomCoordErr δ q nx l K := n2
      have lip' := lip.trans (mul_le_mul_of_nonneg_left (add_le_add n1' n2') hsc)
      have hL : Spec.zoomLoss δ q x m l K = 2 * Spec.zoomViewErr δ q x m l K
        + Real.pi * Spec.scatter x * (Spec.zoomCoordErr δ q ny m K + Spec.zoomCoordErr δ q nx l K) := rfl
      rw [abs_le] at n5'' n5' lip'
      push_cast
      cases mm with
      | min =>
        have hext : V.data i ≤ V.data i0 := ext.1 _
        unfold Spec.NotWorse at imp ⊢
        simp only at imp ⊢
        linarith [n5''.1, n5'.2, lip'.2]
      | max =>
        have hext : V.data i0 ≤ V.data i := ext.1 _
        unfold Spec.NotWorse at imp ⊢
        simp only at imp ⊢
        linarith [n5''.2, n5'.1, lip'.1]
  · intro c' hc'
    rw [hc] at hc'
    simp only [Option.some.injEq] at hc'
    subst hc'
    exact ⟨k, rfl, ry, rx, dy, dx, imp⟩
  · intro _ i
    change |V.data i - V.data (V.pos mm)| ≤ _
    generalize V.pos mm = j
    have n1 := (near i).2.2.2.2
    have n2 := (near j).2.2.2.2
    have g : |(gridView x m l c zf').data i - (gridView x m l c zf').data j| ≤ Real.pi * Spec.scatter x * ((m : ℝ) - 1 + ((l : ℝ) - 1)) / zf' :=
      gridView_spread_le x ((∑ j, x j) / Fintype.card (Fin ny × Fin nx)) m l c zf' hz' i j
    have hB : 0 ≤ Real.pi * Spec.scatter x * ((m : ℝ) - 1 + ((l : ℝ) - 1)) :=
      mul_nonneg (mul_nonneg Real.pi_pos.le (Real.sqrt_nonneg _)) (by linarith)
    have g' := g.trans (div_le_div_of_nonneg_left hB hp z1)
    rw [show (m : ℝ) - 1 + ((l : ℝ) - 1) = m + l - 2 by ring] at g'
    have hE : Spec.interp2Err δ 7 (Spec.zoomRange δ q ny m K) (Spec.zoomRange δ q nx l K)
        * Real.sqrt (∑ p, x p ^ 2) = Spec.zoomViewErr δ q x m l K := rfl
    rw [hE] at n1 n2
    rw [abs_le] at n1 n2 g' ⊢
    constructor <;> linarith [n1.1, n1.2, n2.1, n2.2, g'.1, g'.2]

/-- the state before the loop -/
theorem traced_start (x : Fin ny × Fin nx → ℝ) (m l : ℕ) (mm : MinMax) (K : ℕ) :
    TracedState δ q x m l mm K 0 ⟨imageView x, 1, none, (0, 0)⟩ := by
  have e : ∀ n : ℕ, [NeZero n] → ∀ i : Fin n, |((i : ℕ) : ℝ)| ≤ (n : ℝ) - 1 := by
    intro n _ i
    rw [abs_of_nonneg (Nat.cast_nonneg _)]
    have : (i : ℕ) + 1 ≤ n := i.isLt
    have : ((i : ℕ) : ℝ) + 1 ≤ n := by exact_mod_cast this
    linarith
  refine ⟨by simp, ⟨?_, ?_, by simp, by simp, fun _ _ => ?_⟩, (fun c hc => by cases hc), (by omega)⟩
  · have h1 := e ny ((imageView x).pos mm).1
    have h2 : rangeAt δ q ny m 0 = (ny : ℝ) - 1 := by unfold rangeAt; simp
    rw [h2]
    exact h1
  · have h1 := e nx ((imageView x).pos mm).2
    have h2 : rangeAt δ q nx l 0 = (nx : ℝ) - 1 := by unfold rangeAt; simp
    rw [h2]
    exact h1
  · have := between_pixel x ((imageView x).pos mm)
    change Spec.NotWorse mm (Spec.between x (((((imageView x).pos mm).1 : ℕ) : ℝ), ((((imageView x).pos mm).2 : ℕ) : ℝ))) _ _
    rw [this]
    unfold Spec.NotWorse
    cases mm <;> simp

/-- C131: `iterative_zoom` stops in floating point.  Let each operation be accurate to `δ`, let `1 < q ≤ zoomstep·(1-δ)` and
`K ≥ 1`.  If `π·sqrt(Σ(x - mean)²)·(m + l - 2)/q^K` plus twice the rounding error of a zoomed view is at most `mindiff/(1+δ)`, then
however the rounding errors fall the call has an answer after at most `K` zooms. -/
theorem C131_inexact_terminates (hZ : Spec.ZoomAccurate Z δ) (hstep : 1 < step) (hq : 1 < q) (hqs : q ≤ step * (1 - δ))
    (x : Fin ny × Fin nx → ℝ) (mindiff : ℝ) (m l : ℕ) [NeZero m] [NeZero l] (mm : MinMax) (rz rc : Bool) (K : ℕ) (hK : 1 ≤ K)
    (h : (1 + δ) * (Real.pi * Spec.scatter x * ((m : ℝ) + l - 2) / q ^ K + 2 * Spec.zoomViewErr δ q x m l K) ≤ mindiff) :
    ∃ r, ∀ fuel, K + 1 ≤ fuel → iterativeZoomA Z fuel x mindiff m l step mm rz rc = some r := by
  have h0 := hZ.nonneg
  obtain ⟨r, hr, -⟩ := zoomLoopA_within (Z := Z) (zoomOn := zoomOnA Z x m l) (mid := (((ny : ℝ) - 1) / 2, ((nx : ℝ) - 1) / 2)) (mm := mm)
    (step := step) (mindiff := mindiff) (TracedState δ q x m l mm K) K
    (fun k hk s s' hs hst => traced_step hZ hstep hq hqs x m l mm hk _ hs hst)
    (fun s hs i => by
      have hd := hs.delta hK i
      have ha := hZ.base.addR (s.view.data i) (-s.view.data (s.view.pos mm))
      rw [← sub_eq_add_neg] at ha
      change |s.view.deltaA Z mm i - s.view.delta mm i| ≤ δ * |s.view.delta mm i| at ha
      have t := abs_add_le (s.view.deltaA Z mm i - s.view.delta mm i) (s.view.delta mm i)
      rw [sub_add_cancel] at t
      have := mul_le_mul_of_nonneg_left hd (by linarith : (0 : ℝ) ≤ 1 + δ)
      linarith) K 0 (by omega) _ (traced_start x m l mm K)
  refine ⟨r >>= zoomFinish (fun c => [c.1, c.2]) rz rc, fun fuel hf => ?_⟩
  unfold iterativeZoomA
  simp only
  exact congrArg (Option.map fun r => r >>= zoomFinish (fun c => [c.1, c.2]) rz rc) (zoomLoopA_mono _ _ _ hr _ hf)

/-- no error comes from the loop when zooming always succeeds and the view is not flat -/
theorem zoomLoopA_no_error {zoomOn : ℝ × ℝ → ℝ → Py ZoomView} {mid : ℝ × ℝ} {mm : MinMax} {mindiff : ℝ}
    (P : ℕ → ZoomState → Prop) (K : ℕ)
    (hP : ∀ k, k < K → ∀ s, P k s → ∃ s', zoomStepA Z zoomOn mid mm step s = .ok s' ∧ P (k + 1) s')
    (fuel k : ℕ) (hk : k + fuel = K) (s : ZoomState) (hs : P k s) (hne : ∃ i, s.view.deltaA Z mm i ≠ 0) (e : PyErr) :
    zoomLoopA Z zoomOn mid mm step mindiff fuel s ≠ some (.error e) := by
  classical
  induction fuel generalizing k s with
  | zero => simp [zoomLoopA]
  | succ fuel ih =>
    rw [zoomLoopA]
    cases hd : s.view.minDeltaA Z mm with
    | none =>
      exfalso
      obtain ⟨i, hi⟩ := hne
      unfold ZoomView.minDeltaA at hd
      simp only [dite_eq_right_iff, reduceCtorEq, imp_false, Finset.not_nonempty_iff_eq_empty] at hd
      have : i ∈ univ.filter fun i => |s.view.deltaA Z mm i| > 0 := by simpa using hi
      rw [hd] at this
      simp at this
    | some d =>
      dsimp only
      by_cases hgt : d > mindiff
      · rw [if_pos hgt]
        obtain ⟨s1, hst, h1⟩ := hP k (by omega) s hs
        rw [hst]
        dsimp only
        by_cases hall : ∀ i, s1.view.deltaA Z mm i = 0
        · rw [if_pos hall]
          simp
        · rw [if_neg hall]
          push Not at hall
          exact ih (k + 1) (by omega) s1 h1 hall
      · rw [if_neg hgt]
        simp

/-- C131: and it stops with an answer: if all pixels that differ from the extremum differ from it by more than `mindiff/(1-δ)`, and there is
one, the call of `C131_inexact_terminates` returns (the centre or the offset) after at most `K` zooms. -/
theorem C131_inexact_returns (hZ : Spec.ZoomAccurate Z δ) (hstep : 1 < step) (hq : 1 < q) (hqs : q ≤ step * (1 - δ))
    (x : Fin ny × Fin nx → ℝ) (mindiff : ℝ) (m l : ℕ) [NeZero m] [NeZero l] (mm : MinMax) (rz rc : Bool) (K : ℕ) (hK : 1 ≤ K)
    (h : (1 + δ) * (Real.pi * Spec.scatter x * ((m : ℝ) + l - 2) / q ^ K + 2 * Spec.zoomViewErr δ q x m l K) ≤ mindiff)
    (p : Fin ny × Fin nx) (hp : Spec.IsFirstExt mm x p) (hx : ∃ i, x i ≠ x p)
    (hd : ∀ i, x i ≠ x p → mindiff < (1 - δ) * |x i - x p|) :
    ∃ res, ∀ fuel, K + 1 ≤ fuel → iterativeZoomA Z fuel x mindiff m l step mm rz rc = some (.ok res) := by
  classical
  have h0 := hZ.nonneg
  have hd1 : 0 < 1 - δ := by
    by_contra hcon
    push Not at hcon
    have := mul_nonpos_of_nonneg_of_nonpos (by linarith : (0 : ℝ) ≤ step) hcon
    linarith
  have hpe : (imageView x).pos mm = p := ZoomView.pos_eq (imageView x) mm hp
  have hdel : ∀ i, |(imageView x).deltaA Z mm i - (x i - x p)| ≤ δ * |x i - x p| := by
    intro i
    have ha := hZ.base.addR (x i) (-x p)
    rw [← sub_eq_add_neg] at ha
    unfold ZoomView.deltaA
    rw [hpe]
    exact ha
  have hbig : ∀ i, x i ≠ x p → mindiff < |(imageView x).deltaA Z mm i| := by
    intro i hi
    have t := abs_add_le ((x i - x p) - (imageView x).deltaA Z mm i) ((imageView x).deltaA Z mm i)
    rw [sub_add_cancel] at t
    have c := abs_sub_comm (x i - x p) ((imageView x).deltaA Z mm i)
    have := hd i hi
    have := hdel i
    linarith
  have hmd : 0 ≤ mindiff := by
    refine le_trans (mul_nonneg (by linarith) (add_nonneg ?_ ?_)) h
    · have hm1 : (1 : ℝ) ≤ m := by exact_mod_cast Nat.pos_of_neZero m
      have hl1 : (1 : ℝ) ≤ l := by exact_mod_cast Nat.pos_of_neZero l
      exact div_nonneg (mul_nonneg (mul_nonneg Real.pi_pos.le (Real.sqrt_nonneg _)) (by linarith)) (pow_nonneg (by linarith) _)
    · have e : ∀ n m : ℕ, [NeZero n] → [NeZero m] → 0 ≤ Spec.zoomRange δ q n m K := by
        intro n m _ _
        have h1 : (1 : ℝ) ≤ n := by exact_mod_cast Nat.pos_of_neZero n
        have := half_nonneg (q := q) hq m
        unfold Spec.zoomRange
        exact mul_nonneg (by positivity) (by linarith)
      have k1 := kernelErr_nonneg h0 7 (e ny m)
      have k2 := kernelErr_nonneg h0 7 (e nx l)
      have h3 : (1 : ℝ) ≤ (1 + δ) ^ 3 := one_le_pow₀ (by linarith)
      unfold Spec.zoomViewErr Spec.interp2Err
      refine mul_nonneg (by norm_num) (mul_nonneg ?_ (Real.sqrt_nonneg _))
      have a1 := one_le_mul_of_one_le_of_one_le h3 (by linarith : 1 ≤ 1 + Spec.kernelErr δ 7 (Real.pi * Spec.zoomRange δ q ny m K))
      have a2 := one_le_mul_of_one_le_of_one_le a1 (by linarith : 1 ≤ 1 + Spec.kernelErr δ 7 (Real.pi * Spec.zoomRange δ q nx l K))
      linarith
  have hok : ∀ k, k < K + 1 → ∀ s, (q ^ k ≤ s.zf) → ∃ s', zoomStepA Z (zoomOnA Z x m l) (((ny : ℝ) - 1) / 2, ((nx : ℝ) - 1) / 2) mm step s
      = .ok s' ∧ q ^ (k + 1) ≤ s'.zf := by
    intro k _ s hs
    have hq0 : (0 : ℝ) < q := by linarith
    have hzk : 0 < s.zf := (pow_pos hq0 k).trans_le hs
    have z1 : q ^ (k + 1) ≤ Z.mulR s.zf step := by
      have hm := hZ.base.mulR s.zf step
      rw [abs_of_pos (mul_pos hzk (by linarith)), abs_le] at hm
      have h2 := mul_le_mul_of_nonneg_left hqs hzk.le
      have h3 := mul_le_mul_of_nonneg_right hs hq0.le
      rw [pow_succ]
      nlinarith [hm.1]
    have hne : Z.mulR s.zf step ≠ 0 := ((pow_pos hq0 _).trans_le z1).ne'
    have e : ∀ c, zoomOnA Z x m l c (Z.mulR s.zf step) = .ok (gridViewA Z x m l c (Z.mulR s.zf step)) := fun c => by
      unfold zoomOnA
      rw [if_neg hne]
      rfl
    unfold zoomStepA
    simp only [e, bind, Except.bind]
    exact ⟨_, rfl, z1⟩
  obtain ⟨r, hr⟩ := C131_inexact_terminates hZ hstep hq hqs x mindiff m l mm rz rc K hK h
  have hr1 := hr (K + 1) le_rfl
  have hcl : ∃ res, r = .ok res := by
    unfold iterativeZoomA at hr1
    simp only [Option.map_eq_some_iff] at hr1
    obtain ⟨r0, hr0, hr1⟩ := hr1
    change zoomLoopA Z (zoomOnA Z x m l) _ mm step mindiff (K + 1) ⟨imageView x, 1, none, (0, 0)⟩ = some r0 at hr0
    obtain ⟨i, hi⟩ := hx
    cases r0 with
    | error e =>
      exfalso
      refine zoomLoopA_no_error (fun k s => q ^ k ≤ s.zf) (K + 1) hok (K + 1) 0 (by omega) _ (by simp) ⟨i, ?_⟩ e hr0
      have := hbig i hi
      exact abs_pos.1 (by linarith)
    | ok s =>
      have hcen : s.center.isSome := by
        rw [zoomLoopA] at hr0
        cases hd' : (imageView x).minDeltaA Z mm with
        | none => simp [hd'] at hr0
        | some d =>
          simp only [hd'] at hr0
          have hgt : d > mindiff := by
            have hd2 := hd'
            unfold ZoomView.minDeltaA at hd2
            simp only [Option.dite_none_right_eq_some, Option.some.injEq] at hd2
            obtain ⟨hne, hd2⟩ := hd2
            obtain ⟨j, hj, he⟩ := Finset.exists_mem_eq_inf' hne fun i => |(imageView x).deltaA Z mm i|
            have hd3 : d = |(imageView x).deltaA Z mm j| := by rw [← hd2]; exact he
            simp only [Finset.mem_filter, Finset.mem_univ, true_and, gt_iff_lt] at hj
            rw [hd3]
            refine hbig j fun hjp => ?_
            have := hdel j
            rw [hjp, sub_self, abs_zero, mul_zero, sub_zero] at this
            linarith
          rw [if_pos hgt] at hr0
          cases hst : zoomStepA Z (zoomOnA Z x m l) (((ny : ℝ) - 1) / 2, ((nx : ℝ) - 1) / 2) mm step ⟨imageView x, 1, none, (0, 0)⟩ with
          | error e => simp [hst] at hr0
          | ok s1 =>
            simp only [hst] at hr0
            have hc1 : s1.center.isSome := by rw [(zoomStepA_view hst).2.2.1]; rfl
            by_cases hall : ∀ i, s1.view.deltaA Z mm i = 0
            · rw [if_pos hall] at hr0
              simp only [Option.some.injEq, Except.ok.injEq] at hr0
              rw [← hr0]
              exact hc1
            · rw [if_neg hall] at hr0
              obtain ⟨-, -, hs⟩ := zoomLoopA_inv (fun _ s => s.center.isSome) K
                (fun k _ s s' _ hst => by rw [(zoomStepA_view hst).2.2.1]; rfl) K 0 (by omega) s1 hc1 s hr0
              exact hs
      obtain ⟨c, hc⟩ := Option.isSome_iff_exists.1 hcen
      rw [← hr1]
      cases rc <;> cases rz <;> simp [bind, Except.bind, zoomFinish, pure, Except.pure, hc]
  obtain ⟨res, rfl⟩ := hcl
  exact ⟨res, hr⟩

theorem zoomFinish_center {coords : ℝ × ℝ → List ℝ} {rz : Bool} {s : ZoomState} {res : IterZoomRes}
    (h : zoomFinish coords rz true s = .ok res) :
    ∃ c, s.center = some c ∧ res = if rz then .zoomed s.view s.zf (coords c) else .plain (coords c) := by
  unfold zoomFinish at h
  cases hc : s.center with
  | none => simp [bind, Except.bind, hc] at h
  | some c =>
    refine ⟨c, rfl, ?_⟩
    simp only [if_true, hc, bind, Except.bind, pure, Except.pure, Except.ok.injEq] at h
    exact h.symm

/-- C131: what the answer is worth.  If `iterative_zoom` (asked for the centre) returns after at most `F` tests of the loop condition, the
centre is within `(zoomshape-1)/(2(q-1))` pixels per axis, plus `F - 1` rounding errors of a coordinate, of the extremum pixel; and if
`zoomshape` is odd, the interpolated image at the centre is at most (for `np.max`: at least) every pixel, up to `F - 1` times
`Spec.zoomLoss`. -/
theorem C131_inexact_result (hZ : Spec.ZoomAccurate Z δ) (hstep : 1 < step) (hq : 1 < q) (hqs : q ≤ step * (1 - δ))
    (x : Fin ny × Fin nx → ℝ) (mindiff : ℝ) (m l : ℕ) [NeZero m] [NeZero l] (mm : MinMax) (rz : Bool) (F : ℕ) (res : IterZoomRes)
    (h : iterativeZoomA Z F x mindiff m l step mm rz true = some (.ok res)) :
    ∃ (cy cx : ℝ) (p : Fin ny × Fin nx), (res = .plain [cy, cx] ∨ ∃ v zf, res = .zoomed v zf [cy, cx]) ∧ Spec.IsFirstExt mm x p ∧
      |cy - ((p.1 : ℕ) : ℝ)| ≤ ((m : ℝ) - 1) / (2 * (q - 1)) + ((F : ℝ) - 1) * Spec.zoomCoordErr δ q ny m F ∧
      |cx - ((p.2 : ℕ) : ℝ)| ≤ ((l : ℝ) - 1) / (2 * (q - 1)) + ((F : ℝ) - 1) * Spec.zoomCoordErr δ q nx l F ∧
      (Odd m → Odd l → ∀ i, Spec.NotWorse mm (Spec.between x (cy, cx)) (x i) (((F : ℝ) - 1) * Spec.zoomLoss δ q x m l F)) := by
  have h0 := hZ.nonneg
  unfold iterativeZoomA at h
  simp only [Option.map_eq_some_iff] at h
  obtain ⟨r, hr, h⟩ := h
  cases r with
  | error e => simp [bind, Except.bind] at h
  | ok s =>
    obtain ⟨k, hk, hT⟩ := zoomLoopA_inv (Z := Z) (zoomOn := zoomOnA Z x m l) (TracedState δ q x m l mm F) F
      (fun k hk s s' hs hst => traced_step hZ hstep hq hqs x m l mm hk _ hs hst) F 0 (by omega) _
      (traced_start x m l mm F) s hr
    obtain ⟨c, hc, hres⟩ := zoomFinish_center (s := s) h
    obtain ⟨j, hj, T⟩ := hT.center c hc
    have hjF : (j : ℝ) ≤ (F : ℝ) - 1 := by
      have : j + 1 ≤ F := by omega
      have : (j : ℝ) + 1 ≤ F := by exact_mod_cast this
      linarith
    have pos : ∀ n m : ℕ, [NeZero n] → [NeZero m] → 0 ≤ Spec.zoomCoordErr δ q n m F := by
      intro n m _ _
      have h1 : (1 : ℝ) ≤ n := by exact_mod_cast Nat.pos_of_neZero n
      have := half_nonneg (q := q) hq m
      have h3 : (1 : ℝ) ≤ (1 + δ) ^ 3 := one_le_pow₀ (by linarith)
      unfold Spec.zoomCoordErr Spec.zoomRange
      exact mul_nonneg (by linarith) (mul_nonneg (by positivity) (by linarith))
    refine ⟨c.1, c.2, (imageView x).pos mm, ?_, ZoomView.pos_spec (imageView x) mm, ?_, ?_, fun hm hl i => ?_⟩
    · rw [hres]
      cases rz
      · left; rfl
      · right; exact ⟨_, _, rfl⟩
    · exact T.dy.trans (add_le_add (series_le hq m j) (mul_le_mul_of_nonneg_right hjF (pos ny m)))
    · exact T.dx.trans (add_le_add (series_le hq l j) (mul_le_mul_of_nonneg_right hjF (pos nx l)))
    · have hT := T.imp hm hl
      have hloss : 0 ≤ Spec.zoomLoss δ q x m l F := by
        have e : ∀ n m : ℕ, [NeZero n] → [NeZero m] → 0 ≤ Spec.zoomRange δ q n m F := by
          intro n m _ _
          have h1 : (1 : ℝ) ≤ n := by exact_mod_cast Nat.pos_of_neZero n
          have := half_nonneg (q := q) hq m
          unfold Spec.zoomRange
          exact mul_nonneg (by positivity) (by linarith)
        have k1 := kernelErr_nonneg h0 7 (e ny m)
        have k2 := kernelErr_nonneg h0 7 (e nx l)
        have h3 : (1 : ℝ) ≤ (1 + δ) ^ 3 := one_le_pow₀ (by linarith)
        have hv : 0 ≤ Spec.zoomViewErr δ q x m l F := by
          unfold Spec.zoomViewErr Spec.interp2Err
          refine mul_nonneg ?_ (Real.sqrt_nonneg _)
          have a1 := one_le_mul_of_one_le_of_one_le h3 (by linarith : 1 ≤ 1 + Spec.kernelErr δ 7 (Real.pi * Spec.zoomRange δ q ny m F))
          have a2 := one_le_mul_of_one_le_of_one_le a1 (by linarith : 1 ≤ 1 + Spec.kernelErr δ 7 (Real.pi * Spec.zoomRange δ q nx l F))
          linarith
        have := mul_nonneg (mul_nonneg Real.pi_pos.le (Real.sqrt_nonneg _) : 0 ≤ Real.pi * Spec.scatter x)
          (add_nonneg (pos ny m) (pos nx l))
        unfold Spec.zoomLoss
        linarith
      have hle := mul_le_mul_of_nonneg_right hjF hloss
      have hext := ZoomView.pos_spec (imageView x) mm
      unfold Spec.NotWorse at hT ⊢
      cases mm with
      | min =>
        have := hext.1 i
        change x _ ≤ x _ at this
        simp only at hT ⊢
        linarith
      | max =>
        have := hext.1 i
        change x _ ≤ x _ at this
        simp only at hT ⊢
        linarith

/-- C131: the two conventions for the coordinates in floating point: the offset is the centre minus `(shape-1)/2` up to one rounding, and the
zoomed image and factor are the same. -/
theorem C131_inexact_offset (hZ : Spec.ZoomAccurate Z δ) (fuel : ℕ) (x : Fin ny × Fin nx → ℝ) (mindiff : ℝ) (m l : ℕ) [NeZero m] [NeZero l]
    (step : ℝ) (mm : MinMax) (res : IterZoomRes)
    (h : iterativeZoomA Z fuel x mindiff m l step mm true true = some (.ok res)) :
    ∃ v zf cy cx oy ox, res = .zoomed v zf [cy, cx] ∧
      iterativeZoomA Z fuel x mindiff m l step mm true false = some (.ok (.zoomed v zf [oy, ox])) ∧
      iterativeZoomA Z fuel x mindiff m l step mm false true = some (.ok (.plain [cy, cx])) ∧
      |oy - (cy - ((ny : ℝ) - 1) / 2)| ≤ δ * |cy - ((ny : ℝ) - 1) / 2| ∧
      |ox - (cx - ((nx : ℝ) - 1) / 2)| ≤ δ * |cx - ((nx : ℝ) - 1) / 2| := by
  unfold iterativeZoomA at h ⊢
  simp only [Option.map_eq_some_iff] at h ⊢
  obtain ⟨r, hr, h⟩ := h
  cases r with
  | error e => simp [bind, Except.bind] at h
  | ok s =>
    obtain ⟨k, -, hs⟩ := zoomLoopA_inv (Z := Z) (zoomOn := zoomOnA Z x m l)
      (fun _ s => ∀ c, s.center = some c → s.offset = (Z.addR c.1 (-(((ny : ℝ) - 1) / 2)), Z.addR c.2 (-(((nx : ℝ) - 1) / 2)))) fuel
      (fun k _ s s' _ hst c hc => by
        obtain ⟨-, -, h1, h2⟩ := zoomStepA_view hst
        rw [h1] at hc
        simp only [Option.some.injEq] at hc
        subst hc
        exact h2) fuel 0 (by omega) _ (by simp) s hr
    obtain ⟨c, hc, hres⟩ := zoomFinish_center (s := s) h
    have ho := hs c hc
    have e : ∀ a b : ℝ, |Z.addR a (-b) - (a - b)| ≤ δ * |a - b| := fun a b => by
      have := hZ.base.addR a (-b)
      rwa [← sub_eq_add_neg] at this
    refine ⟨s.view, s.zf, c.1, c.2, _, _, by rw [hres]; rfl, ⟨.ok s, hr, ?_⟩, ⟨.ok s, hr, ?_⟩, e c.1 _, e c.2 _⟩
    · simp only [bind, Except.bind, zoomFinish, Bool.false_eq_true, if_false, pure, Except.pure, if_true, ho]
    · simp only [bind, Except.bind, zoomFinish, hc, Bool.false_eq_true, if_false, pure, Except.pure, if_true]

/-- C131: with a good enough arithmetic `iterative_zoom` stops: for every image, `mindiff > 0`, `zoomstep > 1` and `zoomshape` there are an
accuracy `δ₀ > 0` and a number `F` of tests such that in every arithmetic accurate to `δ₀` or better the call has an answer after `F` tests. -/
theorem C131_inexact_eventually (x : Fin ny × Fin nx → ℝ) (mindiff : ℝ) (hmd : 0 < mindiff) (m l : ℕ) [NeZero m] [NeZero l] (step : ℝ)
    (hstep : 1 < step) :
    ∃ δ₀ > 0, ∃ F, ∀ (Z : ZoomArith) (δ : ℝ), δ ≤ δ₀ → Spec.ZoomAccurate Z δ → ∀ (mm : MinMax) (rz rc : Bool),
      ∃ r, ∀ fuel, F ≤ fuel → iterativeZoomA Z fuel x mindiff m l step mm rz rc = some r := by
  set q : ℝ := (1 + step) / 2 with hqd
  have hq : 1 < q := by rw [hqd]; linarith
  set C := Real.pi * Spec.scatter x * ((m : ℝ) + l - 2) with hC
  obtain ⟨k, hk⟩ := pow_unbounded_of_one_lt (C / (mindiff / 2)) hq
  set K := k + 1 with hKd
  have hp : 0 < q ^ K := pow_pos (by linarith) K
  have hCK : C / q ^ K ≤ mindiff / 2 := by
    rw [div_lt_iff₀ (by linarith)] at hk
    rw [div_le_iff₀ hp]
    have : q ^ k ≤ q ^ K := pow_le_pow_right₀ hq.le (by omega)
    have := mul_le_mul_of_nonneg_right this (by linarith : (0 : ℝ) ≤ mindiff / 2)
    linarith
  set φ : ℝ → ℝ := fun δ => (1 + δ) * (C / q ^ K + 2 * Spec.zoomViewErr δ q x m l K) with hφ
  have hcont : Continuous φ := by
    rw [hφ]
    unfold Spec.zoomViewErr Spec.interp2Err Spec.kernelErr Spec.zoomRange
    fun_prop
  have hv0 : φ 0 < mindiff := by
    have : Spec.zoomViewErr 0 q x m l K = 0 := by
      unfold Spec.zoomViewErr Spec.interp2Err Spec.kernelErr
      simp
    simp only [hφ, this]
    linarith
  obtain ⟨ε, hε, hball⟩ := Metric.isOpen_iff.1 (isOpen_lt hcont continuous_const) (0 : ℝ) hv0
  refine ⟨min (ε / 2) ((step - 1) / (2 * step)), lt_min (by linarith) (div_pos (by linarith) (by linarith)), K + 1, ?_⟩
  intro Z δ hδ hZ mm rz rc
  have h0 := hZ.nonneg
  have h1 : δ ≤ ε / 2 := hδ.trans (min_le_left _ _)
  have h2 : δ ≤ (step - 1) / (2 * step) := hδ.trans (min_le_right _ _)
  have hqs : q ≤ step * (1 - δ) := by
    rw [le_div_iff₀ (by linarith)] at h2
    rw [hqd]
    linarith
  refine C131_inexact_terminates hZ hstep hq hqs x mindiff m l mm rz rc K (by omega) ?_
  have : δ ∈ Metric.ball (0 : ℝ) ε := by
    rw [Metric.mem_ball, Real.dist_eq, sub_zero, abs_of_nonneg h0]
    linarith
  exact (hball this).le

/-- C131: with error-free operations the inexact model is the exact one. -/
theorem C131_exact_arithmetic (hZ : Spec.ZoomAccurate Z 0) (hasFftw : Bool) (fuel : ℕ) (x : Fin ny × Fin nx → ℝ) (mindiff : ℝ) (m l : ℕ)
    [NeZero m] [NeZero l] (step : ℝ) (mm : MinMax) (rz rc : Bool) :
    iterativeZoomA Z fuel x mindiff m l step mm rz rc = iterativeZoom hasFftw fuel (realArr x) mindiff (m, l) step mm rz rc := by
  classical
  have add : ∀ a b : ℝ, Z.addR a (-b) = a - b := fun a b => by
    have := hZ.base.addR a (-b)
    rw [zero_mul, abs_nonpos_iff, sub_eq_zero] at this
    rw [this, sub_eq_add_neg]
  have mul : ∀ a b : ℝ, Z.mulR a b = a * b := fun a b => by
    have := hZ.base.mulR a b
    rwa [zero_mul, abs_nonpos_iff, sub_eq_zero] at this
  have hdelta : ∀ v : ZoomView, v.deltaA Z mm = v.delta mm := fun v => funext fun i => add _ _
  have hmin : ∀ v : ZoomView, v.minDeltaA Z mm = v.minDelta mm := fun v => by
    unfold ZoomView.minDeltaA ZoomView.minDelta
    rw [hdelta]
  have hzoom : zoomOnA Z x m l = zoomOn2 hasFftw x (m, l) := by
    funext c zf
    by_cases hz : zf = 0
    · subst hz
      unfold zoomOn2
      rw [zoomOn2_zero]
      unfold zoomOnA
      exact if_pos rfl
    · unfold zoomOn2
      rw [zoomOn2_eq _ x m l c zf hz]
      have near := fun i => gridViewA_near hZ x m l c hz le_rfl le_rfl i
      have e : zoomOnA Z x m l c zf = .ok (gridViewA Z x m l c zf) := by
        unfold zoomOnA
        rw [if_neg hz]
        rfl
      rw [e]
      have e1 : (gridViewA Z x m l c zf).yax = fun i : Fin m × Fin l => Spec.zoomGrid c.1 zf m i.1 := by
        funext i
        have := (near i).1
        simpa [sub_eq_zero] using this
      have e2 : (gridViewA Z x m l c zf).xax = fun i : Fin m × Fin l => Spec.zoomGrid c.2 zf l i.2 := by
        funext i
        have := (near i).2.1
        simpa [sub_eq_zero] using this
      have e3 : (gridViewA Z x m l c zf).data = (gridView x m l c zf).data := by
        funext i
        have := (near i).2.2.2.2
        unfold Spec.interp2Err Spec.kernelErr at this
        simpa [sub_eq_zero] using this
      unfold gridViewA at e1 e2 e3 ⊢
      unfold gridView at e3 ⊢
      simp only at e1 e2 e3
      rw [e1, e2, e3]
  have hstepA : ∀ mid s, zoomStepA Z (zoomOn2 hasFftw x (m, l)) mid mm step s = zoomStep (zoomOn2 hasFftw x (m, l)) mid mm step s := by
    intro mid s
    unfold zoomStepA zoomStep
    simp only [add, mul]
  have hloop : ∀ fuel mid s, zoomLoopA Z (zoomOn2 hasFftw x (m, l)) mid mm step mindiff fuel s
      = zoomLoop (zoomOn2 hasFftw x (m, l)) mid mm step mindiff fuel s := by
    intro fuel mid
    induction fuel with
    | zero => intro s; rfl
    | succ fuel ih =>
      intro s
      unfold zoomLoopA zoomLoop
      rw [hmin, hstepA]
      cases s.view.minDelta mm with
      | none => rfl
      | some d =>
        dsimp only
        by_cases hd : d > mindiff
        · rw [if_pos hd, if_pos hd]
          cases zoomStep (zoomOn2 hasFftw x (m, l)) mid mm step s with
          | error e => rfl
          | ok s' =>
            dsimp only
            rw [hdelta, ih]
        · rw [if_neg hd, if_neg hd]
  rw [iterativeZoom_loop]
  unfold iterativeZoomA
  rw [hzoom]
  simp only
  rw [hloop]
  rfl

end two

/-! ### cases -/

/-- a 2×2 image with one bright pixel -/
noncomputable def spot : Fin 2 × Fin 2 → ℝ := fun i => if i = (0, 0) then 4 else 0

theorem spot_norm : Real.sqrt (∑ p, spot p ^ 2) = 4 := by
  have : ∑ p, spot p ^ 2 = 4 ^ 2 := by
    rw [Fintype.sum_prod_type]
    simp [Fin.sum_univ_two, spot]
  rw [this, Real.sqrt_sq (by norm_num)]

theorem spot_scatter : Spec.scatter spot ≤ 347 / 100 := by
  unfold Spec.scatter
  have e : (∑ j, spot j) / (Fintype.card (Fin 2 × Fin 2) : ℝ) = 1 := by
    rw [Fintype.sum_prod_type]
    simp [Fin.sum_univ_two, spot]
  rw [e, Real.sqrt_le_left (by norm_num), Fintype.sum_prod_type]
  simp [Fin.sum_univ_two, spot]
  norm_num

theorem spot_spread : Real.pi * Spec.scatter spot * (((11 : ℕ) : ℝ) + (11 : ℕ) - 2) ≤ 219 := by
  have h1 := spot_scatter
  have h2 : Real.pi ≤ 315 / 100 := by have := Real.pi_lt_d2; norm_num at this ⊢; linarith
  have h3 : 0 ≤ Spec.scatter spot := Real.sqrt_nonneg _
  have h4 := mul_le_mul h2 h1 h3 (by norm_num)
  push_cast
  linarith

/-- Non-vacuity of C131: on the bright pixel, with `mindiff=1`, `zoomstep=2` and `zoomshape=(11, 11)`, at most 8 zooms are made. -/
example (hasFftw rz rc : Bool) : ∃ r, iterativeZoom hasFftw 9 (realArr spot) 1 (11, 11) 2 .max rz rc = some r ∧
    ∀ v zf out, r = .ok (.zoomed v zf out) → zf ≤ 2 ^ 8 :=
  C131_iteration_bound hasFftw spot 1 11 11 2 (by norm_num) .max rz rc 8 (by norm_num)
    (spot_spread.trans (by norm_num))

theorem spot_range : Spec.zoomRange (1 / 10 ^ 6) (19 / 10) 2 11 9 ≤ 66 / 10 ∧ 0 ≤ Spec.zoomRange (1 / 10 ^ 6) (19 / 10) 2 11 9 := by
  unfold Spec.zoomRange
  constructor <;> norm_num

theorem spot_err : Spec.zoomViewErr (1 / 10 ^ 6) (19 / 10) spot 11 11 9 ≤ 1 / 100 := by
  unfold Spec.zoomViewErr Spec.interp2Err
  rw [spot_norm]
  have hk : Spec.kernelErr (1 / 10 ^ 6) 7 (Real.pi * Spec.zoomRange (1 / 10 ^ 6) (19 / 10) 2 11 9) ≤ 2 / 10 ^ 4 := by
    unfold Spec.kernelErr
    have h2 : Real.pi ≤ 315 / 100 := by have := Real.pi_lt_d2; norm_num at this ⊢; linarith
    have h4 := mul_le_mul h2 spot_range.1 spot_range.2 (by norm_num)
    have h5 := mul_le_mul_of_nonneg_left h4 (by norm_num : (0 : ℝ) ≤ (1 + 1 / 10 ^ 6) ^ 7 - 1)
    refine (add_le_add_right h5 _).trans ?_
    norm_num
  have h0 := kernelErr_nonneg (by norm_num : (0 : ℝ) ≤ 1 / 10 ^ 6) 7 spot_range.2
  generalize Spec.kernelErr (1 / 10 ^ 6) 7 (Real.pi * Spec.zoomRange (1 / 10 ^ 6) (19 / 10) 2 11 9) = k at *
  have h6 : (1 + k) * (1 + k) ≤ (1 + 2 / 10 ^ 4) * (1 + 2 / 10 ^ 4) := by
    apply mul_le_mul <;> linarith
  have h7 := mul_le_mul_of_nonneg_left h6 (by norm_num : (0 : ℝ) ≤ (1 + 1 / 10 ^ 6) ^ 3)
  have h8 : ((1 : ℝ) + 1 / 10 ^ 6) ^ 3 * ((1 + 2 / 10 ^ 4) * (1 + 2 / 10 ^ 4)) ≤ 1 + 1 / 400 := by norm_num
  nlinarith

theorem spot_first : Spec.IsFirstExt .max spot (0, 0) := by
  refine ⟨fun i => ?_, fun j hj => ?_⟩
  · unfold spot
    split_ifs <;> simp_all
  · by_contra hc
    have h := hj (0, 0)
    unfold spot at h
    by_cases hj0 : j = (0, 0)
    · subst hj0
      exact hc le_rfl
    · rw [if_pos rfl, if_neg hj0] at h
      norm_num at h

/-- Non-vacuity of C131 in floating point: in an arithmetic with systematic errors of `10⁻⁶`, an answer after at most 9 zooms. -/
theorem spot_returns (rz rc : Bool) : ∃ res, ∀ fuel, 10 ≤ fuel →
    iterativeZoomA (ZoomArith.biased (1 / 10 ^ 6)) fuel spot 1 11 11 2 .max rz rc = some (.ok res) := by
  refine C131_inexact_returns (q := 19 / 10) (ZoomArith.biased_accurate (1 / 10 ^ 6) (by norm_num)) (by norm_num) (by norm_num)
    (by norm_num) spot 1 11 11 .max rz rc 9 (by norm_num) ?_ (0, 0) spot_first ⟨(0, 1), by simp [spot]⟩ ?_
  · have h1 := div_le_div_of_nonneg_right spot_spread (by positivity : (0 : ℝ) ≤ (19 / 10) ^ 9)
    have h2 : (219 : ℝ) / (19 / 10) ^ 9 ≤ 7 / 10 := by norm_num
    have h3 := spot_err
    have h4 := mul_le_mul_of_nonneg_left (by linarith : Real.pi * Spec.scatter spot * (((11 : ℕ) : ℝ) + (11 : ℕ) - 2) / (19 / 10) ^ 9
      + 2 * Spec.zoomViewErr (1 / 10 ^ 6) (19 / 10) spot 11 11 9 ≤ 8 / 10) (by norm_num : (0 : ℝ) ≤ 1 + 1 / 10 ^ 6)
    refine h4.trans ?_
    norm_num
  · intro i hi
    have : spot i = 0 := by
      unfold spot at hi ⊢
      split_ifs with h
      · simp [h] at hi
      · rfl
    rw [this]
    norm_num [spot]

/-- and the centre it returns is close to the bright pixel -/
example : ∃ cy cx : ℝ, iterativeZoomA (ZoomArith.biased (1 / 10 ^ 6)) 10 spot 1 11 11 2 .max false true = some (.ok (.plain [cy, cx])) ∧
    |cy| ≤ 6 ∧ |cx| ≤ 6 := by
  obtain ⟨res, h⟩ := spot_returns false true
  have h := h 10 le_rfl
  obtain ⟨cy, cx, p, hr, hp, hy, hx, -⟩ := C131_inexact_result (q := 19 / 10) (ZoomArith.biased_accurate (1 / 10 ^ 6) (by norm_num)) (by norm_num)
    (by norm_num) (by norm_num) spot 1 11 11 .max false 10 res h
  have hp0 : p = (0, 0) := (ZoomView.pos_eq (imageView spot) .max hp).symm.trans (ZoomView.pos_eq (imageView spot) .max spot_first)
  subst hp0
  have he : Spec.zoomCoordErr (1 / 10 ^ 6) (19 / 10) 2 11 10 ≤ 1 / 1000 := by
    unfold Spec.zoomCoordErr Spec.zoomRange
    norm_num
  refine ⟨cy, cx, ?_, ?_, ?_⟩
  · rw [h]
    rcases hr with rfl | ⟨v, zf, rfl⟩
    · rfl
    · unfold iterativeZoomA at h
      simp only [Option.map_eq_some_iff] at h
      obtain ⟨r, -, h⟩ := h
      cases r with
      | error e => simp [bind, Except.bind] at h
      | ok s =>
        change zoomFinish (fun c => [c.1, c.2]) false true s = _ at h
        exact absurd (zoomFinish_zoomed h).1 (by simp)
  · simp only [Fin.val_zero, Nat.cast_zero, sub_zero] at hy
    refine hy.trans ?_
    norm_num at he ⊢
    linarith
  · simp only [Fin.val_zero, Nat.cast_zero, sub_zero] at hx
    refine hx.trans ?_
    norm_num at he ⊢
    linarith

end ImgReg
