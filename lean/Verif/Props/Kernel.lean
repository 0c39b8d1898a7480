import Verif.Model.Kernel
import Mathlib.Algebra.BigOperators.Field
import Mathlib.Algebra.Order.BigOperators.Group.Finset
import Mathlib.Tactic.Ring
import Mathlib.Tactic.Linarith
import Mathlib.Tactic.NormNum
import Mathlib.Tactic.FieldSimp
import Mathlib.Tactic.Positivity
import Mathlib.Tactic.FinCases
import Mathlib.Tactic.IntervalCases

/-!
# Properties C57 (smooth, airy) and C58–C60: `make_kernel`
-/

open Finset

namespace ImgReg

/-! ## Specification -/

/-- the pixels of a kernel of the given shape -/
def Spec.pixels {D : ℕ} (n : Fin D → ℕ) : Finset (Fin D → ℕ) := Fintype.piFinset fun d => Finset.range (n d)

theorem Spec.mem_pixels {D : ℕ} {n p : Fin D → ℕ} : p ∈ Spec.pixels n ↔ ∀ d, p d < n d := by
  simp [Spec.pixels]

/-- squared distance from the pixel `n//2` -/
noncomputable def Spec.distSqPix {D : ℕ} (n p : Fin D → ℕ) : ℝ := ∑ d, ((p d : ℝ) - ((n d / 2 : ℕ) : ℝ)) ^ 2

/-- squared distance from the geometric centre `(n-1)/2` -/
noncomputable def Spec.distSqMid {D : ℕ} (n p : Fin D → ℕ) : ℝ := ∑ d, ((p d : ℝ) - ((n d : ℝ) - 1) / 2) ^ 2

/-- `k` has shape `n` and the finite values `v` -/
def Spec.HasValues {D : ℕ} (k : NArr D) (n : Fin D → ℕ) (v : (Fin D → ℕ) → ℝ) : Prop :=
  k.shape = n ∧ ∀ p ∈ Spec.pixels n, k.val p = some (v p)

/-- the default normalisations: `np.sum` or `True` -/
def Spec.DefaultNorm {D : ℕ} (nk : NormArg D) : Prop := nk = .true ∨ nk = .fn NArr.sum

/-! ## Lemmas -/

theorem rrGauss_eq {D : ℕ} (n p : Fin D → ℕ) (hn : ∀ d, 0 < n d) :
    rrGauss n p = Real.sqrt (Spec.distSqPix n p) := by
  unfold rrGauss Spec.distSqPix
  congr 1
  refine Finset.sum_congr rfl fun d _ => ?_
  rw [Nat.sub_add_cancel (hn d)]

theorem rrMid_eq {D : ℕ} (n p : Fin D → ℕ) (hn : ∀ d, 0 < n d) :
    rrMid n p = Real.sqrt (Spec.distSqMid n p) := by
  unfold rrMid Spec.distSqMid
  congr 1
  refine Finset.sum_congr rfl fun d _ => ?_
  rw [Nat.cast_sub (hn d)]; simp

theorem distSqPix_nonneg {D : ℕ} (n p : Fin D → ℕ) : 0 ≤ Spec.distSqPix n p :=
  Finset.sum_nonneg fun _ _ => sq_nonneg _

theorem distSqMid_nonneg {D : ℕ} (n p : Fin D → ℕ) : 0 ≤ Spec.distSqMid n p :=
  Finset.sum_nonneg fun _ _ => sq_nonneg _

theorem sum_some {D : ℕ} (n : Fin D → ℕ) (v : (Fin D → ℕ) → ℝ) :
    (⟨n, fun p => some (v p)⟩ : NArr D).sum = some (∑ p ∈ Spec.pixels n, v p) := by
  unfold NArr.sum
  rw [if_pos (by intro p _; simp)]
  rfl

/-- dividing by the sum -/
theorem divSum_values {D : ℕ} (n : Fin D → ℕ) (v : (Fin D → ℕ) → ℝ) (h : ∑ p ∈ Spec.pixels n, v p ≠ 0) :
    Spec.HasValues ((⟨n, fun p => some (v p)⟩ : NArr D).divScalar (NArr.sum ⟨n, fun p => some (v p)⟩)) n
      (fun p => v p / ∑ q ∈ Spec.pixels n, v q) := by
  rw [sum_some]
  exact ⟨rfl, fun p _ => by simp [NArr.divScalar, h]⟩

theorem divSum_zero {D : ℕ} (n : Fin D → ℕ) (v : (Fin D → ℕ) → ℝ) (h : ∑ p ∈ Spec.pixels n, v p = 0) (p : Fin D → ℕ) :
    ((⟨n, fun p => some (v p)⟩ : NArr D).divScalar (NArr.sum ⟨n, fun p => some (v p)⟩)).val p = none := by
  rw [sum_some]
  simp [NArr.divScalar, h]

theorem normalize_default {D : ℕ} (nk : NormArg D) (hnk : Spec.DefaultNorm nk) (k : NArr D) :
    normalizeKernel nk k = .ok (k.divScalar k.sum) := by
  rcases hnk with rfl | rfl <;> rfl

/-- the shape after `force_odd` -/
def Spec.oddShape {D : ℕ} (forceOdd : Bool) (n : Fin D → ℕ) : Fin D → ℕ :=
  fun d => if forceOdd = true ∧ n d % 2 = 0 then n d - 1 else n d

theorem oddShape_eq {D : ℕ} (fo : Bool) (n : Fin D → ℕ) :
    (if fo then fun d => if n d % 2 = 0 then n d - 1 else n d else n) = Spec.oddShape fo n := by
  funext d
  cases fo <;> simp [Spec.oddShape]

theorem oddShape_pos {D : ℕ} (fo : Bool) (n : Fin D → ℕ) (hn : ∀ d, 0 < n d) (d : Fin D) :
    0 < Spec.oddShape fo n d := by
  unfold Spec.oddShape
  have := hn d
  split_ifs with h <;> omega

theorem cells_nonempty {D : ℕ} (n : Fin D → ℕ) (hn : ∀ d, 0 < n d) : (NArr.cells n).Nonempty :=
  ⟨fun _ => 0, by simpa [NArr.cells] using hn⟩

/-- the gaussian and tophat kernels before normalisation -/
noncomputable def Spec.gauss {D : ℕ} (n : Fin D → ℕ) (w : ℝ) (p : Fin D → ℕ) : ℝ :=
  Real.exp (-(Spec.distSqPix n p) / (2 * w ^ 2))

open Classical in
/-- (see `Spec.gauss`) -/
noncomputable def Spec.tophat {D : ℕ} (n : Fin D → ℕ) (w : ℝ) (p : Fin D → ℕ) : ℝ :=
  if 0 < w ∧ Spec.distSqMid n p < w ^ 2 then 1 else 0

theorem rrMid_lt_iff {D : ℕ} (n p : Fin D → ℕ) (hn : ∀ d, 0 < n d) (w : ℝ) :
    rrMid n p < w ↔ 0 < w ∧ Spec.distSqMid n p < w ^ 2 := by
  rw [rrMid_eq n p hn]
  constructor
  · intro h
    have h0 := Real.sqrt_nonneg (Spec.distSqMid n p)
    have hw : 0 < w := lt_of_le_of_lt h0 h
    exact ⟨hw, (Real.sqrt_lt' hw).1 h⟩
  · rintro ⟨hw, h⟩
    exact (Real.sqrt_lt' hw).2 h

theorem makeKernel_gaussian {D : ℕ} (sc : Bool) (n : Fin D → ℕ) (hn : ∀ d, 0 < n d) (w : KWidth) (hw : w.val ≠ 0)
    (sl : Option ℝ) (nk : NormArg D) (fo : Bool) :
    makeKernel sc n w .gaussian sl nk fo
      = normalizeKernel nk ⟨Spec.oddShape fo n, fun p => some (Spec.gauss (Spec.oddShape fo n) w.val p)⟩ := by
  unfold makeKernel
  simp only [oddShape_eq]
  rw [if_neg (by rintro ⟨d, hd⟩; have := hn d; omega)]
  congr 2
  funext p
  unfold gaussPix Spec.gauss
  rw [if_neg hw, rrGauss_eq _ _ (oddShape_pos fo n hn), Real.sq_sqrt (distSqPix_nonneg _ _)]

theorem makeKernel_tophat {D : ℕ} (sc : Bool) (n : Fin D → ℕ) (hn : ∀ d, 0 < n d) (w : KWidth)
    (sl : Option ℝ) (nk : NormArg D) (fo : Bool) :
    makeKernel sc n w .tophat sl nk fo
      = normalizeKernel nk ⟨Spec.oddShape fo n, fun p => some (Spec.tophat (Spec.oddShape fo n) w.val p)⟩ := by
  unfold makeKernel
  simp only [oddShape_eq]
  rw [if_neg (by rintro ⟨d, hd⟩; have := hn d; omega)]
  congr 2
  funext p
  unfold Spec.tophat
  have := rrMid_lt_iff (Spec.oddShape fo n) p (oddShape_pos fo n hn) w.val
  by_cases h : rrMid (Spec.oddShape fo n) p < w.val
  · rw [if_pos h, if_pos (this.1 h)]
  · rw [if_neg h, if_neg (fun hc => h (this.2 hc))]

open Classical in
/-- the trapezoid before normalisation: a cone of height `R` and slope `slope`, cut at 0, with a flat top
of height 1 inside the radius `w`; `R` is the largest distance from the centre of a pixel -/
noncomputable def Spec.trapezoid {D : ℕ} (n : Fin D → ℕ) (R w slope : ℝ) (p : Fin D → ℕ) : ℝ :=
  if 0 < w ∧ Spec.distSqMid n p < w ^ 2 then 1 else max 0 (R - Real.sqrt (Spec.distSqMid n p) * slope)

/-- `R` is the largest distance of a pixel from the centre -/
def Spec.IsMaxDist {D : ℕ} (n : Fin D → ℕ) (R : ℝ) : Prop :=
  (∃ p ∈ Spec.pixels n, R = Real.sqrt (Spec.distSqMid n p)) ∧
    ∀ p ∈ Spec.pixels n, Real.sqrt (Spec.distSqMid n p) ≤ R

theorem makeKernel_trapezoid {D : ℕ} (sc : Bool) (n : Fin D → ℕ) (hn : ∀ d, 0 < n d) (w : KWidth)
    (slope : ℝ) (hs : slope ≠ 0) (nk : NormArg D) (fo : Bool) :
    ∃ R, Spec.IsMaxDist (Spec.oddShape fo n) R ∧
    makeKernel sc n w .trapezoid (some slope) nk fo
      = .ok ((⟨Spec.oddShape fo n, fun p => some (Spec.trapezoid (Spec.oddShape fo n) R w.val slope p)⟩ : NArr D).divScalar
          (NArr.sum ⟨Spec.oddShape fo n, fun p => some (Spec.trapezoid (Spec.oddShape fo n) R w.val slope p)⟩)) := by
  have hpos := oddShape_pos fo n hn
  have hne := cells_nonempty (Spec.oddShape fo n) hpos
  refine ⟨(NArr.cells (Spec.oddShape fo n)).sup' hne (rrMid (Spec.oddShape fo n)), ⟨?_, ?_⟩, ?_⟩
  · obtain ⟨p, hp, he⟩ := Finset.exists_mem_eq_sup' hne (rrMid (Spec.oddShape fo n))
    exact ⟨p, hp, by rw [he, rrMid_eq _ _ hpos]⟩
  · intro p hp
    rw [← rrMid_eq _ _ hpos]
    exact Finset.le_sup' (rrMid (Spec.oddShape fo n)) hp
  · unfold makeKernel
    simp only [oddShape_eq]
    rw [dif_pos ⟨hne, by rintro ⟨d, hd⟩; have := hn d; omega⟩]
    simp only [hs, if_false]
    have hk : trapKernel (Spec.oddShape fo n) hne w.val slope
        = ⟨Spec.oddShape fo n, fun p => some (Spec.trapezoid (Spec.oddShape fo n)
            ((NArr.cells (Spec.oddShape fo n)).sup' hne (rrMid (Spec.oddShape fo n))) w.val slope p)⟩ := by
      unfold trapKernel
      simp only
      congr 1
      funext p
      congr 1
      unfold Spec.trapezoid
      have := rrMid_lt_iff (Spec.oddShape fo n) p hpos w.val
      by_cases h : rrMid (Spec.oddShape fo n) p < w.val
      · rw [if_pos h, if_pos (this.1 h)]
      · rw [if_neg h, if_neg (fun hc => h (this.2 hc)), ← rrMid_eq _ _ hpos]
        split_ifs with h2
        · rw [max_eq_left h2.le]
        · rw [max_eq_right (not_lt.1 h2)]
    rw [hk]

/-! ## C58 -/

/-- C58, gaussian: with `np.sum` (or `True`) the kernel is `exp(-d²/2w²)`, `d` the distance from pixel
`n//2`, divided by its sum over the kernel. -/
theorem C58_gaussian {D : ℕ} (sc : Bool) (n : Fin D → ℕ) (hn : ∀ d, 0 < n d) (w : KWidth) (hw : w.val ≠ 0)
    (sl : Option ℝ) (nk : NormArg D) (hnk : Spec.DefaultNorm nk) (fo : Bool) :
    ∃ k, makeKernel sc n w .gaussian sl nk fo = .ok k ∧
      Spec.HasValues k (Spec.oddShape fo n) fun p => Spec.gauss (Spec.oddShape fo n) w.val p
        / ∑ q ∈ Spec.pixels (Spec.oddShape fo n), Spec.gauss (Spec.oddShape fo n) w.val q := by
  rw [makeKernel_gaussian sc n hn w hw sl nk fo, normalize_default nk hnk]
  refine ⟨_, rfl, divSum_values _ _ ?_⟩
  exact (Finset.sum_pos (fun p _ => Real.exp_pos _) (cells_nonempty _ (oddShape_pos fo n hn))).ne'

/-- C58, gaussian of width 0: every pixel is NaN. -/
theorem C58_gaussian_width_zero {D : ℕ} (sc : Bool) (n : Fin D → ℕ) (hn : ∀ d, 0 < n d) (w : KWidth) (hw : w.val = 0)
    (sl : Option ℝ) (nk : NormArg D) (hnk : Spec.DefaultNorm nk) :
    ∃ k, makeKernel sc n w .gaussian sl nk false = .ok k ∧ ∀ p, k.val p = none := by
  unfold makeKernel
  simp only [Bool.false_eq_true, if_false]
  rw [if_neg (by rintro ⟨d, hd⟩; have := hn d; omega), normalize_default nk hnk]
  refine ⟨_, rfl, fun p => ?_⟩
  unfold NArr.sum
  rw [if_neg]
  · simp only [NArr.divScalar]
    split <;> simp_all
  · intro h
    refine h (fun d => n d / 2) ?_ ?_
    · simp only [NArr.cells, Fintype.mem_piFinset, Finset.mem_range]
      intro d; have := hn d; omega
    · simp only [gaussPix, hw, if_true]
      rw [if_pos]
      rw [rrGauss_eq n _ hn]
      simp [Spec.distSqPix]

/-- C58, gaussian of width 0 normalised by a function that returns a finite number other than 0 (such as `lambda k: 1`): NaN at the pixel `n//2` and 0 in every other pixel. -/
theorem C58_gaussian_width_zero_custom {D : ℕ} (sc : Bool) (n : Fin D → ℕ) (hn : ∀ d, 0 < n d) (w : KWidth) (hw : w.val = 0)
    (sl : Option ℝ) (f : NArr D → Pix) (fo : Bool) (c : ℝ) (hc : c ≠ 0) (hf : ∀ k, f k = some c) :
    ∃ k, makeKernel sc n w .gaussian sl (.fn f) fo = .ok k ∧ k.shape = Spec.oddShape fo n ∧
      ∀ p ∈ Spec.pixels (Spec.oddShape fo n), k.val p = if p = (fun d => Spec.oddShape fo n d / 2) then none else some 0 := by
  unfold makeKernel
  simp only [oddShape_eq]
  rw [if_neg (by rintro ⟨d, hd⟩; have := hn d; omega)]
  refine ⟨_, rfl, rfl, fun p _ => ?_⟩
  have h0 : rrGauss (Spec.oddShape fo n) p = 0 ↔ p = fun d => Spec.oddShape fo n d / 2 := by
    rw [rrGauss_eq _ _ (oddShape_pos fo n hn)]
    unfold Spec.distSqPix
    rw [Real.sqrt_eq_zero (Finset.sum_nonneg fun d _ => sq_nonneg _)]
    rw [Finset.sum_eq_zero_iff_of_nonneg fun d _ => sq_nonneg _]
    constructor
    · intro h
      funext d
      have := h d (Finset.mem_univ d)
      rw [sq_eq_zero_iff, sub_eq_zero] at this
      exact_mod_cast this
    · rintro rfl d _
      simp
  simp only [NArr.divScalar, hf, gaussPix, hw, if_true, h0]
  split_ifs <;> simp [hc]

/-- C58: the gaussian kernel peaks at pixel `n//2` and nowhere else. -/
theorem C58_gaussian_peak {D : ℕ} (sc : Bool) (n : Fin D → ℕ) (hn : ∀ d, 0 < n d) (w : KWidth) (hw : w.val ≠ 0)
    (sl : Option ℝ) (nk : NormArg D) (hnk : Spec.DefaultNorm nk) (fo : Bool) :
    ∃ k v, makeKernel sc n w .gaussian sl nk fo = .ok k ∧ Spec.HasValues k (Spec.oddShape fo n) v ∧
      ∀ p ∈ Spec.pixels (Spec.oddShape fo n), p ≠ (fun d => Spec.oddShape fo n d / 2) →
        v p < v fun d => Spec.oddShape fo n d / 2 := by
  obtain ⟨k, hk, hv⟩ := C58_gaussian sc n hn w hw sl nk hnk fo
  refine ⟨k, _, hk, hv, fun p hp hne => ?_⟩
  have hS : 0 < ∑ q ∈ Spec.pixels (Spec.oddShape fo n), Spec.gauss (Spec.oddShape fo n) w.val q :=
    Finset.sum_pos (fun p _ => Real.exp_pos _) (cells_nonempty _ (oddShape_pos fo n hn))
  refine div_lt_div_of_pos_right ?_ hS
  unfold Spec.gauss
  rw [Real.exp_lt_exp]
  have hw2 : 0 < 2 * w.val ^ 2 := by positivity
  refine div_lt_div_of_pos_right ?_ hw2
  have h0 : Spec.distSqPix (Spec.oddShape fo n) (fun d => Spec.oddShape fo n d / 2) = 0 := by
    simp [Spec.distSqPix]
  rw [h0, neg_lt_neg_iff]
  obtain ⟨d, hd⟩ := Function.ne_iff.1 hne
  refine Finset.sum_pos' (fun _ _ => sq_nonneg _) ⟨d, Finset.mem_univ d, ?_⟩
  have : ((p d : ℝ) - ((Spec.oddShape fo n d / 2 : ℕ) : ℝ)) ≠ 0 := by
    rw [sub_ne_zero]; exact_mod_cast hd
  positivity

/-- C58: the gaussian kernel is symmetric about pixel `n//2`. -/
theorem C58_gaussian_symmetric {D : ℕ} (sc : Bool) (n : Fin D → ℕ) (hn : ∀ d, 0 < n d) (w : KWidth) (hw : w.val ≠ 0)
    (sl : Option ℝ) (nk : NormArg D) (hnk : Spec.DefaultNorm nk) (fo : Bool) :
    ∃ k, makeKernel sc n w .gaussian sl nk fo = .ok k ∧
      ∀ p ∈ Spec.pixels (Spec.oddShape fo n), ∀ q ∈ Spec.pixels (Spec.oddShape fo n),
        (∀ d, p d + q d = 2 * (Spec.oddShape fo n d / 2)) → k.val p = k.val q := by
  obtain ⟨k, hk, hv⟩ := C58_gaussian sc n hn w hw sl nk hnk fo
  refine ⟨k, hk, fun p hp q hq h => ?_⟩
  rw [hv.2 p hp, hv.2 q hq]
  have hdist : Spec.distSqPix (Spec.oddShape fo n) p = Spec.distSqPix (Spec.oddShape fo n) q := by
   unfold Spec.distSqPix
   refine Finset.sum_congr rfl fun d _ => ?_
   have hd : (p d : ℝ) + (q d : ℝ) = 2 * ((Spec.oddShape fo n d / 2 : ℕ) : ℝ) := by exact_mod_cast h d
   have : (p d : ℝ) = 2 * ((Spec.oddShape fo n d / 2 : ℕ) : ℝ) - q d := by linarith
   rw [this]; ring
  unfold Spec.gauss
  simp only
  rw [hdist]

open Classical in
/-- C58, tophat: `1/N` at the `N` pixels closer than the width to the geometric centre and 0 elsewhere; if
there is no such pixel every value is NaN. -/
theorem C58_tophat {D : ℕ} (sc : Bool) (n : Fin D → ℕ) (hn : ∀ d, 0 < n d) (w : KWidth) (hw : 0 < w.val)
    (sl : Option ℝ) (nk : NormArg D) (hnk : Spec.DefaultNorm nk) (fo : Bool) :
    ∃ k, makeKernel sc n w .tophat sl nk fo = .ok k ∧ k.shape = Spec.oddShape fo n ∧
      (let inside := (Spec.pixels (Spec.oddShape fo n)).filter fun p =>
          Spec.distSqMid (Spec.oddShape fo n) p < w.val ^ 2
       (inside.Nonempty → ∀ p ∈ Spec.pixels (Spec.oddShape fo n),
          k.val p = some (if p ∈ inside then 1 / (inside.card : ℝ) else 0)) ∧
       (¬ inside.Nonempty → ∀ p, k.val p = none)) := by
  rw [makeKernel_tophat sc n hn w sl nk fo, normalize_default nk hnk]
  have hsum : ∑ p ∈ Spec.pixels (Spec.oddShape fo n), Spec.tophat (Spec.oddShape fo n) w.val p
      = (((Spec.pixels (Spec.oddShape fo n)).filter fun p =>
          Spec.distSqMid (Spec.oddShape fo n) p < w.val ^ 2).card : ℝ) := by
    unfold Spec.tophat
    simp only [hw, true_and]
    rw [Finset.sum_ite]; simp
  refine ⟨_, rfl, rfl, ?_, ?_⟩
  · intro hne p hp
    have hc : ((((Spec.pixels (Spec.oddShape fo n)).filter fun p =>
          Spec.distSqMid (Spec.oddShape fo n) p < w.val ^ 2).card : ℕ) : ℝ) ≠ 0 := by
      exact_mod_cast hne.card_pos.ne'
    have := (divSum_values (Spec.oddShape fo n) (Spec.tophat (Spec.oddShape fo n) w.val)
      (by rw [hsum]; exact hc)).2 p hp
    rw [this, hsum]
    congr 1
    unfold Spec.tophat
    simp only [hw, true_and, Finset.mem_filter, hp]
    split_ifs <;> simp
  · intro hne p
    refine divSum_zero _ _ ?_ p
    rw [hsum]
    rw [Finset.not_nonempty_iff_eq_empty] at hne
    rw [hne]; simp

/-- C58: whatever the kernel type, with the default normalisation a returned kernel either has all its
values finite, non-negative and summing to 1, or is NaN at every pixel. -/
theorem C58_normalised {D : ℕ} (sc : Bool) (n : Fin D → ℕ) (hn : ∀ d, 0 < n d) (w : KWidth) (kt : KType)
    (sl : Option ℝ) (nk : NormArg D) (hnk : Spec.DefaultNorm nk) (fo : Bool) (k : NArr D)
    (hk : makeKernel sc n w kt sl nk fo = .ok k) :
    (∃ v, Spec.HasValues k (Spec.oddShape fo n) v ∧ (∀ p, 0 ≤ v p) ∧ ∑ p ∈ Spec.pixels (Spec.oddShape fo n), v p = 1)
      ∨ ∀ p ∈ Spec.pixels (Spec.oddShape fo n), k.val p = none := by
  have main : ∀ (u : (Fin D → ℕ) → ℝ), (∀ p, 0 ≤ u p) →
      k = (⟨Spec.oddShape fo n, fun p => some (u p)⟩ : NArr D).divScalar
        (NArr.sum ⟨Spec.oddShape fo n, fun p => some (u p)⟩) →
      (∃ v, Spec.HasValues k (Spec.oddShape fo n) v ∧ (∀ p, 0 ≤ v p) ∧
          ∑ p ∈ Spec.pixels (Spec.oddShape fo n), v p = 1)
        ∨ ∀ p ∈ Spec.pixels (Spec.oddShape fo n), k.val p = none := by
    intro u hu hke
    by_cases h : ∑ p ∈ Spec.pixels (Spec.oddShape fo n), u p = 0
    · right
      intro p _
      rw [hke]
      exact divSum_zero _ _ h p
    · left
      refine ⟨fun p => u p / ∑ q ∈ Spec.pixels (Spec.oddShape fo n), u q, ?_, ?_, ?_⟩
      · rw [hke]; exact divSum_values _ _ h
      · exact fun p => div_nonneg (hu p) (Finset.sum_nonneg fun q _ => hu q)
      · rw [← Finset.sum_div, div_self h]
  cases kt with
  | gaussian =>
    by_cases hw : w.val = 0
    · right
      unfold makeKernel at hk
      simp only [oddShape_eq] at hk
      rw [if_neg (by rintro ⟨d, hd⟩; have := hn d; omega), normalize_default nk hnk] at hk
      obtain rfl := Except.ok.inj hk
      have hpos := oddShape_pos fo n hn
      intro p _
      unfold NArr.sum
      rw [if_neg]
      · simp only [NArr.divScalar]
        split <;> simp_all
      · intro h
        refine h (fun d => Spec.oddShape fo n d / 2) ?_ ?_
        · simp only [NArr.cells, Fintype.mem_piFinset, Finset.mem_range]
          intro d; have := hpos d; omega
        · simp only [gaussPix, hw, if_true]
          rw [if_pos]
          rw [rrGauss_eq _ _ hpos]
          simp [Spec.distSqPix]
    · rw [makeKernel_gaussian sc n hn w hw sl nk fo, normalize_default nk hnk] at hk
      exact main _ (fun p => (Real.exp_pos _).le) (Except.ok.inj hk).symm
  | boxcar =>
    unfold makeKernel at hk
    simp only [oddShape_eq] at hk
    rw [if_neg (by rintro ⟨⟨d, hd⟩, _⟩; have := hn d; omega)] at hk
    cases w with
    | float w => simp at hk
    | int w =>
      simp only at hk
      rw [normalize_default nk hnk] at hk
      classical
      have hb : boxKernel (Spec.oddShape fo n) w = ⟨Spec.oddShape fo n, fun p => some
          (if ∀ d, (boxSlice (Spec.oddShape fo n d) w).1 ≤ p d ∧
            p d < (boxSlice (Spec.oddShape fo n d) w).1 + (boxSlice (Spec.oddShape fo n d) w).2 then 1 else 0)⟩ := by
        unfold boxKernel
        congr 1
        funext p
        split_ifs <;> rfl
      rw [hb] at hk
      exact main _ (fun p => by split_ifs <;> norm_num) (Except.ok.inj hk).symm
  | tophat =>
    rw [makeKernel_tophat sc n hn w sl nk fo, normalize_default nk hnk] at hk
    exact main _ (fun p => by unfold Spec.tophat; split_ifs <;> norm_num) (Except.ok.inj hk).symm
  | brickwall => unfold makeKernel at hk; simp only at hk; split_ifs at hk
  | airy => unfold makeKernel at hk; simp only at hk; split_ifs at hk
  | other => unfold makeKernel at hk; simp at hk
  | trapezoid =>
    cases sl with
    | none =>
      unfold makeKernel at hk
      simp only at hk
      split_ifs at hk
    | some slope =>
      by_cases hs : slope = 0
      · unfold makeKernel at hk
        simp only [hs, if_true] at hk
        split_ifs at hk
      · obtain ⟨R, _, hR⟩ := makeKernel_trapezoid sc n hn w slope hs nk fo
        rw [hR] at hk
        refine main _ (fun p => ?_) (Except.ok.inj hk).symm
        unfold Spec.trapezoid
        split_ifs
        · norm_num
        · exact le_max_left _ _

/-- the number the caller passed as `kernelwidth` -/
def Spec.IsWidth (w : KWidth) (x : ℝ) : Prop := w = .float x ∨ ∃ m, w = .int m ∧ x = m

/-- C58: a width is used as the number it is, whether the caller wrote it as an integer or as a float: a gaussian of
width `x` is `exp(-d²/2x²)` over its sum, and a tophat of width `x` is constant where `d < x` and 0 elsewhere. -/
theorem C58_width_as_given {D : ℕ} (sc : Bool) (n : Fin D → ℕ) (hn : ∀ d, 0 < n d) (w : KWidth) (x : ℝ)
    (hw : Spec.IsWidth w x) (hx : 0 < x) (sl : Option ℝ) (nk : NormArg D) (hnk : Spec.DefaultNorm nk) (fo : Bool) :
    (∃ k, makeKernel sc n w .gaussian sl nk fo = .ok k ∧
      Spec.HasValues k (Spec.oddShape fo n) fun p => Spec.gauss (Spec.oddShape fo n) x p
        / ∑ q ∈ Spec.pixels (Spec.oddShape fo n), Spec.gauss (Spec.oddShape fo n) x q) ∧
    ∃ k, makeKernel sc n w .tophat sl nk fo = .ok k ∧ k.shape = Spec.oddShape fo n ∧
      (let inside := (Spec.pixels (Spec.oddShape fo n)).filter fun p =>
          Spec.distSqMid (Spec.oddShape fo n) p < x ^ 2
       (inside.Nonempty → ∀ p ∈ Spec.pixels (Spec.oddShape fo n),
          k.val p = some (if p ∈ inside then 1 / (inside.card : ℝ) else 0)) ∧
       (¬ inside.Nonempty → ∀ p, k.val p = none)) := by
  have hv : w.val = x := by
    rcases hw with rfl | ⟨m, rfl, rfl⟩ <;> rfl
  rw [← hv]
  rw [← hv] at hx
  exact ⟨C58_gaussian sc n hn w hx.ne' sl nk hnk fo, C58_tophat sc n hn w hx sl nk hnk fo⟩

/-- a gaussian of width 3/2 on 5 × 5 pixels -/
example : ∃ k, makeKernel (D := 2) false (fun _ => 5) (.float (3 / 2)) .gaussian none .true false = .ok k ∧
    Spec.HasValues k (Spec.oddShape false fun _ => 5) fun p => Spec.gauss (Spec.oddShape false fun _ => 5) (3 / 2) p
      / ∑ q ∈ Spec.pixels (D := 2) (Spec.oddShape false fun _ => 5), Spec.gauss (Spec.oddShape false fun _ => 5) (3 / 2) q :=
  (C58_width_as_given false (fun _ => 5) (by simp) _ _ (Or.inl rfl) (by norm_num) none .true (Or.inl rfl) false).1

/-- C58, trapezoid: whatever `normalize_kernel` is, the kernel is the trapezoid divided by its sum. -/
theorem C58_trapezoid {D : ℕ} (sc : Bool) (n : Fin D → ℕ) (hn : ∀ d, 0 < n d) (w : KWidth) (slope : ℝ)
    (hs : slope ≠ 0) (nk : NormArg D) (fo : Bool) (R : ℝ) (hR : Spec.IsMaxDist (Spec.oddShape fo n) R)
    (hpos : ∃ p ∈ Spec.pixels (Spec.oddShape fo n), Spec.trapezoid (Spec.oddShape fo n) R w.val slope p ≠ 0) :
    ∃ k, makeKernel sc n w .trapezoid (some slope) nk fo = .ok k ∧
      Spec.HasValues k (Spec.oddShape fo n) fun p => Spec.trapezoid (Spec.oddShape fo n) R w.val slope p
        / ∑ q ∈ Spec.pixels (Spec.oddShape fo n), Spec.trapezoid (Spec.oddShape fo n) R w.val slope q := by
  obtain ⟨R', hR', h⟩ := makeKernel_trapezoid sc n hn w slope hs nk fo
  have : R' = R := by
    obtain ⟨⟨p, hp, e⟩, hle⟩ := hR
    obtain ⟨⟨p', hp', e'⟩, hle'⟩ := hR'
    refine le_antisymm ?_ ?_
    · rw [e']; exact hle _ hp'
    · rw [e]; exact hle' _ hp
  subst this
  refine ⟨_, h, divSum_values _ _ ?_⟩
  obtain ⟨p, hp, hne⟩ := hpos
  have hnn : ∀ q, 0 ≤ Spec.trapezoid (Spec.oddShape fo n) R' w.val slope q := by
    intro q
    unfold Spec.trapezoid
    split_ifs
    · norm_num
    · exact le_max_left _ _
  exact (Finset.sum_pos' (fun q _ => hnn q) ⟨p, hp, lt_of_le_of_ne (hnn p) hne.symm⟩).ne'

/-- C58: tophat and trapezoid kernels do not change when all axes are reversed. -/
theorem C58_reversal {D : ℕ} (sc : Bool) (n : Fin D → ℕ) (hn : ∀ d, 0 < n d) (w : KWidth) (kt : KType)
    (hkt : kt = .tophat ∨ kt = .trapezoid) (sl : Option ℝ) (nk : NormArg D) (fo : Bool) (k : NArr D)
    (hk : makeKernel sc n w kt sl nk fo = .ok k) (p : Fin D → ℕ) (hp : p ∈ Spec.pixels (Spec.oddShape fo n)) :
    k.val (fun d => Spec.oddShape fo n d - 1 - p d) = k.val p := by
  rw [Spec.mem_pixels] at hp
  have hd : Spec.distSqMid (Spec.oddShape fo n) (fun d => Spec.oddShape fo n d - 1 - p d)
      = Spec.distSqMid (Spec.oddShape fo n) p := by
    unfold Spec.distSqMid
    refine Finset.sum_congr rfl fun d _ => ?_
    have := hp d
    rw [Nat.cast_sub (by omega), Nat.cast_sub (by omega)]
    push_cast
    ring
  rcases hkt with rfl | rfl
  · rw [makeKernel_tophat sc n hn w sl nk fo] at hk
    have ht : Spec.tophat (Spec.oddShape fo n) w.val (fun d => Spec.oddShape fo n d - 1 - p d)
        = Spec.tophat (Spec.oddShape fo n) w.val p := by
      unfold Spec.tophat; rw [hd]
    cases nk with
    | notCallable => simp [normalizeKernel] at hk
    | «true» =>
      obtain rfl := Except.ok.inj hk
      simp only [NArr.divScalar, ht]
    | fn f =>
      obtain rfl := Except.ok.inj hk
      simp only [NArr.divScalar, ht]
  · cases sl with
    | none =>
      unfold makeKernel at hk
      simp only at hk
      split_ifs at hk
    | some slope =>
      by_cases hs : slope = 0
      · unfold makeKernel at hk
        simp only [hs, if_true] at hk
        split_ifs at hk
      · obtain ⟨R, _, hR⟩ := makeKernel_trapezoid sc n hn w slope hs nk fo
        rw [hR] at hk
        obtain rfl := Except.ok.inj hk
        have ht : Spec.trapezoid (Spec.oddShape fo n) R w.val slope (fun d => Spec.oddShape fo n d - 1 - p d)
            = Spec.trapezoid (Spec.oddShape fo n) R w.val slope p := by
          unfold Spec.trapezoid; rw [hd]
        simp only [NArr.divScalar, ht]

/-! ## C59 -/

/-- C59: errors of `make_kernel` that do not depend on the kernel's values. -/
theorem C59_errors {D : ℕ} (sc : Bool) (n : Fin D → ℕ) (hn : ∀ d, 0 < n d) (w : KWidth) (sl : Option ℝ)
    (nk : NormArg D) (fo : Bool) :
    makeKernel sc n w .other sl nk fo = .error .unboundLocalError ∧
    makeKernel sc n w .trapezoid none nk fo = .error .valueError ∧
    makeKernel sc n w .trapezoid (some 0) nk fo = .error .valueError ∧
    (∀ x, makeKernel sc n (.float x) .boxcar sl nk fo = .error .typeError) ∧
    (∀ kt, kt = .gaussian ∨ kt = .boxcar ∨ kt = .tophat →
      makeKernel sc n w kt sl .notCallable fo = .error .typeError) := by
  refine ⟨rfl, ?_, ?_, ?_, ?_⟩
  · unfold makeKernel; simp only; split_ifs <;> rfl
  · unfold makeKernel; simp only [if_true]; split_ifs <;> rfl
  · intro x
    unfold makeKernel
    simp only
    rw [if_neg (by rintro ⟨⟨d, hd⟩, _⟩; have := hn d; omega)]
  · intro kt hkt
    unfold makeKernel
    rcases hkt with rfl | rfl | rfl
    · simp only
      rw [if_neg (by rintro ⟨d, hd⟩; have := hn d; omega)]
      rfl
    · simp only
      rw [if_neg (by rintro ⟨⟨d, hd⟩, _⟩; have := hn d; omega)]
      cases w <;> rfl
    · simp only
      rw [if_neg (by rintro ⟨d, hd⟩; have := hn d; omega)]
      rfl

/-- C59: the shape of a returned kernel: the requested one, `force_odd` reducing even sizes by 1. -/
theorem C59_shape {D : ℕ} (sc : Bool) (n : Fin D → ℕ) (w : KWidth) (kt : KType) (sl : Option ℝ)
    (nk : NormArg D) (fo : Bool) (k : NArr D) (hk : makeKernel sc n w kt sl nk fo = .ok k) (d : Fin D) :
    (fo = false → k.shape d = n d) ∧
    (fo = true → (Odd (n d) → k.shape d = n d) ∧ (Even (n d) → k.shape d + 1 = n d) ∧ Odd (k.shape d)) := by
  have hs : k.shape = Spec.oddShape fo n ∧ (fo = true → ∀ d, 0 < n d) := by
    have hnorm : ∀ (k0 : NArr D), normalizeKernel nk k0 = .ok k → k.shape = k0.shape := by
      intro k0 h
      cases nk with
      | notCallable => simp [normalizeKernel] at h
      | «true» => obtain rfl := Except.ok.inj h; rfl
      | fn f => obtain rfl := Except.ok.inj h; rfl
    unfold makeKernel at hk
    simp only [oddShape_eq] at hk
    have pos : ¬ (∃ d, n d = 0) → ∀ d, 0 < n d := by
      intro h d
      by_contra hc
      exact h ⟨d, by omega⟩
    cases kt with
    | gaussian =>
      simp only at hk
      split_ifs at hk with h
      exact ⟨hnorm _ hk, fun _ => pos h⟩
    | boxcar =>
      simp only at hk
      split_ifs at hk with h
      cases w with
      | float w => simp at hk
      | int w =>
        refine ⟨hnorm _ hk, fun hf => pos fun hc => h ⟨hc, hf⟩⟩
    | tophat =>
      simp only at hk
      split_ifs at hk with h
      exact ⟨hnorm _ hk, fun _ => pos h⟩
    | brickwall => simp only at hk; split_ifs at hk
    | airy => simp only at hk; split_ifs at hk
    | other => simp at hk
    | trapezoid =>
      simp only at hk
      by_cases h : (NArr.cells (Spec.oddShape fo n)).Nonempty ∧ ¬ ∃ d, n d = 0
      · rw [dif_pos h] at hk
        cases sl with
        | none => simp at hk
        | some slope =>
          simp only at hk
          by_cases h0 : slope = 0
          · simp [h0] at hk
          · rw [if_neg h0] at hk
            obtain rfl := Except.ok.inj hk
            exact ⟨rfl, fun _ => pos h.2⟩
      · rw [dif_neg h] at hk
        simp at hk
  rw [hs.1]
  unfold Spec.oddShape
  refine ⟨fun hf => by simp [hf], fun hf => ?_⟩
  have hp := hs.2 hf d
  simp only [hf, true_and]
  rw [Nat.odd_iff, Nat.even_iff, Nat.odd_iff]
  split_ifs with h <;> refine ⟨?_, ?_, ?_⟩ <;> omega

/-! ## C60 -/

theorem boxSlice_fits (n w : ℕ) (hw : w ≤ n) : boxSlice n w = (n / 2 - w / 2, w) := by
  unfold boxSlice pySlice
  simp only
  have h1 : ¬ ((n : ℤ) - ((n : ℤ) + 1) / 2 - (w : ℤ) / 2 < 0) := by omega
  have h2 : ¬ ((n : ℤ) - ((n : ℤ) + 1) / 2 + ((w : ℤ) + 1) / 2 < 0) := by omega
  rw [if_neg h1, if_neg h2]
  ext <;> simp only <;> omega

/-- C60: a boxcar of integer width `1 ≤ w ≤ n` has the value `1/w^D` on the `w` pixels from `n//2 - w//2`
along each axis and 0 elsewhere. -/
theorem C60_boxcar {D : ℕ} (sc : Bool) (n : Fin D → ℕ) (w : ℕ) (hw : 1 ≤ w) (hfit : ∀ d, w ≤ n d)
    (sl : Option ℝ) (nk : NormArg D) (hnk : Spec.DefaultNorm nk) :
    ∃ k, makeKernel sc n (.int w) .boxcar sl nk false = .ok k ∧ k.shape = n ∧
      ∀ p ∈ Spec.pixels n,
        ((∀ d, n d / 2 - w / 2 ≤ p d ∧ p d < n d / 2 - w / 2 + w) → k.val p = some (1 / (w : ℝ) ^ D)) ∧
        (¬ (∀ d, n d / 2 - w / 2 ≤ p d ∧ p d < n d / 2 - w / 2 + w) → k.val p = some 0) := by
  classical
  unfold makeKernel
  simp only [Bool.false_eq_true, if_false, and_false]
  have hb : boxKernel n (w : ℤ) = ⟨n, fun p => some
      (if ∀ d, n d / 2 - w / 2 ≤ p d ∧ p d < n d / 2 - w / 2 + w then (1 : ℝ) else 0)⟩ := by
    unfold boxKernel
    congr 1
    funext p
    simp only [boxSlice_fits _ w (hfit _)]
    split_ifs <;> rfl
  rw [normalize_default nk hnk, hb]
  have hsum : ∑ p ∈ Spec.pixels n, (if ∀ d, n d / 2 - w / 2 ≤ p d ∧ p d < n d / 2 - w / 2 + w then (1 : ℝ) else 0)
      = (w : ℝ) ^ D := by
    rw [Finset.sum_ite, Finset.sum_const_zero, add_zero, Finset.sum_const, nsmul_eq_mul, mul_one]
    have : (Spec.pixels n).filter (fun p => ∀ d, n d / 2 - w / 2 ≤ p d ∧ p d < n d / 2 - w / 2 + w)
        = Fintype.piFinset fun d => Finset.Ico (n d / 2 - w / 2) (n d / 2 - w / 2 + w) := by
      ext p
      simp only [Finset.mem_filter, Spec.mem_pixels, Fintype.mem_piFinset, Finset.mem_Ico]
      refine ⟨fun h => h.2, fun h => ⟨fun d => ?_, h⟩⟩
      have h1 := h d
      have h2 := hfit d
      omega
    rw [this, Fintype.card_piFinset]
    simp
  have hw0 : (w : ℝ) ^ D ≠ 0 := pow_ne_zero _ (by positivity)
  have hv := divSum_values n (fun p => if ∀ d, n d / 2 - w / 2 ≤ p d ∧ p d < n d / 2 - w / 2 + w then (1 : ℝ) else 0)
    (by rw [hsum]; exact hw0)
  refine ⟨_, rfl, rfl, fun p hp => ⟨fun h => ?_, fun h => ?_⟩⟩
  · rw [hv.2 p hp]
    simp only
    rw [hsum, if_pos h]
  · rw [hv.2 p hp]
    simp only
    rw [if_neg h, zero_div]

/-- C60 (a limit of the claim): when the width exceeds an axis of `n` pixels so that `n//2 - w//2` is
negative but not below `-n`, numpy counts that start from the end of the axis: all pixels before
`n + n//2 - w//2` are 0 and the kernel is not centred. -/
theorem C60_boxcar_too_wide {D : ℕ} (sc : Bool) (n : Fin D → ℕ) (w : ℕ) (d : Fin D) (h1 : n d / 2 < w / 2)
    (h2 : w / 2 < n d + n d / 2) (sl : Option ℝ) (nk : NormArg D) (hnk : Spec.DefaultNorm nk) (k : NArr D)
    (hk : makeKernel sc n (.int w) .boxcar sl nk false = .ok k) (p : Fin D → ℕ)
    (hp : p d < n d + n d / 2 - w / 2) : k.val p = some 0 ∨ k.val p = none := by
  classical
  unfold makeKernel at hk
  simp only [Bool.false_eq_true, if_false, and_false] at hk
  rw [normalize_default nk hnk] at hk
  obtain rfl := Except.ok.inj hk
  have h0 : (boxKernel n (w : ℤ)).val p = some 0 := by
    unfold boxKernel
    simp only
    rw [if_neg]
    intro h
    have hd := (h d).1
    unfold boxSlice pySlice at hd
    simp only at hd
    rw [if_pos (show (n d : ℤ) - ((n d : ℤ) + 1) / 2 - (w : ℤ) / 2 < 0 by omega)] at hd
    omega
  simp only [NArr.divScalar, h0]
  cases h : (boxKernel n (w : ℤ)).sum with
  | none => right; rfl
  | some s =>
    by_cases hs : s = 0
    · right; simp [hs]
    · left; simp [hs]

/-! ## C57 -/

/-- C57: the airy and brickwall kernels cannot be made: ImportError without scipy, else NameError. -/
theorem C57_airy {D : ℕ} (sc : Bool) (n : Fin D → ℕ) (hn : ∀ d, 0 < n d) (w : KWidth) (kt : KType)
    (hkt : kt = .airy ∨ kt = .brickwall) (sl : Option ℝ) (nk : NormArg D) (fo : Bool) :
    makeKernel sc n w kt sl nk fo = .error (if sc then .nameError else .importError) := by
  unfold makeKernel
  rcases hkt with rfl | rfl <;> simp only <;> cases sc <;> simp <;>
    (intro d; have := hn d; omega)

/-- C57: `smooth` never returns: TypeError whenever `nwidths` is a number or the image is smaller than
`min_nwidths` kernel widths, otherwise the error of `make_kernel`, otherwise AttributeError. -/
theorem C57_smooth (sc : Bool) (image : NArr2) (h0 : 0 < image.rows) (h1 : 0 < image.cols) (w : KWidth)
    (kt : KType) (sl : Option ℝ) (silent : Bool) (nw : NWidths) (mn : ℝ) (nk : NormArg 2) :
    ((nw ≠ .max ∨ (image.rows : ℝ) < w.val * mn ∨ (image.cols : ℝ) < w.val * mn) →
      smooth sc image w kt sl silent nw mn nk = .error .typeError) ∧
    (¬ (nw ≠ .max ∨ (image.rows : ℝ) < w.val * mn ∨ (image.cols : ℝ) < w.val * mn) →
      (∀ e, makeKernel sc ![image.rows + image.rows % 2, image.cols + image.cols % 2] w kt sl nk false = .error e →
        smooth sc image w kt sl silent nw mn nk = .error e) ∧
      (∀ k, makeKernel sc ![image.rows + image.rows % 2, image.cols + image.cols % 2] w kt sl nk false = .ok k →
        smooth sc image w kt sl silent nw mn nk = .error .attributeError)) := by
  unfold smooth
  constructor
  · intro h
    by_cases hc : w.val * mn > image.rows ∨ w.val * mn > image.cols
    · simp only [hc, if_true]
    · simp only [hc, if_false]
      cases nw with
      | num x => rfl
      | max =>
        exfalso
        rcases h with h | h
        · exact h rfl
        · exact hc h
  · intro h
    push Not at h
    obtain ⟨rfl, hr, hcc⟩ := h
    have hc : ¬ (w.val * mn > image.rows ∨ w.val * mn > image.cols) := by
      rintro (h | h) <;> linarith
    simp only [hc, if_false]
    constructor
    · intro e he
      rw [he]; rfl
    · intro k hk
      rw [hk]
      have hz : ¬ (silent = false ∧ ∃ d, (![image.rows + image.rows % 2, image.cols + image.cols % 2] : Fin 2 → ℕ) d = 0) := by
        rintro ⟨_, d, hd⟩
        fin_cases d <;> simp at hd <;> omega
      change (if silent = false ∧ _ then _ else _) = _
      rw [if_neg hz]

/-- C57: no argument makes `smooth` return. -/
theorem C57_smooth_never (sc : Bool) (image : NArr2) (w : KWidth) (kt : KType) (sl : Option ℝ) (silent : Bool)
    (nw : NWidths) (mn : ℝ) (nk : NormArg 2) : ∃ e, smooth sc image w kt sl silent nw mn nk = .error e := by
  unfold smooth
  simp only
  split
  · exact ⟨_, rfl⟩
  · cases makeKernel sc ![image.rows + image.rows % 2, image.cols + image.cols % 2] w kt sl nk false with
    | error e => exact ⟨e, rfl⟩
    | ok k =>
      by_cases h : silent = false ∧ ∃ d, (![image.rows + image.rows % 2, image.cols + image.cols % 2] : Fin 2 → ℕ) d = 0
      · exact ⟨.valueError, by change (if silent = false ∧ _ then _ else _) = _; rw [if_pos h]⟩
      · exact ⟨.attributeError, by change (if silent = false ∧ _ then _ else _) = _; rw [if_neg h]⟩

/-! ## Concrete cases -/

/-- the 3-pixel boxcar of width 2: `[1/2, 1/2, 0]` -/
example : ∃ k, makeKernel (D := 1) false (fun _ => 3) (.int 2) .boxcar none .true false = .ok k ∧
    k.val (fun _ => 0) = some (1 / 2) ∧ k.val (fun _ => 1) = some (1 / 2) ∧ k.val (fun _ => 2) = some 0 := by
  obtain ⟨k, hk, _, h⟩ := C60_boxcar (D := 1) false (fun _ => 3) 2 (by norm_num) (by simp) none .true (Or.inl rfl)
  refine ⟨k, hk, ?_, ?_, ?_⟩
  · rw [(h _ (by simp [Spec.mem_pixels])).1 (by simp)]; norm_num
  · rw [(h _ (by simp [Spec.mem_pixels])).1 (by simp)]; norm_num
  · rw [(h _ (by simp [Spec.mem_pixels])).2 (by simp)]

/-- a 2 × 2 tophat of width 1/2 has no pixel inside: all NaN -/
example : ∃ k, makeKernel (D := 2) false (fun _ => 2) (.float (1 / 2)) .tophat none .true false = .ok k ∧
    k.val (fun _ => 0) = none := by
  classical
  obtain ⟨k, hk, _, _, h⟩ := C58_tophat (D := 2) false (fun _ => 2) (by simp) (.float (1 / 2))
    (by norm_num [KWidth.val]) none .true (Or.inl rfl) false
  refine ⟨k, hk, h ?_ _⟩
  rintro ⟨p, hp⟩
  rw [Finset.mem_filter, Spec.mem_pixels] at hp
  have h0 := hp.1 0
  have h1 := hp.1 1
  simp only [Spec.oddShape, Bool.false_eq_true, false_and, if_false] at h0 h1
  have hlt := hp.2
  simp only [Spec.distSqMid, Spec.oddShape, Fin.sum_univ_two, KWidth.val, Bool.false_eq_true, false_and,
    if_false] at hlt
  interval_cases h : p 0 <;> interval_cases h' : p 1 <;> norm_num at hlt

/-- the trapezoid of 3 pixels, width 1, slope 1 is `[0, 1, 0]`: the hypotheses of `C58_trapezoid` hold -/
example : ∃ k, makeKernel (D := 1) false (fun _ => 3) (.int 1) .trapezoid (some 1) .notCallable false = .ok k ∧
    k.val (fun _ => 1) = some 1 := by
  have hd : ∀ p : Fin 1 → ℕ, Spec.distSqMid (Spec.oddShape false fun _ => 3) p = ((p 0 : ℝ) - 1) ^ 2 := by
    intro p
    simp [Spec.distSqMid, Spec.oddShape]; norm_num
  have hpix : Spec.pixels (Spec.oddShape (D := 1) false fun _ => 3) = {fun _ => 0, fun _ => 1, fun _ => 2} := by
    ext p
    simp only [Spec.mem_pixels, Spec.oddShape, Bool.false_eq_true, false_and, if_false, Finset.mem_insert,
      Finset.mem_singleton, funext_iff, Fin.forall_fin_one]
    omega
  have hR : Spec.IsMaxDist (Spec.oddShape (D := 1) false fun _ => 3) 1 := by
    refine ⟨⟨fun _ => 0, by simp [hpix], by rw [hd]; norm_num⟩, fun p hp => ?_⟩
    rw [hd, Real.sqrt_le_one]
    rw [hpix] at hp
    simp only [Finset.mem_insert, Finset.mem_singleton] at hp
    rcases hp with rfl | rfl | rfl <;> norm_num
  have ht : ∀ p : Fin 1 → ℕ, p 0 ≤ 2 → Spec.trapezoid (Spec.oddShape false fun _ => 3) 1 (KWidth.int 1).val 1 p
      = if p 0 = 1 then 1 else 0 := by
    intro p hp
    unfold Spec.trapezoid
    rw [hd]
    interval_cases h : p 0 <;> norm_num [KWidth.val]
  obtain ⟨k, hk, h⟩ := C58_trapezoid (D := 1) false (fun _ => 3) (by simp) (.int 1) 1 (by norm_num) .notCallable false
    1 hR ⟨fun _ => 1, by simp [hpix], by rw [ht _ (by norm_num)]; norm_num⟩
  refine ⟨k, hk, ?_⟩
  rw [h.2 _ (by simp [hpix]), hpix]
  rw [Finset.sum_insert (by simp [funext_iff]), Finset.sum_insert (by simp [funext_iff]), Finset.sum_singleton]
  have h0 := ht (fun _ => 0) (by norm_num)
  have h1 := ht (fun _ => 1) (by norm_num)
  have h2 := ht (fun _ => 2) (by norm_num)
  simp only [h0, h1, h2]
  norm_num

end ImgReg
