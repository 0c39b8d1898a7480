import Verif.Lemmas.IterZoomBound
import Verif.Props.IterZoom
import Mathlib.Analysis.SpecialFunctions.Log.Base

/-!
# How long `iterative_zoom` takes (C131)

C40 says that `iterative_zoom` stops; here is after how many zooms.
-/

open Complex Finset

namespace ImgReg

/-- the standard deviation of the pixels times the square root of their number: `sqrt(Σ (x - mean x)²)` -/
noncomputable def Spec.scatter {ι : Type} [Fintype ι] (x : ι → ℝ) : ℝ :=
  Real.sqrt (∑ i, (x i - (∑ j, x j) / Fintype.card ι) ^ 2)

section two
variable {ny nx : ℕ} [NeZero ny] [NeZero nx]

/-- C131: `iterative_zoom` makes at most `K ≥ 1` zooms as soon as `π·sqrt(Σ(x - mean)²)·(m + l - 2) ≤ mindiff·zoomstep^K`, where `(m, l)` is
`zoomshape`: the loop condition is tested at most `K + 1` times, and the zoom factor returned is at most `zoomstep^K`.  This holds for every image. -/
theorem C131_iteration_bound (hasFftw : Bool) (x : Fin ny × Fin nx → ℝ) (mindiff : ℝ) (m l : ℕ) [NeZero m] [NeZero l] (step : ℝ)
    (hstep : 1 ≤ step) (mm : MinMax) (rz rc : Bool) (K : ℕ) (hK : 1 ≤ K)
    (h : Real.pi * Spec.scatter x * ((m : ℝ) + l - 2) ≤ mindiff * step ^ K) :
    ∃ r, iterativeZoom hasFftw (K + 1) (realArr x) mindiff (m, l) step mm rz rc = some r ∧
      ∀ v zf out, r = .ok (.zoomed v zf out) → zf ≤ step ^ K := by
  have hs0 : (0 : ℝ) < step := by linarith
  set b := (∑ j, x j) / Fintype.card (Fin ny × Fin nx) with hb
  have hsp : spreadAbout x b = Spec.scatter x := rfl
  obtain ⟨r, hr, h2⟩ := zoomLoop_within (zoomOn := zoomOn2 hasFftw x (m, l)) (mid := (((ny : ℝ) - 1) / 2, ((nx : ℝ) - 1) / 2)) (mm := mm)
    (step := step) (mindiff := mindiff) (fun k s => s.zf = step ^ k ∧ (1 ≤ k → ∃ c, s.view = gridView x m l c (step ^ k)))
    (fun k s s' hs hst => by
      obtain ⟨h1, h2⟩ := zoomStep_view hst
      have e : s'.zf = step ^ (k + 1) := by rw [h2, hs.1, pow_succ]
      refine ⟨e, fun _ => ⟨s.view.ext mm, ?_⟩⟩
      rw [zoomOn2_ok hasFftw x m l _ _ _ h1, ← h2, e]) K
    (fun s hs i => by
      obtain ⟨c, hc⟩ := hs.2 hK
      obtain ⟨v, zf, ce, off⟩ := s
      simp only at hc
      subst hc
      refine (gridView_spread_le x b m l c _ (by positivity) i _).trans ?_
      rw [div_le_iff₀ (by positivity), hsp]
      refine le_trans (le_of_eq ?_) h
      ring) K 0 (by omega) ⟨imageView x, 1, none, (0, 0)⟩ ⟨by simp, by omega⟩
  rw [iterativeZoom_loop, hr]
  refine ⟨_, rfl, fun v zf out he => ?_⟩
  cases r with
  | error e => simp [bind, Except.bind] at he
  | ok s =>
    obtain ⟨k, -, hk, hz, -⟩ := h2 s rfl
    have : zf = s.zf := (zoomFinish_zoomed (s := s) he).2.2
    rw [this, hz]
    exact pow_le_pow_right₀ hstep hk

/-- C131: in closed form: at most `max(1, ⌈log(π·sqrt(Σ(x - mean)²)·(m + l - 2)/mindiff) / log(zoomstep)⌉)` zooms. -/
theorem C131_iteration_count (hasFftw : Bool) (x : Fin ny × Fin nx → ℝ) (mindiff : ℝ) (hmd : 0 < mindiff) (m l : ℕ) [NeZero m] [NeZero l]
    (step : ℝ) (hstep : 1 < step) (mm : MinMax) (rz rc : Bool) (K : ℕ)
    (hK : K = max 1 ⌈Real.log (Real.pi * Spec.scatter x * ((m : ℝ) + l - 2) / mindiff) / Real.log step⌉₊) :
    ∃ r, iterativeZoom hasFftw (K + 1) (realArr x) mindiff (m, l) step mm rz rc = some r ∧
      ∀ v zf out, r = .ok (.zoomed v zf out) → zf ≤ step ^ K := by
  have hs0 : (0 : ℝ) < step := by linarith
  refine C131_iteration_bound hasFftw x mindiff m l step hstep.le mm rz rc K (by omega) ?_
  set B := Real.pi * Spec.scatter x * ((m : ℝ) + l - 2) with hB
  rcases le_or_gt B 0 with hB0 | hB0
  · exact hB0.trans (by positivity)
  · have h1 : Real.log (B / mindiff) / Real.log step ≤ K := by
      refine (Nat.le_ceil _).trans ?_
      rw [hK]
      exact_mod_cast le_max_right _ _
    rw [div_le_iff₀ (Real.log_pos hstep), ← Real.log_pow] at h1
    have h2 := (Real.log_le_log_iff (by positivity) (by positivity)).1 h1
    rw [div_le_iff₀ hmd] at h2
    linarith

end two

section one
variable {n : ℕ} [NeZero n]

/-- C131 for `iterative_zoom_1d`, `zoomshape = (l,)`, `l ≠ 1` (with one point it raises ValueError): `π·sqrt(Σ(x - mean)²)·(l - 1)` instead. -/
theorem C131_iteration_bound_1d (hasFftw : Bool) (x : Fin n → ℝ) (mindiff : ℝ) (l : ℕ) [NeZero l] (hl : l ≠ 1) (step : ℝ)
    (hstep : 1 ≤ step) (mm : MinMax) (rz rc : Bool) (K : ℕ) (hK : 1 ≤ K)
    (h : Real.pi * Spec.scatter x * ((l : ℝ) - 1) ≤ mindiff * step ^ K) :
    ∃ r, iterativeZoom1d hasFftw (K + 1) (realArr x) mindiff l step mm rz rc = some r ∧
      ∀ v zf out, r = .ok (.zoomed v zf out) → zf ≤ step ^ K := by
  have hs0 : (0 : ℝ) < step := by linarith
  set b := (∑ j, x j) / Fintype.card (Fin n) with hb
  have hsp : spreadAbout x b = Spec.scatter x := rfl
  obtain ⟨r, hr, h2⟩ := zoomLoop_within (zoomOn := zoomOn1 hasFftw x l) (mid := (0, ((n : ℝ) - 1) / 2)) (mm := mm)
    (step := step) (mindiff := mindiff) (fun k s => s.zf = step ^ k ∧ (1 ≤ k → ∃ c, s.view = gridView1 x l c (step ^ k)))
    (fun k s s' hs hst => by
      obtain ⟨h1, h2⟩ := zoomStep_view hst
      have e : s'.zf = step ^ (k + 1) := by rw [h2, hs.1, pow_succ]
      refine ⟨e, fun _ => ⟨s.view.ext mm, ?_⟩⟩
      rw [zoomOn1_ok hasFftw x l hl _ _ _ h1, ← h2, e]) K
    (fun s hs i => by
      obtain ⟨c, hc⟩ := hs.2 hK
      obtain ⟨v, zf, ce, off⟩ := s
      simp only at hc
      subst hc
      refine (gridView1_spread_le x b l c _ (by positivity) i _).trans ?_
      rw [div_le_iff₀ (by positivity), hsp]
      exact h) K 0 (by omega) ⟨imageView1 x, 1, none, (0, 0)⟩ ⟨by simp, by omega⟩
  rw [iterativeZoom1d_loop, hr]
  refine ⟨_, rfl, fun v zf out he => ?_⟩
  cases r with
  | error e => simp [bind, Except.bind] at he
  | ok s =>
    obtain ⟨k, -, hk, hz, -⟩ := h2 s rfl
    have : zf = s.zf := (zoomFinish_zoomed (s := s) he).2.2
    rw [this, hz]
    exact pow_le_pow_right₀ hstep hk

end one

end ImgReg
