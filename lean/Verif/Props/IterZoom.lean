import Verif.Lemmas.IterZoom
import Mathlib.Analysis.SpecificLimits.Basic

/-!
# Properties C39–C43, C72, C79: `iterative_zoom`, `chi2_shift_iterzoom`, `centers_to_edges`

A run of `iterative_zoom` is described by the sequence of views it looks at: view 0 is the image with its
pixel indices as coordinates (`imageView`), view `j+1` is the Fourier interpolant of the image sampled on a
grid of `zoomshape` points spaced by `1/zoomstep^(j+1)` around the extremum of view `j` (`gridView`).
`IsFirstExt mm f p` says that `p` is the first position, in C order, of the minimum (maximum) of `f`.
-/

open Complex Finset

namespace ImgReg

/-! ## reduction to the loop -/

section two
variable {ny nx : ℕ} [NeZero ny] [NeZero nx]

/-- the zoom used by the loop -/
noncomputable def zoomOn2 (hasFftw : Bool) (x : Fin ny × Fin nx → ℝ) (sh : ℕ × ℕ) (c : ℝ × ℝ) (zf : ℝ) :
    Py ZoomView :=
  zoomOnPixel2 ⟨hasFftw, false, 1⟩ (rArr x) [c.1, c.2] zf (some sh) true true >>= viewOf2

theorem iterativeZoom_loop (hasFftw : Bool) (fuel : ℕ) (x : Fin ny × Fin nx → ℝ) (mindiff : ℝ)
    (sh : ℕ × ℕ) (step : ℝ) (mm : MinMax) (rz rc : Bool) :
    iterativeZoom hasFftw fuel (realArr x) mindiff sh step mm rz rc
      = (zoomLoop (zoomOn2 hasFftw x sh) (((ny : ℝ) - 1) / 2, ((nx : ℝ) - 1) / 2) mm step mindiff fuel
          ⟨imageView x, 1, none, (0, 0)⟩).map
          fun r => r >>= zoomFinish (fun c => [c.1, c.2]) rz rc := by
  unfold iterativeZoom
  rw [if_neg (by simp [realArr])]
  rfl

theorem zoomOn2_empty (hasFftw : Bool) (x : Fin ny × Fin nx → ℝ) (sh : ℕ × ℕ) (h : sh.1 = 0 ∨ sh.2 = 0)
    (c : ℝ × ℝ) (zf : ℝ) (v : ZoomView) : zoomOn2 hasFftw x sh c zf ≠ .ok v := by
  obtain ⟨m, l⟩ := sh
  simp only at h
  unfold zoomOn2 zoomOnPixel2 fourierInterp2d
  by_cases hz : zf = 0
  · simp [hz, bind, Except.bind]
  · have e : ∀ f : List ℕ → ℝ, checkOutInds (.nd ⟨[2, m, l], f⟩) = .ok () := fun f => rfl
    rcases h with rfl | rfl
    · by_cases hl : l = 0
      · have e2 : ∀ f : List ℕ → ℝ, coordY (.nd ⟨[2, 0, l], f⟩) = .error .indexError := fun f => by
          subst hl; rfl
        simp [hz, e, e2, bind, Except.bind]
      · have e2 : ∀ f : List ℕ → ℝ, coordX (.nd ⟨[2, 0, l], f⟩) = .error .indexError := fun f => rfl
        simp only [hz, e, e2, bind, Except.bind, false_and, if_false, Option.getD_some]
        split
        · simp
        · rename_i heq
          exfalso
          split at heq
          · simp at heq
          · rename_i h2
            split at h2 <;> simp at h2
    · have e2 : ∀ f : List ℕ → ℝ, coordY (.nd ⟨[2, m, 0], f⟩) = .error .indexError := fun f => rfl
      simp [hz, e, e2, bind, Except.bind]

theorem zoomOn2_ok (hasFftw : Bool) (x : Fin ny × Fin nx → ℝ) (m l : ℕ) [NeZero m] [NeZero l]
    (c : ℝ × ℝ) (zf : ℝ) (v : ZoomView) (h : zoomOn2 hasFftw x (m, l) c zf = .ok v) :
    v = gridView x m l c zf := by
  by_cases hz : zf = 0
  · subst hz
    unfold zoomOn2 at h
    rw [zoomOn2_zero] at h
    simp at h
  · unfold zoomOn2 at h
    rw [zoomOn2_eq _ x m l c zf hz] at h
    simpa using h.symm

end two

section one
variable {n : ℕ} [NeZero n]

noncomputable def zoomOn1 (hasFftw : Bool) (x : Fin n → ℝ) (l : ℕ) (c : ℝ × ℝ) (zf : ℝ) : Py ZoomView :=
  zoomOnPixel1 ⟨hasFftw, false, 1⟩ (rArr x) [c.2] zf (some l) true true >>= viewOf1

theorem iterativeZoom1d_loop (hasFftw : Bool) (fuel : ℕ) (x : Fin n → ℝ) (mindiff : ℝ)
    (l : ℕ) (step : ℝ) (mm : MinMax) (rz rc : Bool) :
    iterativeZoom1d hasFftw fuel (realArr x) mindiff l step mm rz rc
      = (zoomLoop (zoomOn1 hasFftw x l) (0, ((n : ℝ) - 1) / 2) mm step mindiff fuel
          ⟨imageView1 x, 1, none, (0, 0)⟩).map
          fun r => r >>= zoomFinish (fun c => [c.2]) rz rc := by
  unfold iterativeZoom1d
  rw [if_neg (by simp [realArr])]
  rfl

theorem zoomOn1_ok (hasFftw : Bool) (x : Fin n → ℝ) (l : ℕ) [NeZero l] (hl : l ≠ 1)
    (c : ℝ × ℝ) (zf : ℝ) (v : ZoomView) (h : zoomOn1 hasFftw x l c zf = .ok v) : v = gridView1 x l c zf := by
  by_cases hz : zf = 0
  · subst hz
    unfold zoomOn1 at h
    rw [zoomOn1_zero] at h
    simp at h
  · unfold zoomOn1 at h
    rw [zoomOn1_eq _ x l hl c zf hz] at h
    simpa using h.symm

theorem zoomOn1_bad (hasFftw : Bool) (x : Fin n → ℝ) (l : ℕ) (hl : l = 0 ∨ l = 1) (c : ℝ × ℝ) (zf : ℝ)
    (hz : zf ≠ 0) : zoomOn1 hasFftw x l c zf = .error .valueError := by
  unfold zoomOn1
  rcases hl with rfl | rfl
  · obtain ⟨cube, -, -, he⟩ := zoomOnPixel1_eq ⟨hasFftw, false, 1⟩ (fun j => (x j : ℂ)) [c.2] zf hz (some 0)
      (by simp) true true
    rw [rArr_eq_cArr, he]
    simp [zoomReturn, bind, Except.bind, viewOf1, retReal]
  · unfold zoomOnPixel1 fourierInterp1d
    simp [hz, bind, Except.bind, Arr.ndim]

end one

/-! ## C39 -/

/-- What a returned value of `iterative_zoom` is, given the number `k` of zooms, the views and the positions of
their extrema; `coords` gives the tuple, `mid` the middle of the image. -/
def Spec.ZoomOutcome (views : ℕ → ZoomView) (pos : ∀ j, Fin (views j).m × Fin (views j).n) (step : ℝ)
    (coords : ℝ × ℝ → List ℝ) (mid : ℝ × ℝ) (rz rc : Bool) (k : ℕ) (res : IterZoomRes) : Prop :=
  ∃ out : List ℝ,
    res = (if rz then .zoomed (views k) (step ^ k) out else .plain out) ∧
    (k = 0 → rc = false ∧ out = coords (0, 0)) ∧
    ∀ j, k = j + 1 → out = if rc then coords ((views j).yax (pos j), (views j).xax (pos j))
      else coords ((views j).yax (pos j) - mid.1, (views j).xax (pos j) - mid.2)

/-- The zooming of `v` has to stop: `v` is constant, or some value other than the extremum is within
`mindiff` of it. -/
def Spec.ZoomStop (mindiff : ℝ) (v : ZoomView) (p : Fin v.m × Fin v.n) : Prop :=
  (∀ i, v.data i = v.data p) ∨ ∃ i, v.data i ≠ v.data p ∧ |v.data i - v.data p| ≤ mindiff

theorem not_goes_iff {v : ZoomView} {mm : MinMax} {mindiff : ℝ} :
    ¬ v.Goes mm mindiff ↔ Spec.ZoomStop mindiff v (v.pos mm) := by
  unfold ZoomView.Goes Spec.ZoomStop ZoomView.delta
  constructor
  · intro h
    by_cases h0 : ∀ i, v.data i = v.data (v.pos mm)
    · exact .inl h0
    · right
      push Not at h0
      obtain ⟨i0, hi0⟩ := h0
      by_contra hc
      push Not at hc
      exact h ⟨⟨i0, sub_ne_zero.2 hi0⟩, fun i hi => hc i (sub_ne_zero.1 hi)⟩
  · rintro (h | ⟨i, hi, hle⟩) ⟨⟨j, hj⟩, h2⟩
    · exact hj (sub_eq_zero.2 (h j))
    · exact absurd hle (not_le.2 (h2 i (sub_ne_zero.2 hi)))

theorem outcome_of_loop {G : ℝ × ℝ → ℝ → ZoomView} (v0 : ZoomView) {mm : MinMax} {step mindiff : ℝ}
    {zoomOn : ℝ × ℝ → ℝ → Py ZoomView} (hz : ∀ c zf v, zoomOn c zf = .ok v → v = G c zf) (mid : ℝ × ℝ)
    (coords : ℝ × ℝ → List ℝ) (rz rc : Bool) (fuel : ℕ) (res : IterZoomRes)
    (h : (zoomLoop zoomOn mid mm step mindiff fuel ⟨v0, 1, none, (0, 0)⟩).map
          (fun r => r >>= zoomFinish coords rz rc) = some (.ok res)) :
    ∃ k, Spec.ZoomOutcome (zoomViews G v0 mm step) (fun j => (zoomViews G v0 mm step j).pos mm) step coords mid
        rz rc k res ∧
      ¬ (zoomViews G v0 mm step k).Goes mm mindiff ∧
      (k = 0 → ∃ i, (zoomViews G v0 mm step k).delta mm i ≠ 0) ∧
      ∀ j, j < k → (zoomViews G v0 mm step j).Goes mm mindiff := by
  rw [Option.map_eq_some_iff] at h
  obtain ⟨r, hr, h⟩ := h
  cases r with
  | error e => simp [bind, Except.bind] at h
  | ok s =>
    obtain ⟨k, -, rfl, h1, h2, h3⟩ := zoomLoop_ok v0 hz fuel (k := 0) hr
    refine ⟨k, ?_, h1, fun hk => h2 hk.symm, fun j hj => h3 j (by omega) hj⟩
    simp only [bind, Except.bind, zoomFinish] at h
    cases k with
    | zero =>
      cases rc with
      | true => simp [zoomStates] at h
      | false =>
        simp only [Bool.false_eq_true, if_false, pure, Except.pure, Except.ok.injEq] at h
        refine ⟨coords (0, 0), ?_, fun _ => ⟨rfl, rfl⟩, by omega⟩
        rw [← h]
        simp [zoomStates, zoomViews]
    | succ k =>
      cases rc with
      | true =>
        simp only [if_true, pure, Except.pure, zoomStates, Except.ok.injEq] at h
        refine ⟨_, h.symm, by omega, ?_⟩
        rintro j hj
        obtain rfl : k = j := by omega
        rfl
      | false =>
        simp only [Bool.false_eq_true, if_false, pure, Except.pure, zoomStates, Except.ok.injEq] at h
        refine ⟨_, h.symm, by omega, ?_⟩
        rintro j hj
        obtain rfl : k = j := by omega
        rfl

section two
variable {ny nx : ℕ} [NeZero ny] [NeZero nx]

/-- C39: what a returning call of `iterative_zoom` has done.  It has made `k` zooms, by `zoomstep^1`, …,
`zoomstep^k`, each on the extremum of the previous view, starting from the image; every view before the last
has all its values either equal to its extremum or further than `mindiff` from it, the last is flat or has a
value within `mindiff`; the zoom factor returned is `zoomstep^k`, the zoomed image is the last view, and the
coordinates are those of the centre of the last zoom (or that minus `(shape-1)/2`). -/
theorem C39_iterative_zoom (hasFftw : Bool) (fuel : ℕ) (x : Fin ny × Fin nx → ℝ) (mindiff : ℝ)
    (m l : ℕ) [NeZero m] [NeZero l] (step : ℝ) (mm : MinMax) (rz rc : Bool) (res : IterZoomRes)
    (h : iterativeZoom hasFftw fuel (realArr x) mindiff (m, l) step mm rz rc = some (.ok res)) :
    ∃ (k : ℕ) (views : ℕ → ZoomView) (pos : ∀ j, Fin (views j).m × Fin (views j).n),
      views 0 = imageView x ∧ (∀ j, Spec.IsFirstExt mm (views j).data (pos j)) ∧
      (∀ j, views (j + 1) = gridView x m l ((views j).yax (pos j), (views j).xax (pos j)) (step ^ (j + 1))) ∧
      Spec.ZoomStop mindiff (views k) (pos k) ∧
      (∀ j, j < k → ¬ Spec.ZoomStop mindiff (views j) (pos j)) ∧
      Spec.ZoomOutcome views pos step (fun c => [c.1, c.2]) (((ny : ℝ) - 1) / 2, ((nx : ℝ) - 1) / 2) rz rc k res := by
  rw [iterativeZoom_loop] at h
  obtain ⟨k, h1, h2, -, h4⟩ := outcome_of_loop (G := gridView x m l) (imageView x)
    (fun c zf v => zoomOn2_ok hasFftw x m l c zf v) _ _ rz rc fuel res h
  refine ⟨k, zoomViews (gridView x m l) (imageView x) mm step, fun j => (zoomViews _ _ mm step j).pos mm, rfl,
    fun j => ZoomView.pos_spec _ _, fun j => rfl, not_goes_iff.1 h2, fun j hj hc => ?_, h1⟩
  exact not_goes_iff.2 hc (h4 j hj)

/-- C39: the two conventions for the coordinates: the offset is the centre minus `(shape-1)/2`, and the
zoomed image and factor are the same. -/
theorem C39_offset_of_center (hasFftw : Bool) (fuel : ℕ) (x : Fin ny × Fin nx → ℝ) (mindiff : ℝ)
    (sh : ℕ × ℕ) (step : ℝ) (mm : MinMax) (res : IterZoomRes)
    (h : iterativeZoom hasFftw fuel (realArr x) mindiff sh step mm true true = some (.ok res)) :
    ∃ v zf cy cx, res = .zoomed v zf [cy, cx] ∧
      iterativeZoom hasFftw fuel (realArr x) mindiff sh step mm true false
        = some (.ok (.zoomed v zf [cy - ((ny : ℝ) - 1) / 2, cx - ((nx : ℝ) - 1) / 2])) ∧
      iterativeZoom hasFftw fuel (realArr x) mindiff sh step mm false true = some (.ok (.plain [cy, cx])) := by
  rw [iterativeZoom_loop] at h ⊢
  rw [iterativeZoom_loop]
  rw [Option.map_eq_some_iff] at h
  obtain ⟨r, hr, h⟩ := h
  rw [hr]
  cases r with
  | error e => simp [bind, Except.bind] at h
  | ok s =>
    have key : ∀ c, s.center = some c → s.offset = (c.1 - ((ny : ℝ) - 1) / 2, c.2 - ((nx : ℝ) - 1) / 2) := by
      have : ∀ (fuel : ℕ) (s0 : ZoomState),
          (∀ c, s0.center = some c → s0.offset = (c.1 - ((ny : ℝ) - 1) / 2, c.2 - ((nx : ℝ) - 1) / 2)) →
          zoomLoop (zoomOn2 hasFftw x sh) (((ny : ℝ) - 1) / 2, ((nx : ℝ) - 1) / 2) mm step mindiff fuel s0
            = some (.ok s) →
          ∀ c, s.center = some c → s.offset = (c.1 - ((ny : ℝ) - 1) / 2, c.2 - ((nx : ℝ) - 1) / 2) := by
        intro fuel
        induction fuel with
        | zero => intro s0 _ h; simp [zoomLoop] at h
        | succ fuel ih =>
          intro s0 h0 h
          unfold zoomLoop at h
          split at h
          · simp at h
          · split_ifs at h with hd
            · split at h
              · simp at h
              · rename_i s1 hs1
                have h1 : ∀ c, s1.center = some c →
                    s1.offset = (c.1 - ((ny : ℝ) - 1) / 2, c.2 - ((nx : ℝ) - 1) / 2) := by
                  unfold zoomStep at hs1
                  simp only [bind, Except.bind] at hs1
                  split at hs1
                  · simp at hs1
                  · simp only [pure, Except.pure, Except.ok.injEq] at hs1
                    subst hs1
                    intro c hc
                    simp only [Option.some.injEq] at hc
                    subst hc
                    rfl
                split_ifs at h with hall
                · simp only [Option.some.injEq, Except.ok.injEq] at h
                  subst h
                  exact h1
                · exact ih s1 h1 h
            · simp only [Option.some.injEq, Except.ok.injEq] at h
              subst h
              exact h0
      exact this fuel _ (by simp) hr
    simp only [bind, Except.bind, zoomFinish, if_true] at h
    cases hc : s.center with
    | none => simp [hc] at h
    | some c =>
      simp only [hc, pure, Except.pure, Except.ok.injEq] at h
      refine ⟨s.view, s.zf, c.1, c.2, h.symm, ?_, ?_⟩
      · simp [bind, Except.bind, zoomFinish, pure, Except.pure, key c hc]
      · simp [bind, Except.bind, zoomFinish, pure, Except.pure, hc]

end two

section one
variable {n : ℕ} [NeZero n]

/-- C39 for `iterative_zoom_1d` (`zoomshape` of at least 2 points). -/
theorem C39_iterative_zoom_1d (hasFftw : Bool) (fuel : ℕ) (x : Fin n → ℝ) (mindiff : ℝ)
    (l : ℕ) [NeZero l] (hl : l ≠ 1) (step : ℝ) (mm : MinMax) (rz rc : Bool) (res : IterZoomRes)
    (h : iterativeZoom1d hasFftw fuel (realArr x) mindiff l step mm rz rc = some (.ok res)) :
    ∃ (k : ℕ) (views : ℕ → ZoomView) (pos : ∀ j, Fin (views j).m × Fin (views j).n),
      views 0 = imageView1 x ∧ (∀ j, Spec.IsFirstExt mm (views j).data (pos j)) ∧
      (∀ j, views (j + 1) = gridView1 x l ((views j).yax (pos j), (views j).xax (pos j)) (step ^ (j + 1))) ∧
      Spec.ZoomStop mindiff (views k) (pos k) ∧
      (∀ j, j < k → ¬ Spec.ZoomStop mindiff (views j) (pos j)) ∧
      Spec.ZoomOutcome views pos step (fun c => [c.2]) (0, ((n : ℝ) - 1) / 2) rz rc k res := by
  rw [iterativeZoom1d_loop] at h
  obtain ⟨k, h1, h2, -, h4⟩ := outcome_of_loop (G := gridView1 x l) (imageView1 x)
    (fun c zf v => zoomOn1_ok hasFftw x l hl c zf v) _ _ rz rc fuel res h
  refine ⟨k, zoomViews (gridView1 x l) (imageView1 x) mm step, fun j => (zoomViews _ _ mm step j).pos mm, rfl,
    fun j => ZoomView.pos_spec _ _, fun j => rfl, not_goes_iff.1 h2, fun j hj hc => ?_, h1⟩
  exact not_goes_iff.2 hc (h4 j hj)

end one

/-! ## C40 -/

theorem terminates_of_spread {zoomOn : ℝ × ℝ → ℝ → Py ZoomView} {mid : ℝ × ℝ} {mm : MinMax}
    {step mindiff : ℝ} (hstep : 1 < step) (hmd : 0 < mindiff)
    (hB : ∃ B : ℝ, ∀ c zf v, 0 < zf → zoomOn c zf = .ok v → ∀ i j, |v.data i - v.data j| ≤ B / zf)
    (s : ZoomState) (hs : s.zf = 1) :
    ∃ fuel r, zoomLoop zoomOn mid mm step mindiff fuel s = some r := by
  obtain ⟨B, hB⟩ := hB
  obtain ⟨k, hk⟩ := pow_unbounded_of_one_lt (B / mindiff) hstep
  rw [div_lt_iff₀ hmd] at hk
  have := zoomLoop_terminates (mid := mid) (mm := mm) hstep.le hmd hB k s (by rw [hs]; norm_num)
    (by rw [hs, one_mul, mul_comm]; exact hk.le)
  cases h : zoomLoop zoomOn mid mm step mindiff (k + 2) s with
  | none => exact absurd h this
  | some r => exact ⟨k + 2, r, h⟩

section two
variable {ny nx : ℕ} [NeZero ny] [NeZero nx]

theorem loop2_terminates (hasFftw : Bool) (x : Fin ny × Fin nx → ℝ) (mindiff : ℝ) (hmd : 0 < mindiff)
    (sh : ℕ × ℕ) (step : ℝ) (hstep : 1 < step) (mm : MinMax) (mid : ℝ × ℝ) (s : ZoomState) (hs : s.zf = 1) :
    ∃ fuel r, zoomLoop (zoomOn2 hasFftw x sh) mid mm step mindiff fuel s = some r := by
  refine terminates_of_spread hstep hmd ?_ s hs
  by_cases h : sh.1 = 0 ∨ sh.2 = 0
  · exact ⟨0, fun c zf v _ hv => absurd hv (zoomOn2_empty hasFftw x sh h c zf v)⟩
  · push Not at h
    obtain ⟨m, l⟩ := sh
    have : NeZero m := ⟨h.1⟩
    have : NeZero l := ⟨h.2⟩
    obtain ⟨B, hB⟩ := gridView_spread x m l
    refine ⟨B, fun c zf v hzf hv => ?_⟩
    have := zoomOn2_ok hasFftw x m l c zf v hv
    subst this
    exact hB c zf hzf

/-- C40: `iterative_zoom` stops, for every image (NaN included), zoom shape, `mindiff > 0` and
`zoomstep > 1`: it has an answer after finitely many tests of the loop condition, and more tests do not
change it. -/
theorem C40_iterative_zoom_terminates (hasFftw : Bool) (image : Fin ny × Fin nx → Pix) (mindiff : ℝ)
    (hmd : 0 < mindiff) (sh : ℕ × ℕ) (step : ℝ) (hstep : 1 < step) (mm : MinMax) (rz rc : Bool) :
    ∃ fuel r, ∀ fuel', fuel ≤ fuel' →
      iterativeZoom hasFftw fuel' image mindiff sh step mm rz rc = some r := by
  by_cases hn : ∃ i, image i = none
  · refine ⟨0, .error .valueError, fun _ _ => ?_⟩
    unfold iterativeZoom
    rw [if_pos hn]
  · have him : image = realArr (finiteVals image) := by
      funext i
      cases hi : image i with
      | none => exact absurd ⟨i, hi⟩ hn
      | some v => simp [realArr, finiteVals, hi]
    generalize finiteVals image = x at him
    subst him
    obtain ⟨fuel, r, hr⟩ := loop2_terminates hasFftw x mindiff hmd sh step hstep mm
      (((ny : ℝ) - 1) / 2, ((nx : ℝ) - 1) / 2) ⟨imageView x, 1, none, (0, 0)⟩ rfl
    refine ⟨fuel, r >>= zoomFinish (fun c => [c.1, c.2]) rz rc, fun fuel' hf => ?_⟩
    rw [iterativeZoom_loop, zoomLoop_mono fuel _ _ hr fuel' hf]
    rfl

/-- C40: and it stops with an answer, not an error, on every finite image that is not constant (asking for
the offset; asking for the centre also needs one zoom, see C42). -/
theorem C40_iterative_zoom_returns (hasFftw : Bool) (x : Fin ny × Fin nx → ℝ) (hx : ∃ i j, x i ≠ x j)
    (mindiff : ℝ) (hmd : 0 < mindiff) (m l : ℕ) [NeZero m] [NeZero l] (step : ℝ) (hstep : 1 < step)
    (mm : MinMax) (rz rc : Bool)
    (hc : rc = true → ∃ p, Spec.IsFirstExt mm x p ∧ ∀ i, x i ≠ x p → mindiff < |x i - x p|) :
    ∃ fuel res, iterativeZoom hasFftw fuel (realArr x) mindiff (m, l) step mm rz rc = some (.ok res) := by
  obtain ⟨fuel, r, hr⟩ := loop2_terminates hasFftw x mindiff hmd (m, l) step hstep mm
      (((ny : ℝ) - 1) / 2, ((nx : ℝ) - 1) / 2) ⟨imageView x, 1, none, (0, 0)⟩ rfl
  have hne : ∃ i, (imageView x).delta mm i ≠ 0 := by
    by_contra hcon
    push Not at hcon
    obtain ⟨i, j, hij⟩ := hx
    exact hij ((sub_eq_zero.1 (hcon i)).trans (sub_eq_zero.1 (hcon j)).symm)
  cases r with
  | error e =>
    refine absurd hr (zoomLoop_no_error (by linarith) (fun c zf hzf => ?_) fuel _ one_pos hne e)
    exact ⟨_, zoomOn2_eq ⟨hasFftw, false, 1⟩ x m l c zf hzf.ne'⟩
  | ok s =>
    refine ⟨fuel, ?_⟩
    rw [iterativeZoom_loop, hr]
    obtain ⟨k, -, rfl, h1, h2, h3⟩ := zoomLoop_ok (G := gridView x m l) (imageView x)
      (fun c zf v => zoomOn2_ok hasFftw x m l c zf v) fuel (k := 0) hr
    cases rc with
    | false => exact ⟨_, rfl⟩
    | true =>
      cases k with
      | zero =>
        exfalso
        obtain ⟨p, hp, hgo⟩ := hc rfl
        have hpe : (imageView x).pos mm = p := ZoomView.pos_eq (imageView x) mm hp
        apply h1
        refine ⟨hne, fun i hi => ?_⟩
        have := hgo i (by
          intro hcon
          apply hi
          unfold ZoomView.delta
          change x i - x ((imageView x).pos mm) = 0
          rw [hpe, hcon, sub_self])
        unfold ZoomView.delta
        change mindiff < |x i - x ((imageView x).pos mm)|
        rw [hpe]
        exact this
      | succ k => exact ⟨_, rfl⟩

end two

section one
variable {n : ℕ} [NeZero n]

theorem loop1_terminates (hasFftw : Bool) (x : Fin n → ℝ) (mindiff : ℝ) (hmd : 0 < mindiff)
    (l : ℕ) (step : ℝ) (hstep : 1 < step) (mm : MinMax) (mid : ℝ × ℝ) (s : ZoomState) (hs : s.zf = 1) :
    ∃ fuel r, zoomLoop (zoomOn1 hasFftw x l) mid mm step mindiff fuel s = some r := by
  refine terminates_of_spread hstep hmd ?_ s hs
  by_cases h : l = 0 ∨ l = 1
  · refine ⟨0, fun c zf v hzf hv => ?_⟩
    rw [zoomOn1_bad hasFftw x l h c zf hzf.ne'] at hv
    simp at hv
  · push Not at h
    have : NeZero l := ⟨h.1⟩
    obtain ⟨B, hB⟩ := gridView1_spread x l
    refine ⟨B, fun c zf v hzf hv => ?_⟩
    have := zoomOn1_ok hasFftw x l h.2 c zf v hv
    subst this
    exact hB c zf hzf

/-- C40 for `iterative_zoom_1d`. -/
theorem C40_iterative_zoom_1d_terminates (hasFftw : Bool) (data : Fin n → Pix) (mindiff : ℝ)
    (hmd : 0 < mindiff) (l : ℕ) (step : ℝ) (hstep : 1 < step) (mm : MinMax) (rz rc : Bool) :
    ∃ fuel r, ∀ fuel', fuel ≤ fuel' →
      iterativeZoom1d hasFftw fuel' data mindiff l step mm rz rc = some r := by
  by_cases hn : ∃ i, data i = none
  · refine ⟨0, .error .valueError, fun _ _ => ?_⟩
    unfold iterativeZoom1d
    rw [if_pos hn]
  · have him : data = realArr (finiteVals data) := by
      funext i
      cases hi : data i with
      | none => exact absurd ⟨i, hi⟩ hn
      | some v => simp [realArr, finiteVals, hi]
    generalize finiteVals data = x at him
    subst him
    obtain ⟨fuel, r, hr⟩ := loop1_terminates hasFftw x mindiff hmd l step hstep mm
      (0, ((n : ℝ) - 1) / 2) ⟨imageView1 x, 1, none, (0, 0)⟩ rfl
    refine ⟨fuel, r >>= zoomFinish (fun c => [c.2]) rz rc, fun fuel' hf => ?_⟩
    rw [iterativeZoom1d_loop, zoomLoop_mono fuel _ _ hr fuel' hf]
    rfl

end one

/-! ## C41 -/

section two
variable {ny nx : ℕ} [NeZero ny] [NeZero nx]

theorem gridView_ext_near (x : Fin ny × Fin nx → ℝ) (m l : ℕ) [NeZero m] [NeZero l] (mm : MinMax) (c : ℝ × ℝ)
    (zf : ℝ) (hzf : 0 < zf) :
    |((gridView x m l c zf).ext mm).1 - c.1| ≤ ((m : ℝ) - 1) / 2 / zf ∧
    |((gridView x m l c zf).ext mm).2 - c.2| ≤ ((l : ℝ) - 1) / 2 / zf :=
  ⟨grid_near c.1 zf hzf m _, grid_near c.2 zf hzf l _⟩

/-- C41: whatever the number of iterations, the centre returned by `iterative_zoom` is within
`(zoomshape-1)/(2(zoomstep-1))` pixels, per axis, of the extremum pixel of the image. -/
theorem C41_iterative_zoom_drift (hasFftw : Bool) (fuel : ℕ) (x : Fin ny × Fin nx → ℝ) (mindiff : ℝ)
    (m l : ℕ) [NeZero m] [NeZero l] (step : ℝ) (hstep : 1 < step) (mm : MinMax) (rz : Bool)
    (res : IterZoomRes)
    (h : iterativeZoom hasFftw fuel (realArr x) mindiff (m, l) step mm rz true = some (.ok res)) :
    ∃ (cy cx : ℝ) (p : Fin ny × Fin nx),
      (res = .plain [cy, cx] ∨ ∃ v zf, res = .zoomed v zf [cy, cx]) ∧ Spec.IsFirstExt mm x p ∧
      |cy - ((p.1 : ℕ) : ℝ)| ≤ ((m : ℝ) - 1) / (2 * (step - 1)) ∧
      |cx - ((p.2 : ℕ) : ℝ)| ≤ ((l : ℝ) - 1) / (2 * (step - 1)) := by
  rw [iterativeZoom_loop] at h
  obtain ⟨k, ⟨out, hres, h0, hj⟩, -, -, -⟩ := outcome_of_loop (G := gridView x m l) (imageView x)
    (fun c zf v => zoomOn2_ok hasFftw x m l c zf v) _ _ rz true fuel res h
  cases k with
  | zero => simp at h0
  | succ k =>
    have hout := hj k rfl
    simp only [if_true] at hout
    have bound : ∀ w : ℝ, 0 ≤ w → w / 2 / (step - 1) * (1 - 1 / step ^ k) ≤ w / (2 * (step - 1)) := by
      intro w hw
      have h1 : (0 : ℝ) < step - 1 := by linarith
      have h2 : (0 : ℝ) ≤ 1 / step ^ k := by
        have : (0 : ℝ) < step := by linarith
        positivity
      rw [← div_div]
      have h3 : 0 ≤ w / 2 / (step - 1) := by positivity
      nlinarith
    have hm1 : (0 : ℝ) ≤ (m : ℝ) - 1 := by
      have : 1 ≤ m := Nat.pos_of_neZero m
      have : (1 : ℝ) ≤ m := by exact_mod_cast this
      linarith
    have hl1 : (0 : ℝ) ≤ (l : ℝ) - 1 := by
      have : 1 ≤ l := Nat.pos_of_neZero l
      have : (1 : ℝ) ≤ l := by exact_mod_cast this
      linarith
    refine ⟨((zoomViews (gridView x m l) (imageView x) mm step k).ext mm).1, ((zoomViews (gridView x m l) (imageView x) mm step k).ext mm).2,
      (imageView x).pos mm, ?_, ZoomView.pos_spec (imageView x) mm, ?_, ?_⟩
    rotate_left
    · exact (zoomViews_drift (imageView x) mm hstep Prod.fst (((m : ℝ) - 1) / 2)
        (fun c zf hzf => (gridView_ext_near x m l mm c zf hzf).1) k).trans (bound _ hm1)
    · exact (zoomViews_drift (imageView x) mm hstep Prod.snd (((l : ℝ) - 1) / 2)
        (fun c zf hzf => (gridView_ext_near x m l mm c zf hzf).2) k).trans (bound _ hl1)
    · rw [hres, hout]
      cases rz
      · left; rfl
      · right; exact ⟨_, _, rfl⟩

end two

section one
variable {n : ℕ} [NeZero n]

/-- `p` is the first position of the minimum / maximum of `x` -/
def Spec.IsFirstExt1 (mm : MinMax) {n : ℕ} (x : Fin n → ℝ) (p : Fin n) : Prop :=
  match mm with
  | .min => (∀ i, x p ≤ x i) ∧ ∀ j, (∀ i, x j ≤ x i) → p ≤ j
  | .max => (∀ i, x i ≤ x p) ∧ ∀ j, (∀ i, x i ≤ x j) → p ≤ j

theorem imageView1_pos (x : Fin n → ℝ) (mm : MinMax) : Spec.IsFirstExt1 mm x ((imageView1 x).pos mm).2 := by
  have hp := ZoomView.pos_spec (imageView1 x) mm
  generalize (imageView1 x).pos mm = p at hp
  change Fin 1 × Fin n at p
  obtain ⟨p1, p2⟩ := p
  have hp1 : p1 = 0 := Subsingleton.elim _ _
  subst hp1
  change Spec.IsFirstExt (m := 1) (n := n) mm (fun i => x i.2) (0, p2) at hp
  cases mm
  · refine ⟨fun i => hp.1 (0, i), fun j hj => ?_⟩
    have := hp.2 (0, j) fun i => hj i.2
    simpa [Np.flat] using this
  · refine ⟨fun i => hp.1 (0, i), fun j hj => ?_⟩
    have := hp.2 (0, j) fun i => hj i.2
    simpa [Np.flat] using this

/-- C41 for `iterative_zoom_1d`. -/
theorem C41_iterative_zoom_1d_drift (hasFftw : Bool) (fuel : ℕ) (x : Fin n → ℝ) (mindiff : ℝ)
    (l : ℕ) [NeZero l] (hl : l ≠ 1) (step : ℝ) (hstep : 1 < step) (mm : MinMax) (rz : Bool)
    (res : IterZoomRes)
    (h : iterativeZoom1d hasFftw fuel (realArr x) mindiff l step mm rz true = some (.ok res)) :
    ∃ (c : ℝ) (p : Fin n),
      (res = .plain [c] ∨ ∃ v zf, res = .zoomed v zf [c]) ∧
      Spec.IsFirstExt1 mm x p ∧
      |c - ((p : ℕ) : ℝ)| ≤ ((l : ℝ) - 1) / (2 * (step - 1)) := by
  rw [iterativeZoom1d_loop] at h
  obtain ⟨k, ⟨out, hres, h0, hj⟩, -, -, -⟩ := outcome_of_loop (G := gridView1 x l) (imageView1 x)
    (fun c zf v => zoomOn1_ok hasFftw x l hl c zf v) _ _ rz true fuel res h
  cases k with
  | zero => simp at h0
  | succ k =>
    have hout := hj k rfl
    simp only [if_true] at hout
    have hl1 : (0 : ℝ) ≤ (l : ℝ) - 1 := by
      have : 1 ≤ l := Nat.pos_of_neZero l
      have : (1 : ℝ) ≤ l := by exact_mod_cast this
      linarith
    have bound : ((l : ℝ) - 1) / 2 / (step - 1) * (1 - 1 / step ^ k) ≤ ((l : ℝ) - 1) / (2 * (step - 1)) := by
      have h1 : (0 : ℝ) < step - 1 := by linarith
      have h2 : (0 : ℝ) ≤ 1 / step ^ k := by
        have : (0 : ℝ) < step := by linarith
        positivity
      rw [← div_div]
      have h3 : 0 ≤ ((l : ℝ) - 1) / 2 / (step - 1) := by positivity
      nlinarith
    refine ⟨((zoomViews (gridView1 x l) (imageView1 x) mm step k).ext mm).2, ((imageView1 x).pos mm).2, ?_, ?_, ?_⟩
    rotate_left
    · exact imageView1_pos x mm
    · exact (zoomViews_drift (G := gridView1 x l) (imageView1 x) mm hstep Prod.snd (((l : ℝ) - 1) / 2)
        (fun c zf hzf => grid_near c.2 zf hzf l _) k).trans bound
    · rw [hres, hout]
      cases rz
      · left; rfl
      · right; exact ⟨_, _, rfl⟩

end one

/-! ## C42 -/

theorem zoomLoop_flat {zoomOn : ℝ × ℝ → ℝ → Py ZoomView} {mid : ℝ × ℝ} {mm : MinMax} {step mindiff : ℝ}
    (fuel : ℕ) (s : ZoomState) (h : ∀ i, s.view.delta mm i = 0) :
    zoomLoop zoomOn mid mm step mindiff (fuel + 1) s = some (.error .valueError) := by
  unfold zoomLoop
  rw [ZoomView.minDelta_none.2 h]

theorem zoomLoop_stop {zoomOn : ℝ × ℝ → ℝ → Py ZoomView} {mid : ℝ × ℝ} {mm : MinMax} {step mindiff : ℝ}
    (fuel : ℕ) (s : ZoomState) (h : ∃ i, s.view.delta mm i ≠ 0 ∧ |s.view.delta mm i| ≤ mindiff) :
    zoomLoop zoomOn mid mm step mindiff (fuel + 1) s = some (.ok s) := by
  obtain ⟨i, hi, hle⟩ := h
  unfold zoomLoop
  cases hd : s.view.minDelta mm with
  | none => exact absurd (ZoomView.minDelta_none.1 hd i) hi
  | some d =>
    have := (ZoomView.minDelta_some hd).2 i (abs_pos.2 hi)
    have h2 : ¬ d > mindiff := by rw [gt_iff_lt, not_lt]; linarith
    simp [h2]

section two
variable {ny nx : ℕ} [NeZero ny] [NeZero nx]

/-- C42: a constant image, or one containing NaN, raises ValueError. -/
theorem C42_iterative_zoom_constant (hasFftw : Bool) (fuel : ℕ) (image : Fin ny × Fin nx → Pix)
    (h : (∃ v, image = fun _ => some v) ∨ ∃ i, image i = none) (mindiff : ℝ) (sh : ℕ × ℕ) (step : ℝ)
    (mm : MinMax) (rz rc : Bool) :
    iterativeZoom hasFftw (fuel + 1) image mindiff sh step mm rz rc = some (.error .valueError) := by
  rcases h with ⟨v, rfl⟩ | h
  · rw [show (fun _ => some v) = realArr (fun _ : Fin ny × Fin nx => v) from rfl, iterativeZoom_loop,
      zoomLoop_flat]
    · rfl
    · intro i
      exact sub_self v
  · unfold iterativeZoom
    rw [if_pos h]

/-- C42: when the image has a value within `mindiff` of (and different from) its extremum, the loop body
never runs: UnboundLocalError if the centre is asked for; otherwise zero offsets, wherever the extremum is,
with the unzoomed image and zoom factor 1. -/
theorem C42_iterative_zoom_not_entered (hasFftw : Bool) (fuel : ℕ) (x : Fin ny × Fin nx → ℝ)
    (mindiff : ℝ) (mm : MinMax) (p i : Fin ny × Fin nx) (hp : Spec.IsFirstExt mm x p) (hi : x i ≠ x p)
    (hd : |x i - x p| ≤ mindiff) (sh : ℕ × ℕ) (step : ℝ) (rz : Bool) :
    iterativeZoom hasFftw (fuel + 1) (realArr x) mindiff sh step mm rz true = some (.error .unboundLocalError) ∧
    iterativeZoom hasFftw (fuel + 1) (realArr x) mindiff sh step mm false false
      = some (.ok (.plain [0, 0])) ∧
    iterativeZoom hasFftw (fuel + 1) (realArr x) mindiff sh step mm true false
      = some (.ok (.zoomed (imageView x) 1 [0, 0])) := by
  have hpe : (imageView x).pos mm = p := ZoomView.pos_eq (imageView x) mm hp
  have key : ∃ i, (imageView x).delta mm i ≠ 0 ∧ |(imageView x).delta mm i| ≤ mindiff := by
    refine ⟨i, ?_⟩
    unfold ZoomView.delta
    change x i - x ((imageView x).pos mm) ≠ 0 ∧ |x i - x ((imageView x).pos mm)| ≤ mindiff
    rw [hpe]
    exact ⟨sub_ne_zero.2 hi, hd⟩
  refine ⟨?_, ?_, ?_⟩ <;> rw [iterativeZoom_loop, zoomLoop_stop fuel _ key] <;> rfl

end two

section one
variable {n : ℕ} [NeZero n]

/-- C42 for `iterative_zoom_1d`. -/
theorem C42_iterative_zoom_1d_constant (hasFftw : Bool) (fuel : ℕ) (data : Fin n → Pix)
    (h : (∃ v, data = fun _ => some v) ∨ ∃ i, data i = none) (mindiff : ℝ) (l : ℕ) (step : ℝ)
    (mm : MinMax) (rz rc : Bool) :
    iterativeZoom1d hasFftw (fuel + 1) data mindiff l step mm rz rc = some (.error .valueError) := by
  rcases h with ⟨v, rfl⟩ | h
  · rw [show (fun _ => some v) = realArr (fun _ : Fin n => v) from rfl, iterativeZoom1d_loop, zoomLoop_flat]
    · rfl
    · intro i
      exact sub_self v
  · unfold iterativeZoom1d
    rw [if_pos h]

theorem C42_iterative_zoom_1d_not_entered (hasFftw : Bool) (fuel : ℕ) (x : Fin n → ℝ)
    (mindiff : ℝ) (mm : MinMax) (p i : Fin n)
    (hp : match mm with | .min => ∀ j, x p ≤ x j | .max => ∀ j, x j ≤ x p) (hi : x i ≠ x p)
    (hd : |x i - x p| ≤ mindiff) (l : ℕ) (step : ℝ) (rz : Bool) :
    iterativeZoom1d hasFftw (fuel + 1) (realArr x) mindiff l step mm rz true
      = some (.error .unboundLocalError) ∧
    iterativeZoom1d hasFftw (fuel + 1) (realArr x) mindiff l step mm false false
      = some (.ok (.plain [0])) ∧
    iterativeZoom1d hasFftw (fuel + 1) (realArr x) mindiff l step mm true false
      = some (.ok (.zoomed (imageView1 x) 1 [0])) := by
  have hpe : x ((imageView1 x).pos mm).2 = x p := by
    have := ZoomView.pos_spec (imageView1 x) mm
    cases mm
    · exact le_antisymm (this.1 ((0 : Fin 1), p)) (hp _)
    · exact le_antisymm (hp _) (this.1 ((0 : Fin 1), p))
  have key : ∃ i, (imageView1 x).delta mm i ≠ 0 ∧ |(imageView1 x).delta mm i| ≤ mindiff := by
    refine ⟨((0 : Fin 1), i), ?_⟩
    unfold ZoomView.delta
    change x i - x ((imageView1 x).pos mm).2 ≠ 0 ∧ |x i - x ((imageView1 x).pos mm).2| ≤ mindiff
    rw [hpe]
    exact ⟨sub_ne_zero.2 hi, hd⟩
  refine ⟨?_, ?_, ?_⟩ <;> rw [iterativeZoom1d_loop, zoomLoop_stop fuel _ key] <;> rfl

end one

/-! ## C79 -/

/-- the middle of a grid with an odd number of points is its centre -/
theorem grid_mid (c zf : ℝ) (o : ℕ) (hlt : o < 2 * o + 1) :
    Spec.zoomGrid c zf (2 * o + 1) ⟨o, hlt⟩ = c := by
  unfold Spec.zoomGrid
  push_cast
  have : (o : ℝ) - (2 * o + 1 - 1) / 2 = 0 := by ring
  rw [this]
  simp

/-- The interpolated value at the `k`-th extremum found never gets worse, when the zoom grids have odd sizes
(so that they contain their centre). -/
theorem ext_improves {ny nx : ℕ} [NeZero ny] [NeZero nx] (x : Fin ny × Fin nx → ℝ) (a b : ℕ) (step : ℝ)
    (mm : MinMax) (k : ℕ) (i : Fin ny × Fin nx) :
    let c := (zoomViews (gridView x (2 * a + 1) (2 * b + 1)) (imageView x) mm step k).ext mm
    match mm with
    | .min => (interp2C (fun j => (x j : ℂ)) c.1 c.2).re ≤ x i
    | .max => x i ≤ (interp2C (fun j => (x j : ℂ)) c.1 c.2).re := by
  induction k with
  | zero =>
    have h := ZoomView.pos_spec (imageView x) mm
    have hv : (interp2C (fun j => (x j : ℂ)) ((imageView x).ext mm).1 ((imageView x).ext mm).2).re
        = x ((imageView x).pos mm) := by
      have := interp2C_int (fun j => (x j : ℂ)) (((imageView x).pos mm).1 : ℕ) (((imageView x).pos mm).2 : ℕ)
      have h1 : ((imageView x).ext mm).1 = (((((imageView x).pos mm).1 : ℕ) : ℤ) : ℝ) := by
        simp [ZoomView.ext, imageView]
      have h2 : ((imageView x).ext mm).2 = (((((imageView x).pos mm).2 : ℕ) : ℤ) : ℝ) := by
        simp [ZoomView.ext, imageView]
      rw [h1, h2, this, Complex.ofReal_re]
      generalize (imageView x).pos mm = q
      change Fin ny × Fin nx at q
      rw [Spec.wrap_val, Spec.wrap_val]
    cases mm
    · simp only [zoomViews]
      rw [hv]
      exact h.1 i
    · simp only [zoomViews]
      rw [hv]
      exact h.1 i
  | succ k ih =>
    set c := (zoomViews (gridView x (2 * a + 1) (2 * b + 1)) (imageView x) mm step k).ext mm with hc
    have hview : zoomViews (gridView x (2 * a + 1) (2 * b + 1)) (imageView x) mm step (k + 1)
        = gridView x (2 * a + 1) (2 * b + 1) c (step ^ (k + 1)) := rfl
    rw [hview]
    have h := ZoomView.pos_spec (gridView x (2 * a + 1) (2 * b + 1) c (step ^ (k + 1))) mm
    have hmid : (gridView x (2 * a + 1) (2 * b + 1) c (step ^ (k + 1))).data
        ((⟨a, by omega⟩ : Fin (2 * a + 1)), (⟨b, by omega⟩ : Fin (2 * b + 1)))
        = (interp2C (fun j => (x j : ℂ)) c.1 c.2).re := by
      simp only [gridView, grid_mid]
    cases mm
    · exact (h.1 _).trans (hmid.le.trans ih)
    · exact ih.trans (hmid.ge.trans (h.1 _))

/-- C79: with a zoom shape of odd sizes, the Fourier interpolant of the image at the centre returned by
`iterative_zoom` is at most (for `np.max`: at least) every pixel of the image. -/
theorem C79_iterative_zoom_improves {ny nx : ℕ} [NeZero ny] [NeZero nx] (hasFftw : Bool) (fuel : ℕ)
    (x : Fin ny × Fin nx → ℝ) (mindiff : ℝ) (a b : ℕ) (step : ℝ) (mm : MinMax) (rz : Bool)
    (res : IterZoomRes)
    (h : iterativeZoom hasFftw fuel (realArr x) mindiff (2 * a + 1, 2 * b + 1) step mm rz true
      = some (.ok res)) :
    ∃ cy cx : ℝ, (res = .plain [cy, cx] ∨ ∃ v zf, res = .zoomed v zf [cy, cx]) ∧
      ∀ i, match mm with
        | .min => (interp2C (fun j => (x j : ℂ)) cy cx).re ≤ x i
        | .max => x i ≤ (interp2C (fun j => (x j : ℂ)) cy cx).re := by
  rw [iterativeZoom_loop] at h
  obtain ⟨k, ⟨out, hres, h0, hj⟩, -, -, -⟩ := outcome_of_loop (G := gridView x (2 * a + 1) (2 * b + 1))
    (imageView x) (fun c zf v => zoomOn2_ok hasFftw x (2 * a + 1) (2 * b + 1) c zf v) _ _ rz true fuel res h
  cases k with
  | zero => simp at h0
  | succ k =>
    have hout := hj k rfl
    simp only [if_true] at hout
    refine ⟨((zoomViews (gridView x (2 * a + 1) (2 * b + 1)) (imageView x) mm step k).ext mm).1,
      ((zoomViews (gridView x (2 * a + 1) (2 * b + 1)) (imageView x) mm step k).ext mm).2, ?_,
      fun i => ext_improves x a b step mm k i⟩
    rw [hres, hout]
    cases rz
    · left; rfl
    · right; exact ⟨_, _, rfl⟩

/-! ## C43 -/

/-- C43: `chi2_shift_iterzoom` raises NameError whatever its arguments. -/
theorem C43_chi2_shift_iterzoom {ny nx my mx : ℕ} [NeZero ny] [NeZero nx] (cfg : FFTConfig) (stats : Stats)
    (fuel : ℕ) (im1 : Fin ny × Fin nx → Pix) (im2 : Fin my × Fin mx → Pix) (err : ErrArg ny nx)
    (zeromean returnError returnChi2array : Bool) (zoomShape rezoomShape : ℕ × ℕ) (rezoomFactor mindiff : ℝ) :
    chi2ShiftIterzoom cfg stats fuel im1 im2 err zeromean returnError returnChi2array zoomShape rezoomShape
      rezoomFactor mindiff = some (.error .nameError) := rfl

/-! ## C72 -/

/-- C72: for an increasing uniform grid of at least two centres, `centers_to_edges` returns one more edge
than there are centres, and each centre is `step/2` above one edge and `step/2` below the next. -/
theorem C72_centers_to_edges {n : ℕ} (hn : 2 ≤ n) (arr : Fin n → ℝ) (a step : ℝ) (hstep : 0 ≤ step)
    (harr : ∀ i, arr i = a + ((i : ℕ) : ℝ) * step) :
    ∃ edges : Fin (n + 1) → ℝ, centersToEdges arr = .ok edges ∧
      ∀ i : Fin n, edges i.castSucc = arr i - step / 2 ∧ edges i.succ = arr i + step / 2 := by
  unfold centersToEdges
  rw [dif_pos (by omega)]
  refine ⟨_, rfl, ?_⟩
  have hmin : Np.minOver univ ⟨⟨0, by omega⟩, mem_univ _⟩ arr = a := by
    apply le_antisymm
    · refine (Finset.inf'_le arr (mem_univ (⟨0, by omega⟩ : Fin n))).trans ?_
      rw [harr]; simp
    · refine Finset.le_inf' _ _ fun i _ => ?_
      rw [harr]
      have : 0 ≤ ((i : ℕ) : ℝ) * step := by positivity
      linarith
  have hmax : Np.maxOver univ ⟨⟨0, by omega⟩, mem_univ _⟩ arr = a + ((n : ℝ) - 1) * step := by
    apply le_antisymm
    · refine Finset.sup'_le _ _ fun i _ => ?_
      rw [harr]
      have h1 : (i : ℕ) + 1 ≤ n := i.isLt
      have h2 : ((i : ℕ) : ℝ) + 1 ≤ n := by exact_mod_cast h1
      nlinarith
    · refine le_trans ?_ (Finset.le_sup' arr (mem_univ (⟨n - 1, by omega⟩ : Fin n)))
      rw [harr]
      have : ((n - 1 : ℕ) : ℝ) = (n : ℝ) - 1 := by rw [Nat.cast_sub (by omega)]; simp
      simp only [this]
      exact le_rfl
  have hdx : arr ⟨1, by omega⟩ - arr ⟨0, by omega⟩ = step := by
    rw [harr, harr]; push_cast; ring
  have hpos : (n : ℝ) ≠ 0 := by
    have : n ≠ 0 := by omega
    exact_mod_cast this
  have key : ∀ j : Fin (n + 1), Np.linspace (a - step / 2) (a + ((n : ℝ) - 1) * step + step / 2) (n + 1) j
      = a + ((j : ℕ) : ℝ) * step - step / 2 := by
    intro j
    unfold Np.linspace
    simp only [Nat.add_sub_cancel]
    field_simp
    ring
  intro i
  rw [hmin, hmax, hdx]
  constructor
  · rw [key, harr]
    simp
  · rw [key, harr]
    simp only [Fin.val_succ]
    push_cast
    ring

/-- C72: with fewer than two centres it raises IndexError. -/
theorem C72_centers_to_edges_short {n : ℕ} (hn : n < 2) (arr : Fin n → ℝ) :
    centersToEdges arr = .error .indexError := by
  unfold centersToEdges
  rw [dif_neg (by omega)]

/-! ## The hypotheses are met: a 2 × 2 image whose loop runs -/

/-- a dip of depth 10 -/
def dip : Fin 2 × Fin 2 → ℝ := fun i => if i = (1, 0) then 0 else 10

theorem dip_first : Spec.IsFirstExt .min dip (1, 0) := by
  refine ⟨fun j => ?_, fun j hj => ?_⟩
  · have h0 : dip (1, 0) = 0 := by simp [dip]
    rw [h0]
    unfold dip
    split_ifs <;> norm_num
  · have h := hj (1, 0)
    unfold dip at h
    by_cases hj' : j = (1, 0)
    · rw [hj']
    · simp [hj'] at h
      norm_num at h

theorem dip_gap (i : Fin 2 × Fin 2) (h : dip i ≠ dip (1, 0)) : (1 : ℝ) < |dip i - dip (1, 0)| := by
  unfold dip at *
  by_cases hi : i = (1, 0)
  · simp [hi] at h
  · simp [hi]

/-- `iterative_zoom(dip)` with the default arguments returns. -/
example : ∃ fuel res, iterativeZoom true fuel (realArr dip) 1 (10, 10) 2 .min false true = some (.ok res) :=
  C40_iterative_zoom_returns true dip ⟨(0, 0), (1, 0), by simp [dip]⟩ 1 one_pos 10 10 2 one_lt_two .min false
    true fun _ => ⟨(1, 0), dip_first, dip_gap⟩

/-- With `mindiff = 20` the loop is not entered. -/
example : iterativeZoom true 1 (realArr dip) 20 (10, 10) 2 .min false false = some (.ok (.plain [0, 0])) :=
  (C42_iterative_zoom_not_entered true 0 dip 20 .min (1, 0) (0, 0) dip_first (by simp [dip])
    (by simp [dip]; norm_num) (10, 10) 2 false).2.1

end ImgReg
