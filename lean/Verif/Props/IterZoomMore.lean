import Verif.Props.IterZoom
import Verif.Props.ZoomMore
import Mathlib.Tactic.FinCases
import Mathlib.Data.Fin.VecNotation

/-!
# Further theorems for C39, C40, C42, C79: `iterative_zoom_1d`, empty zoom shapes, and a `zoomstep` for which
`iterative_zoom` never returns
-/

open Complex Finset

namespace ImgReg

/-! ## one dimension -/

section one
variable {n : ℕ} [NeZero n]

theorem imageView1_first {mm : MinMax} {x : Fin n → ℝ} {p : Fin n} (h : Spec.IsFirstExt1 mm x p) :
    Spec.IsFirstExt mm (imageView1 x).data ((0 : Fin 1), p) := by
  have key : ∀ (j : Fin 1 × Fin n), p ≤ j.2 → Np.flat ((0 : Fin 1), p) ≤ Np.flat j := by
    rintro ⟨j1, j2⟩ hj
    obtain rfl : j1 = 0 := Subsingleton.elim _ _
    simpa [Np.flat] using hj
  cases mm
  · exact ⟨fun i => h.1 i.2, fun j hj => key j (h.2 j.2 fun i => hj ((0 : Fin 1), i))⟩
  · exact ⟨fun i => h.1 i.2, fun j hj => key j (h.2 j.2 fun i => hj ((0 : Fin 1), i))⟩

/-- C40 for `iterative_zoom_1d`: it stops with an answer on every finite non-constant array. -/
theorem C40_iterative_zoom_1d_returns (hasFftw : Bool) (x : Fin n → ℝ) (hx : ∃ i j, x i ≠ x j)
    (mindiff : ℝ) (hmd : 0 < mindiff) (l : ℕ) (hl : 2 ≤ l) (step : ℝ) (hstep : 1 < step)
    (mm : MinMax) (rz rc : Bool)
    (hc : rc = true → ∃ p, Spec.IsFirstExt1 mm x p ∧ ∀ i, x i ≠ x p → mindiff < |x i - x p|) :
    ∃ fuel res, iterativeZoom1d hasFftw fuel (realArr x) mindiff l step mm rz rc = some (.ok res) := by
  have : NeZero l := ⟨by omega⟩
  have hl1 : l ≠ 1 := by omega
  obtain ⟨fuel, r, hr⟩ := loop1_terminates hasFftw x mindiff hmd l step hstep mm
      (0, ((n : ℝ) - 1) / 2) ⟨imageView1 x, 1, none, (0, 0)⟩ rfl
  have hne : ∃ i, (imageView1 x).delta mm i ≠ 0 := by
    by_contra hcon
    push Not at hcon
    obtain ⟨i, j, hij⟩ := hx
    exact hij ((sub_eq_zero.1 (hcon ((0 : Fin 1), i))).trans (sub_eq_zero.1 (hcon ((0 : Fin 1), j))).symm)
  cases r with
  | error e =>
    refine absurd hr (zoomLoop_no_error (by linarith) (fun c zf hzf => ?_) fuel _ one_pos hne e)
    exact ⟨_, zoomOn1_eq ⟨hasFftw, false, 1⟩ x l hl1 c zf hzf.ne'⟩
  | ok s =>
    refine ⟨fuel, ?_⟩
    rw [iterativeZoom1d_loop, hr]
    obtain ⟨k, -, rfl, h1, h2, h3⟩ := zoomLoop_ok (G := gridView1 x l) (imageView1 x)
      (fun c zf v => zoomOn1_ok hasFftw x l hl1 c zf v) fuel (k := 0) hr
    cases rc with
    | false => exact ⟨_, rfl⟩
    | true =>
      cases k with
      | zero =>
        exfalso
        obtain ⟨p, hp, hgo⟩ := hc rfl
        have hpe : (imageView1 x).pos mm = ((0 : Fin 1), p) :=
          ZoomView.pos_eq (imageView1 x) mm (imageView1_first hp)
        apply h1
        refine ⟨hne, fun i hi => ?_⟩
        have := hgo i.2 (by
          intro hcon
          apply hi
          unfold ZoomView.delta
          change x i.2 - x ((imageView1 x).pos mm).2 = 0
          rw [hpe, hcon, sub_self])
        unfold ZoomView.delta
        change mindiff < |x i.2 - x ((imageView1 x).pos mm).2|
        rw [hpe]
        exact this
      | succ k => exact ⟨_, rfl⟩

theorem ext_improves1 (x : Fin n → ℝ) (b : ℕ) (step : ℝ)
    (mm : MinMax) (k : ℕ) (i : Fin n) :
    let c := (zoomViews (gridView1 x (2 * b + 1)) (imageView1 x) mm step k).ext mm
    match mm with
    | .min => (interpC (fun j => (x j : ℂ)) c.2).re ≤ x i
    | .max => x i ≤ (interpC (fun j => (x j : ℂ)) c.2).re := by
  induction k with
  | zero =>
    have h := ZoomView.pos_spec (imageView1 x) mm
    have hv : (interpC (fun j => (x j : ℂ)) ((imageView1 x).ext mm).2).re
        = x ((imageView1 x).pos mm).2 := by
      have := interpC_int (fun j => (x j : ℂ)) (((imageView1 x).pos mm).2 : ℕ)
      have h2 : ((imageView1 x).ext mm).2 = (((((imageView1 x).pos mm).2 : ℕ) : ℤ) : ℝ) := by
        simp [ZoomView.ext, imageView1]
      rw [h2, this, Complex.ofReal_re]
      generalize (imageView1 x).pos mm = q
      change Fin 1 × Fin n at q
      rw [Spec.wrap_val]
    cases mm
    · simp only [zoomViews]
      rw [hv]
      exact h.1 ((0 : Fin 1), i)
    · simp only [zoomViews]
      rw [hv]
      exact h.1 ((0 : Fin 1), i)
  | succ k ih =>
    set c := (zoomViews (gridView1 x (2 * b + 1)) (imageView1 x) mm step k).ext mm with hc
    have hview : zoomViews (gridView1 x (2 * b + 1)) (imageView1 x) mm step (k + 1)
        = gridView1 x (2 * b + 1) c (step ^ (k + 1)) := rfl
    rw [hview]
    have h := ZoomView.pos_spec (gridView1 x (2 * b + 1) c (step ^ (k + 1))) mm
    have hmid : (gridView1 x (2 * b + 1) c (step ^ (k + 1))).data
        ((0 : Fin 1), (⟨b, by omega⟩ : Fin (2 * b + 1)))
        = (interpC (fun j => (x j : ℂ)) c.2).re := by
      simp only [gridView1, grid_mid]
    cases mm
    · exact (h.1 _).trans (hmid.le.trans ih)
    · exact ih.trans (hmid.ge.trans (h.1 _))

/-- C79 for `iterative_zoom_1d`: with an odd zoom shape of at least 3 points, the Fourier interpolant of the
data at the returned centre is at most (for `np.max`: at least) every sample. -/
theorem C79_iterative_zoom_1d_improves (hasFftw : Bool) (fuel : ℕ) (x : Fin n → ℝ) (mindiff : ℝ) (b : ℕ)
    (hb : 0 < b) (step : ℝ) (mm : MinMax) (rz : Bool) (res : IterZoomRes)
    (h : iterativeZoom1d hasFftw fuel (realArr x) mindiff (2 * b + 1) step mm rz true = some (.ok res)) :
    ∃ c : ℝ, (res = .plain [c] ∨ ∃ v zf, res = .zoomed v zf [c]) ∧
      ∀ i, match mm with
        | .min => (interpC (fun j => (x j : ℂ)) c).re ≤ x i
        | .max => x i ≤ (interpC (fun j => (x j : ℂ)) c).re := by
  rw [iterativeZoom1d_loop] at h
  obtain ⟨k, ⟨out, hres, h0, hj⟩, -, -, -⟩ := outcome_of_loop (G := gridView1 x (2 * b + 1))
    (imageView1 x) (fun c zf v => zoomOn1_ok hasFftw x (2 * b + 1) (by omega) c zf v) _ _ rz true fuel res h
  cases k with
  | zero => simp at h0
  | succ k =>
    have hout := hj k rfl
    simp only [if_true] at hout
    refine ⟨((zoomViews (gridView1 x (2 * b + 1)) (imageView1 x) mm step k).ext mm).2, ?_,
      fun i => ext_improves1 x b step mm k i⟩
    rw [hres, hout]
    cases rz
    · left; rfl
    · right; exact ⟨_, _, rfl⟩

end one

/-! ## zoom shapes and zoom steps that fail -/

theorem zoomLoop_diverges {G : ℝ × ℝ → ℝ → ZoomView} (v0 : ZoomView) {mm : MinMax} {step mindiff : ℝ}
    {zoomOn : ℝ × ℝ → ℝ → Py ZoomView} (hz : ∀ c zf, zf ≠ 0 → zoomOn c zf = .ok (G c zf)) (hstep : step ≠ 0)
    (mid : ℝ × ℝ) (hgo : ∀ k, (zoomViews G v0 mm step k).Goes mm mindiff) (fuel k : ℕ) :
    zoomLoop zoomOn mid mm step mindiff fuel (zoomStates G v0 mm step mid k) = none := by
  classical
  induction fuel generalizing k with
  | zero => rfl
  | succ fuel ih =>
    obtain ⟨d, hd, hgt⟩ := ZoomView.goes_iff.1 (hgo k)
    have hs : zoomStep zoomOn mid mm step (zoomStates G v0 mm step mid k)
        = .ok (zoomStates G v0 mm step mid (k + 1)) := by
      unfold zoomStep
      simp only [zoomStates_zf, bind, Except.bind]
      rw [hz _ _ (mul_ne_zero (pow_ne_zero _ hstep) hstep)]
      cases k <;> simp [zoomStates, zoomViews, ZoomView.ext, pow_succ, pure, Except.pure]
    unfold zoomLoop
    simp only [zoomStates_view, hd, gt_iff_lt, hgt, if_true, hs]
    rw [if_neg]
    · exact ih (k + 1)
    · intro hall
      obtain ⟨⟨i, hi⟩, -⟩ := hgo (k + 1)
      exact hi (hall i)

section two
variable {ny nx : ℕ} [NeZero ny] [NeZero nx]

/-- C40, necessity of `zoomstep > 1`: with `zoomstep=1` and a zoom shape of odd sizes, `iterative_zoom` never
returns when the image has a single extremum pixel further than `mindiff` from all others (and the zoom grid
reaches a neighbour along an axis of at least two pixels): whatever the number of iterations allowed, there
is no answer. -/
theorem C40_zoomstep_one_diverges (hasFftw : Bool) (fuel : ℕ) (x : Fin ny × Fin nx → ℝ) (mindiff : ℝ)
    (a b : ℕ) (mm : MinMax) (rz rc : Bool) (p : Fin ny × Fin nx)
    (hp : ∀ i, match mm with | .min => x p ≤ x i | .max => x i ≤ x p)
    (hgap : ∀ i, i ≠ p → x i ≠ x p ∧ mindiff < |x i - x p|)
    (hab : (0 < a ∧ 2 ≤ ny) ∨ (0 < b ∧ 2 ≤ nx)) :
    iterativeZoom hasFftw fuel (realArr x) mindiff (2 * a + 1, 2 * b + 1) 1 mm rz rc = none := by
  have hgrid : ∀ (z : ℤ) (o : ℕ) (i : Fin (2 * o + 1)),
      Spec.zoomGrid (z : ℝ) 1 (2 * o + 1) i = ((z + ((i : ℕ) : ℤ) - o : ℤ) : ℝ) := by
    intro z o i
    unfold Spec.zoomGrid; push_cast; ring
  have hdata : ∀ (zy zx : ℤ) (i : Fin (2 * a + 1) × Fin (2 * b + 1)),
      (interp2C (fun j => (x j : ℂ)) (Spec.zoomGrid (zy : ℝ) 1 (2 * a + 1) i.1)
          (Spec.zoomGrid (zx : ℝ) 1 (2 * b + 1) i.2)).re
        = x (Spec.wrap ny (zy + ((i.1 : ℕ) : ℤ) - a), Spec.wrap nx (zx + ((i.2 : ℕ) : ℤ) - b)) := by
    intro zy zx i
    rw [hgrid, hgrid, interp2C_int, Complex.ofReal_re]
  -- the value at the extremum of a view that contains `x p` and only image values
  have hval : ∀ v : ZoomView, (∃ i, v.data i = x p) → (∀ i, ∃ q, v.data i = x q) →
      v.data (v.pos mm) = x p := by
    rintro v ⟨i, hi⟩ hall
    have h := ZoomView.pos_spec v mm
    obtain ⟨q, hq⟩ := hall (v.pos mm)
    cases mm
    · exact le_antisymm (hi ▸ h.1 i) (hq ▸ hp q)
    · exact le_antisymm (hq ▸ hp q) (hi ▸ h.1 i)
  have hpq : ∀ q, x q = x p → q = p := by
    intro q hq
    by_contra hne
    exact (hgap q hne).1 hq
  -- a view that goes on
  have hgoes : ∀ v : ZoomView, v.data (v.pos mm) = x p → (∀ i, ∃ q, v.data i = x q) →
      (∃ i, v.data i ≠ x p) → v.Goes mm mindiff := by
    rintro v h1 h2 ⟨i, hi⟩
    refine ⟨⟨i, ?_⟩, fun j hj => ?_⟩
    · unfold ZoomView.delta
      rw [h1]; exact sub_ne_zero.2 hi
    · unfold ZoomView.delta at hj ⊢
      rw [h1] at hj ⊢
      obtain ⟨q, hq⟩ := h2 j
      rw [hq] at hj ⊢
      exact (hgap q fun h => hj (by rw [h, sub_self])).2
  have hmain : ∀ zy zx : ℤ, x (Spec.wrap ny zy, Spec.wrap nx zx) = x p →
      let v := gridView x (2 * a + 1) (2 * b + 1) ((zy : ℝ), (zx : ℝ)) 1
      v.Goes mm mindiff ∧ ∃ zy' zx' : ℤ, v.ext mm = ((zy' : ℝ), (zx' : ℝ)) ∧
        x (Spec.wrap ny zy', Spec.wrap nx zx') = x p := by
    intro zy zx hz v
    have hall : ∀ i, ∃ q, v.data i = x q := fun i => ⟨_, hdata zy zx i⟩
    have hmid : v.data ((⟨a, by omega⟩ : Fin (2 * a + 1)), (⟨b, by omega⟩ : Fin (2 * b + 1))) = x p := by
      refine (hdata zy zx _).trans ?_
      simp only [add_sub_cancel_right]
      exact hz
    have hv := hval v ⟨_, hmid⟩ hall
    have hwp := hpq _ hz
    refine ⟨hgoes v hv hall ?_, ?_⟩
    · have hw : ∀ (n : ℕ) [NeZero n], 2 ≤ n → ∀ z : ℤ, Spec.wrap n (z + 1) ≠ Spec.wrap n z := by
        intro n _ hn z h
        have h1 := Spec.wrap_modEq n (z + 1)
        have h2 := Spec.wrap_modEq n z
        rw [h] at h1
        have h3 := (h1.symm.trans h2).symm.dvd
        have : (n : ℤ) ∣ 1 := by
          have := h3
          rwa [add_sub_cancel_left] at this
        have := Int.le_of_dvd one_pos this
        omega
      rcases hab with ⟨ha, hn⟩ | ⟨hb, hn⟩
      · refine ⟨((⟨a + 1, by omega⟩ : Fin (2 * a + 1)), (⟨b, by omega⟩ : Fin (2 * b + 1))), fun hc => ?_⟩
        have e := (hdata zy zx ((⟨a + 1, by omega⟩ : Fin (2 * a + 1)),
          (⟨b, by omega⟩ : Fin (2 * b + 1)))).symm.trans hc
        have e2 := hpq _ e
        simp only [add_sub_cancel_right] at e2
        rw [← hwp] at e2
        have e3 := congrArg Prod.fst e2
        simp only at e3
        rw [show zy + ((a + 1 : ℕ) : ℤ) - a = zy + 1 by push_cast; ring] at e3
        exact hw ny hn zy e3
      · refine ⟨((⟨a, by omega⟩ : Fin (2 * a + 1)), (⟨b + 1, by omega⟩ : Fin (2 * b + 1))), fun hc => ?_⟩
        have e := (hdata zy zx ((⟨a, by omega⟩ : Fin (2 * a + 1)),
          (⟨b + 1, by omega⟩ : Fin (2 * b + 1)))).symm.trans hc
        have e2 := hpq _ e
        simp only [add_sub_cancel_right] at e2
        rw [← hwp] at e2
        have e3 := congrArg Prod.snd e2
        simp only at e3
        rw [show zx + ((b + 1 : ℕ) : ℤ) - b = zx + 1 by push_cast; ring] at e3
        exact hw nx hn zx e3
    · exact ⟨_, _, Prod.ext (hgrid zy a _) (hgrid zx b _), (hdata zy zx _).symm.trans hv⟩
  have h0 : (imageView x).data ((imageView x).pos mm) = x p := hval (imageView x) ⟨p, rfl⟩ fun i => ⟨i, rfl⟩
  have hinv : ∀ k, (zoomViews (gridView x (2 * a + 1) (2 * b + 1)) (imageView x) mm 1 k).Goes mm mindiff ∧
      ∃ zy zx : ℤ, (zoomViews (gridView x (2 * a + 1) (2 * b + 1)) (imageView x) mm 1 k).ext mm
        = ((zy : ℝ), (zx : ℝ)) ∧ x (Spec.wrap ny zy, Spec.wrap nx zx) = x p := by
    intro k
    induction k with
    | zero =>
      refine ⟨hgoes (imageView x) h0 (fun i => ⟨i, rfl⟩) ?_, ?_⟩
      · rcases hab with ⟨-, hn⟩ | ⟨-, hn⟩
        · have : ∃ q : Fin ny, q ≠ p.1 := by
            have : Nontrivial (Fin ny) := Fin.nontrivial_iff_two_le.2 hn
            exact exists_ne p.1
          obtain ⟨q, hq⟩ := this
          exact ⟨(q, p.2), fun h => hq (congrArg Prod.fst (hpq _ h))⟩
        · have : ∃ q : Fin nx, q ≠ p.2 := by
            have : Nontrivial (Fin nx) := Fin.nontrivial_iff_two_le.2 hn
            exact exists_ne p.2
          obtain ⟨q, hq⟩ := this
          exact ⟨(p.1, q), fun h => hq (congrArg Prod.snd (hpq _ h))⟩
      · have hq : (imageView x).pos mm = p := hpq _ h0
        refine ⟨((p.1 : ℕ) : ℤ), ((p.2 : ℕ) : ℤ), ?_, ?_⟩
        · change (((((imageView x).pos mm).1 : ℕ) : ℝ), ((((imageView x).pos mm).2 : ℕ) : ℝ)) = _
          rw [hq]; simp
        · rw [Spec.wrap_val, Spec.wrap_val]
    | succ k ih =>
      obtain ⟨-, zy, zx, he, hx⟩ := ih
      have hview : zoomViews (gridView x (2 * a + 1) (2 * b + 1)) (imageView x) mm 1 (k + 1)
          = gridView x (2 * a + 1) (2 * b + 1) ((zy : ℝ), (zx : ℝ)) 1 := by
        rw [← he]; simp only [zoomViews, one_pow]
      rw [hview]
      exact hmain zy zx hx
  rw [iterativeZoom_loop]
  have := zoomLoop_diverges (imageView x) (zoomOn := zoomOn2 hasFftw x (2 * a + 1, 2 * b + 1))
    (fun c zf hzf => zoomOn2_eq ⟨hasFftw, false, 1⟩ x (2 * a + 1) (2 * b + 1) c zf hzf) one_ne_zero
    (((ny : ℝ) - 1) / 2, ((nx : ℝ) - 1) / 2) (fun k => (hinv k).1) fuel 0
  rw [show (⟨imageView x, 1, none, (0, 0)⟩ : ZoomState)
    = zoomStates (gridView x (2 * a + 1) (2 * b + 1)) (imageView x) mm 1 _ 0 from rfl, this]
  rfl

/-- C42: a zoom shape with a zero raises IndexError as soon as the loop is entered; `zoomstep=0` a
ZeroDivisionError. -/
theorem C42_bad_zoom (hasFftw : Bool) (fuel : ℕ) (x : Fin ny × Fin nx → ℝ) (mindiff : ℝ) (mm : MinMax)
    (p : Fin ny × Fin nx) (hp : Spec.IsFirstExt mm x p) (hne : ∃ i, x i ≠ x p)
    (hgap : ∀ i, x i ≠ x p → mindiff < |x i - x p|) (rz rc : Bool) :
    (∀ (m l : ℕ) (step : ℝ), step ≠ 0 → m = 0 ∨ l = 0 →
      iterativeZoom hasFftw (fuel + 1) (realArr x) mindiff (m, l) step mm rz rc
        = some (.error .indexError)) ∧
    (∀ (m l : ℕ), iterativeZoom hasFftw (fuel + 1) (realArr x) mindiff (m, l) 0 mm rz rc
        = some (.error .zeroDivisionError)) := by
  have hpos : (imageView x).pos mm = p := ZoomView.pos_eq (imageView x) mm hp
  have hgo : (imageView x).Goes mm mindiff := by
    have hd : ∀ i, (imageView x).delta mm i = x i - x p := by
      intro i
      unfold ZoomView.delta
      rw [hpos]; rfl
    obtain ⟨i, hi⟩ := hne
    refine ⟨⟨i, ?_⟩, fun j hj => ?_⟩
    · exact fun h => sub_ne_zero.2 hi ((hd i).symm.trans h)
    · have h1 : x j - x p ≠ 0 := fun h => hj ((hd j).trans h)
      have h2 := hgap j (sub_ne_zero.1 h1)
      rwa [← hd j] at h2
  obtain ⟨d, hd, hgt⟩ := ZoomView.goes_iff.1 hgo
  have key : ∀ (sh : ℕ × ℕ) (step : ℝ) (e : PyErr),
      (∀ c, zoomOn2 hasFftw x sh c step = .error e) →
      iterativeZoom hasFftw (fuel + 1) (realArr x) mindiff sh step mm rz rc = some (.error e) := by
    intro sh step e he
    rw [iterativeZoom_loop]
    unfold zoomLoop
    simp only [hd, gt_iff_lt, hgt, if_true, zoomStep, he, one_mul, bind, Except.bind]
    rfl
  refine ⟨fun m l step hs h0 => key _ _ _ fun c => ?_, fun m l => key _ _ _ fun c => ?_⟩
  · unfold zoomOn2
    rw [C17_empty_output _ _ _ _ hs m l h0]
    rfl
  · exact zoomOn2_zero _ _ m l c

end two

/-- `iterative_zoom(dip, zoomshape=[9,9], zoomstep=1)` runs for ever. -/
example (fuel : ℕ) : iterativeZoom true fuel (realArr dip) 1 (9, 9) 1 .min false true = none :=
  C40_zoomstep_one_diverges true fuel dip 1 4 4 .min false true (1, 0) (fun i => dip_first.1 i)
    (fun i hi => by
      have h : dip i ≠ dip (1, 0) := by simp [dip, hi]
      exact ⟨h, dip_gap i h⟩) (.inl ⟨by norm_num, le_rfl⟩)

/-- `iterative_zoom(dip, zoomshape=[0,5])` raises IndexError. -/
example : iterativeZoom true 1 (realArr dip) 1 (0, 5) 2 .min false true = some (.error .indexError) :=
  (C42_bad_zoom true 0 dip 1 .min (1, 0) dip_first ⟨(0, 0), by simp [dip]⟩ dip_gap false true).1 0 5 2
    two_ne_zero (.inl rfl)

/-- `iterative_zoom_1d` of a three-sample array returns. -/
example : ∃ fuel res, iterativeZoom1d true fuel (realArr ![10, 0, 10]) 1 10 2 .min false true
    = some (.ok res) := by
  refine C40_iterative_zoom_1d_returns true ![10, 0, 10] ⟨0, 1, by simp⟩ 1 one_pos 10 (by norm_num) 2
    one_lt_two .min false true fun _ => ⟨1, ⟨?_, ?_⟩, ?_⟩
  · intro i; fin_cases i <;> simp
  · intro j hj
    have := hj 1
    fin_cases j
    · norm_num at this
    · simp
    · norm_num at this
  · intro i hi
    fin_cases i
    · norm_num
    · simp at hi
    · norm_num

end ImgReg
