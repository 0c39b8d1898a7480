import Verif.Lemmas.RegisterFit
import Verif.Props.Chi2Recover

/-!
# Properties of `register_images` (C44–C49, and the shape check of C27)
-/

open Complex Finset
open scoped ComplexConjugate

namespace ImgReg

section
variable {ny nx : ℕ} [NeZero ny] [NeZero nx]

theorem registerImages_same (cfg : FFTConfig) (im1 im2 : Fin ny × Fin nx → Pix) (usfac : ℕ)
    (rr re zm : Bool) (mo : Option ℕ) :
    registerImages cfg im1 im2 usfac rr re zm mo = registerBody cfg im1 im2 usfac rr re zm mo := by
  unfold registerImages
  rw [dif_pos ⟨rfl, rfl⟩]
  rfl

/-! ## Reduction of integers to `(-n/2, n/2]` and the peak index -/

theorem eq_of_modEq_range {n : ℕ} {v w : ℤ} (h : v ≡ w [ZMOD n]) (hv : -(n : ℤ) < 2 * v ∧ 2 * v ≤ n)
    (hw : -(n : ℤ) < 2 * w ∧ 2 * w ≤ n) : v = w := by
  obtain ⟨z, hz⟩ := h.dvd
  have hn : (0 : ℤ) ≤ n := by positivity
  have h1 : -(n : ℤ) < n * z := by omega
  have h2 : (n : ℤ) * z < n := by omega
  have hz0 : z = 0 := by
    rcases lt_trichotomy z 0 with h | h | h
    · exfalso; nlinarith
    · exact h
    · exfalso; nlinarith
  rw [hz0, mul_zero] at hz
  omega

theorem wrapPeak_wrap (n : ℕ) [NeZero n] (v : ℤ) (hv : -(n : ℤ) < 2 * v ∧ 2 * v ≤ n) :
    wrapPeak n (Spec.wrap n v : Fin n) = v :=
  eq_of_modEq_range ((wrapPeak_modEq _ _).trans (Spec.wrap_modEq n v)) (wrapPeak_range _ _ (Fin.isLt _)) hv

open Classical in
theorem argmax_kept {m n : ℕ} [NeZero m] [NeZero n] (mo : Option ℕ) (f : Fin m × Fin n → ℝ)
    (hf : ∀ i, 0 ≤ f i) (i0 : Fin m × Fin n) (h0 : ¬ Spec.erased m n mo i0)
    (h : ∀ j, j ≠ i0 → f j < f i0) : Np.argmax (Spec.kept mo f) = i0 := by
  apply Np.argmax_eq_of_unique
  intro j hj
  unfold Spec.kept
  rw [if_neg h0]
  split_ifs
  · exact lt_of_le_of_lt (hf j) (h j hj)
  · exact h j hj

open Classical in
/-- the peak of the kept part is never in the erased part -/
theorem argmax_not_erased {m n : ℕ} [NeZero m] [NeZero n] (mo : Option ℕ) (f : Fin m × Fin n → ℝ)
    (hf : ∀ i, 0 ≤ f i) : ¬ Spec.erased m n mo (Np.argmax (Spec.kept mo f)) := by
  intro he
  obtain ⟨hmax, hfirst⟩ := Np.argmax_spec (Spec.kept mo f)
  have hz : Spec.kept mo f (Np.argmax (Spec.kept mo f)) = 0 := by
    unfold Spec.kept at he ⊢; rw [if_pos he]
  have hall : ∀ j, Spec.kept mo f j = 0 := by
    intro j
    refine le_antisymm (by rw [← hz]; exact hmax j) ?_
    unfold Spec.kept; split_ifs
    · exact le_rfl
    · exact hf j
  have h00 := hfirst ⟨⟨0, Nat.pos_of_ne_zero (NeZero.ne m)⟩, ⟨0, Nat.pos_of_ne_zero (NeZero.ne n)⟩⟩ fun k => by
    rw [hall, hall]
  have h1 : Np.flat (Np.argmax (Spec.kept mo f)) = 0 := by
    have : Np.flat ((⟨0, Nat.pos_of_ne_zero (NeZero.ne m)⟩, ⟨0, Nat.pos_of_ne_zero (NeZero.ne n)⟩)
      : Fin m × Fin n) = 0 := by simp [Np.flat]
    omega
  unfold Np.flat at h1
  have hn := Nat.pos_of_ne_zero (NeZero.ne n)
  obtain ⟨k, _, hk0, hk⟩ := he
  have h2 : ((Np.argmax (Spec.kept mo f)).2 : ℕ) = 0 := by omega
  have h3 : ((Np.argmax (Spec.kept mo f)).1 : ℕ) = 0 := by
    rcases Nat.mul_eq_zero.1 (show ((Np.argmax (Spec.kept mo f)).1 : ℕ) * n = 0 by omega) with h | h
    · exact h
    · omega
  omega

/-! ## C44 -/

/-- the displacements that `register_images` compares: multiples of `1/usfac`, and half pixels for
`usfac ≥ 2` -/
def Spec.candidates (usfac : ℕ) : Set ℝ :=
  {t | (∃ z : ℤ, usfac * t = z) ∨ (2 ≤ usfac ∧ ∃ z : ℤ, 2 * t = z)}

/-- how many correlation pixels per image pixel the first search has -/
def Spec.density (usfac : ℕ) : ℕ := if usfac = 1 then 1 else 2

theorem pyRound_int (z : ℤ) : pyRound z = z := by
  unfold pyRound
  simp

theorem abs_pyRound_sub (x : ℝ) : |(pyRound x : ℝ) - x| ≤ 1 / 2 := by
  unfold pyRound
  have h1 := Int.floor_le x
  have h2 := Int.lt_floor_add_one x
  rw [abs_le]
  split_ifs <;> push_cast <;> constructor <;> linarith

/-- position of the true peak in a map with `q` pixels per image pixel -/
theorem peak_index {n q : ℕ} [NeZero n] [NeZero (q * n)] (hq : q ≠ 0) (d : ℤ) (i : Fin (q * n)) :
    (∃ z : ℤ, ((i : ℕ) : ℝ) / q + d = z * n) ↔ i = Spec.wrap (q * n) (-(q * d)) := by
  have hq' : (q : ℝ) ≠ 0 := by exact_mod_cast hq
  rw [eq_comm, Spec.wrap_eq_iff, Int.modEq_iff_dvd]
  constructor
  · rintro ⟨z, hz⟩
    refine ⟨z, ?_⟩
    have : (((i : ℕ) : ℤ) : ℝ) + q * d = z * (q * n) := by
      push_cast; field_simp at hz; linarith
    have h2 : ((i : ℕ) : ℤ) + q * d = z * (q * n) := by exact_mod_cast this
    push_cast; linarith
  · rintro ⟨z, hz⟩
    refine ⟨z, ?_⟩
    push_cast at hz
    have h2 : ((i : ℕ) : ℤ) + q * d = z * (q * n) := by linarith
    have h3 : (((i : ℕ) : ℤ) : ℝ) + q * d = (z : ℤ) * (q * n) := by exact_mod_cast h2
    push_cast at h3 ⊢
    field_simp
    linarith

/-- the true peak is kept when the displacement is within `maxoff` -/
theorem not_erased {m n : ℕ} [NeZero m] [NeZero n] (mo : Option ℕ) (v w : ℤ)
    (hv : -(m : ℤ) < 2 * v ∧ 2 * v ≤ m) (hw : -(n : ℤ) < 2 * w ∧ 2 * w ≤ n)
    (h : ∀ k : ℕ, mo = some k → k ≠ 0 → (-(k : ℤ) ≤ v ∧ v < k) ∧ (-(k : ℤ) ≤ w ∧ w < k)) :
    ¬ Spec.erased m n mo (Spec.wrap m v, Spec.wrap n w) := by
  rintro ⟨k, hk, hk0, he⟩
  obtain ⟨⟨a1, a2⟩, b1, b2⟩ := h k hk hk0
  have key : ∀ (n : ℕ) [NeZero n] (v : ℤ), -(n : ℤ) < 2 * v ∧ 2 * v ≤ n →
      (((Spec.wrap n v : Fin n) : ℕ) : ℤ) = if v < 0 then v + n else v := by
    intro n _ v hv
    have h1 := wrapPeak_wrap n v hv
    have h2 := (Spec.wrap n v : Fin n).isLt
    unfold wrapPeak at h1
    split_ifs at h1 ⊢ <;> omega
  have e1 := key m v hv
  have e2 := key n w hw
  simp only at he
  split_ifs at e1 e2 <;> omega

theorem refineAt_int (usfac : ℕ) (hu : usfac ≠ 0) (d : ℤ) (i : ℕ) :
    Spec.refineAt usfac d i
      = d + ((i : ℝ) - ((⌈(usfac : ℝ) * (3 / 2)⌉₊ / 2 : ℕ) : ℝ)) / usfac := by
  unfold Spec.refineAt
  have hu' : (usfac : ℝ) ≠ 0 := by exact_mod_cast hu
  have : (d : ℝ) * usfac = ((d * usfac : ℤ) : ℝ) := by push_cast; ring
  rw [this, pyRound_int]
  push_cast
  field_simp

theorem refineSize_le (usfac : ℕ) : ⌈(usfac : ℝ) * (3 / 2)⌉₊ ≤ 2 * usfac := by
  rw [Nat.ceil_le]
  push_cast
  have : (0 : ℝ) ≤ usfac := by positivity
  linarith

theorem refineAt_unique {n usfac : ℕ} (hn : 2 ≤ n) (hu : usfac ≠ 0) (d : ℤ)
    (i : Fin ⌈(usfac : ℝ) * (3 / 2)⌉₊) :
    (∃ z : ℤ, Spec.refineAt usfac ((-d : ℤ) : ℝ) i + d = z * n) ↔ (i : ℕ) = ⌈(usfac : ℝ) * (3 / 2)⌉₊ / 2 := by
  rw [refineAt_int usfac hu]
  have hu' : (0 : ℝ) < usfac := by exact_mod_cast Nat.pos_of_ne_zero hu
  have hi := i.isLt
  have hs := refineSize_le usfac
  generalize ⌈(usfac : ℝ) * (3 / 2)⌉₊ = s at *
  have e : ((-d : ℤ) : ℝ) + (((i : ℕ) : ℝ) - ((s / 2 : ℕ) : ℝ)) / usfac + d
      = (((i : ℕ) : ℝ) - ((s / 2 : ℕ) : ℝ)) / usfac := by push_cast; ring
  rw [e]
  constructor
  · intro h
    have h0 := eq_zero_of_mul_lt h ?_
    · rw [div_eq_zero_iff, or_iff_left hu'.ne', sub_eq_zero] at h0
      exact_mod_cast h0
    · rw [abs_div, abs_of_pos hu', div_lt_iff₀ hu', abs_lt]
      have h1 : ((i : ℕ) : ℝ) < 2 * usfac := by exact_mod_cast (by omega : (i : ℕ) < 2 * usfac)
      have h2 : ((s / 2 : ℕ) : ℝ) < 2 * usfac := by
        exact_mod_cast (by omega : s / 2 < 2 * usfac)
      have h3 : (0 : ℝ) ≤ ((i : ℕ) : ℝ) := by positivity
      have h4 : (0 : ℝ) ≤ ((s / 2 : ℕ) : ℝ) := by positivity
      have h5 : (2 : ℝ) * usfac ≤ n * usfac := by
        have : (2 : ℝ) ≤ n := by exact_mod_cast hn
        nlinarith
      constructor <;> linarith
  · intro h
    refine ⟨0, ?_⟩
    rw [h]; simp

/-- the fit when the correlation at a whole-pixel displacement beats every other candidate -/
theorem fit_recovers_of_peak (cfg : FFTConfig) (a b : Fin ny × Fin nx → ℝ) (dy dx : ℤ)
    (usfac : ℕ) (hu : 1 ≤ usfac) (hsz : usfac = 1 ∨ (2 ≤ ny ∧ 2 ≤ nx))
    (hpk : ∀ t u t' u' : ℝ, t + dy ∈ Spec.candidates usfac → u + dx ∈ Spec.candidates usfac →
      ((∃ z : ℤ, t' + dy = z * ny) ∧ ∃ z : ℤ, u' + dx = z * nx) →
      ¬ ((∃ z : ℤ, t + dy = z * ny) ∧ ∃ z : ℤ, u + dx = z * nx) → ‖Spec.cc a b t u‖ < ‖Spec.cc a b t' u'‖)
    (hdy : -(ny : ℤ) ≤ 2 * dy ∧ 2 * dy < ny) (hdx : -(nx : ℤ) ≤ 2 * dx ∧ 2 * dx < nx) (mo : Option ℕ)
    (hmo : ∀ k : ℕ, mo = some k → k ≠ 0 →
      (-(k : ℤ) < Spec.density usfac * dy ∧ Spec.density usfac * dy ≤ k) ∧
      (-(k : ℤ) < Spec.density usfac * dx ∧ Spec.density usfac * dx ≤ k)) :
    ∃ fit, dftregFit cfg (cArr (dft fun p => (a p : ℂ))) (cArr (dft fun p => (b p : ℂ))) usfac mo = .ok fit ∧
      fit.row = ((-dy : ℤ) : ℝ) ∧ fit.col = ((-dx : ℤ) : ℝ) := by
  -- the first search, with `q` correlation pixels per image pixel
  have first : ∀ q : ℕ, q ≠ 0 → ∀ [NeZero (q * ny)] [NeZero (q * nx)],
      (∀ k : ℕ, mo = some k → k ≠ 0 → (-(k : ℤ) < q * dy ∧ (q : ℤ) * dy ≤ k) ∧
        (-(k : ℤ) < q * dx ∧ (q : ℤ) * dx ≤ k)) →
      (∀ (i : ℕ) (d : ℤ), ((i : ℝ) / q + d) ∈ Spec.candidates usfac) →
      Np.argmax (Spec.kept mo fun i : Fin (q * ny) × Fin (q * nx) =>
        ‖Spec.cc a b (((i.1 : ℕ) : ℝ) / q) (((i.2 : ℕ) : ℝ) / q)‖)
        = (Spec.wrap (q * ny) (-(q * dy)), Spec.wrap (q * nx) (-(q * dx))) ∧
      (-((q * ny : ℕ) : ℤ) < 2 * -(q * dy) ∧ 2 * -(q * dy) ≤ ((q * ny : ℕ) : ℤ)) ∧
      (-((q * nx : ℕ) : ℤ) < 2 * -(q * dx) ∧ 2 * -(q * dx) ≤ ((q * nx : ℕ) : ℤ)) := by
    intro q hq _ _ hmoq hcand
    have hq' : (0 : ℤ) < q := by exact_mod_cast Nat.pos_of_ne_zero hq
    have ry : -((q * ny : ℕ) : ℤ) < 2 * -(q * dy) ∧ 2 * -(q * dy) ≤ ((q * ny : ℕ) : ℤ) := by
      push_cast; constructor <;> nlinarith
    have rx : -((q * nx : ℕ) : ℤ) < 2 * -(q * dx) ∧ 2 * -(q * dx) ≤ ((q * nx : ℕ) : ℤ) := by
      push_cast; constructor <;> nlinarith
    refine ⟨argmax_kept mo _ (fun i => norm_nonneg _) _ (not_erased mo _ _ ry rx ?_) ?_, ry, rx⟩
    · intro k hk hk0
      obtain ⟨⟨a1, a2⟩, b1, b2⟩ := hmoq k hk hk0
      omega
    · intro j hj
      refine hpk _ _ _ _ (hcand _ _) (hcand _ _) ⟨(peak_index hq dy _).2 rfl, (peak_index hq dx _).2 rfl⟩ ?_
      rintro ⟨h1, h2⟩
      exact hj (Prod.ext ((peak_index hq dy _).1 h1) ((peak_index hq dx _).1 h2))
  by_cases h1 : usfac = 1
  · subst h1
    obtain ⟨loc, fit, hl, hfit, hr, hc⟩ := dftregFit_one cfg a b mo
    refine ⟨fit, hfit, ?_, ?_⟩
    all_goals
      have hunique : loc = (Spec.wrap ny (-dy), Spec.wrap nx (-dx)) := by
        rw [hl]
        refine argmax_kept mo _ (fun i => norm_nonneg _) _ (not_erased mo _ _ (by omega) (by omega) ?_) ?_
        · intro k hk hk0
          have := hmo k hk hk0
          simp only [Spec.density, if_true, Nat.cast_one, one_mul] at this
          omega
        · intro j hj
          have p1 : ∀ (n : ℕ) [NeZero n] (d : ℤ) (i : Fin n),
              (∃ z : ℤ, ((i : ℕ) : ℝ) + d = z * n) ↔ i = Spec.wrap n (-d) := by
            intro n _ d i
            rw [eq_comm, Spec.wrap_eq_iff, Int.modEq_iff_dvd]
            constructor
            · rintro ⟨z, hz⟩
              refine ⟨z, ?_⟩
              have : ((i : ℕ) : ℤ) + d = z * n := by exact_mod_cast hz
              linarith
            · rintro ⟨z, hz⟩
              refine ⟨z, ?_⟩
              have h2 : ((i : ℕ) : ℤ) + d = z * n := by linarith
              exact_mod_cast h2
          have hcand : ∀ (i : ℕ) (d : ℤ), ((i : ℝ) + d) ∈ Spec.candidates 1 := fun i d =>
            Or.inl ⟨i + d, by push_cast; ring⟩
          refine hpk _ _ _ _ (hcand _ _) (hcand _ _) ⟨(p1 ny dy _).2 rfl, (p1 nx dx _).2 rfl⟩ ?_
          rintro ⟨h1, h2⟩
          exact hj (Prod.ext ((p1 ny dy _).1 h1) ((p1 nx dx _).1 h2))
      simp only [hr, hc, hunique]
      rw [wrapPeak_wrap _ _ (by omega)]
  · obtain ⟨hy, hx⟩ := hsz.resolve_left h1
    have hu2 : 2 ≤ usfac := by omega
    have hden : Spec.density usfac = 2 := by simp [Spec.density, h1]
    rw [hden] at hmo
    obtain ⟨hloc, ry, rx⟩ := first 2 two_ne_zero (by exact_mod_cast hmo) (fun i d =>
      Or.inr ⟨hu2, i + 2 * d, by push_cast; ring⟩)
    simp only [Nat.cast_ofNat] at hloc ry rx
    have hwy : (wrapPeak (2 * ny) (Spec.wrap (2 * ny) (-(2 * dy)) : Fin (2 * ny)) : ℝ) / 2 = ((-dy : ℤ) : ℝ) := by
      rw [wrapPeak_wrap _ _ ry]; push_cast; ring
    have hwx : (wrapPeak (2 * nx) (Spec.wrap (2 * nx) (-(2 * dx)) : Fin (2 * nx)) : ℝ) / 2 = ((-dx : ℤ) : ℝ) := by
      rw [wrapPeak_wrap _ _ rx]; push_cast; ring
    have o1 : ∀ r, Spec.oneAxis ny r = r := fun r => by unfold Spec.oneAxis; rw [if_neg (by omega)]
    have o2 : ∀ r, Spec.oneAxis nx r = r := fun r => by unfold Spec.oneAxis; rw [if_neg (by omega)]
    by_cases h2 : usfac = 2
    · subst h2
      obtain ⟨loc, fit, hl, hfit, hr, hc⟩ := dftregFit_two cfg a b mo
      rw [hloc] at hl
      refine ⟨fit, hfit, ?_, ?_⟩
      · rw [hr, hl, o1, hwy]
      · rw [hc, hl, o2, hwx]
    · have hu3 : 2 < usfac := by omega
      have hs0 : NeZero ⌈(usfac : ℝ) * (3 / 2)⌉₊ := ⟨refineSize_pos usfac (by omega)⟩
      obtain ⟨loc, row2, col2, hl, hrow2, hcol2, loc2, fit, hl2, hfit, hr, hc⟩ :=
        dftregFit_gt cfg a b mo usfac hu3
      rw [hloc] at hl
      rw [hl, hwy] at hrow2
      rw [hl, hwx] at hcol2
      subst hrow2; subst hcol2
      have hu0 : usfac ≠ 0 := by omega
      have hlt : ⌈(usfac : ℝ) * (3 / 2)⌉₊ / 2 < ⌈(usfac : ℝ) * (3 / 2)⌉₊ := by
        have := refineSize_pos usfac hu0; omega
      have hl2' : loc2 = (⟨_, hlt⟩, ⟨_, hlt⟩) := by
        rw [hl2]
        apply Np.argmax_eq_of_unique
        intro j hj
        have hcand : ∀ (i : ℕ) (d : ℤ), (Spec.refineAt usfac ((-d : ℤ) : ℝ) i + d) ∈ Spec.candidates usfac := by
          intro i d
          rw [refineAt_int usfac hu0]
          refine Or.inl ⟨(i : ℤ) - (⌈(usfac : ℝ) * (3 / 2)⌉₊ / 2 : ℕ), ?_⟩
          have hu' : (usfac : ℝ) ≠ 0 := by exact_mod_cast hu0
          rw [Int.cast_sub, Int.cast_natCast, Int.cast_natCast, Int.cast_neg]
          field_simp
          ring
        refine hpk _ _ _ _ (hcand _ _) (hcand _ _) ⟨(refineAt_unique hy hu0 dy ⟨_, hlt⟩).2 rfl,
            (refineAt_unique hx hu0 dx ⟨_, hlt⟩).2 rfl⟩ ?_
        rintro ⟨h1, h2⟩
        exact hj (Prod.ext (Fin.ext ((refineAt_unique hy hu0 dy _).1 h1))
          (Fin.ext ((refineAt_unique hx hu0 dx _).1 h2)))
      refine ⟨fit, hfit, ?_, ?_⟩
      · rw [hr, hl2', o1, refineAt_int usfac hu0]; simp
      · rw [hc, hl2', o2, refineAt_int usfac hu0]; simp

/-- the fit for a whole-pixel displacement -/
theorem fit_recovers (cfg : FFTConfig) (a b : Fin ny × Fin nx → ℝ) (dy dx : ℤ)
    (hb : ∀ p, (b p : ℂ) = cshift dy dx a p) (usfac : ℕ) (hu : 1 ≤ usfac)
    (hsz : usfac = 1 ∨ (2 ≤ ny ∧ 2 ≤ nx)) (hid : Spec.identifiable (Spec.candidates usfac) a)
    (hdy : -(ny : ℤ) ≤ 2 * dy ∧ 2 * dy < ny) (hdx : -(nx : ℤ) ≤ 2 * dx ∧ 2 * dx < nx) (mo : Option ℕ)
    (hmo : ∀ k : ℕ, mo = some k → k ≠ 0 →
      (-(k : ℤ) < Spec.density usfac * dy ∧ Spec.density usfac * dy ≤ k) ∧
      (-(k : ℤ) < Spec.density usfac * dx ∧ Spec.density usfac * dx ≤ k)) :
    ∃ fit, dftregFit cfg (cArr (dft fun p => (a p : ℂ))) (cArr (dft fun p => (b p : ℂ))) usfac mo = .ok fit ∧
      fit.row = ((-dy : ℤ) : ℝ) ∧ fit.col = ((-dx : ℤ) : ℝ) :=
  fit_recovers_of_peak cfg a b dy dx usfac hu hsz (fun t u t' u' ht hu' hp h => by
    rw [cc_eq a b dy dx t' u' hb hp]
    exact cc_lt _ a b dy dx t u hb hid ht hu' h) hdy hdx mo hmo

/-- C44: whole-pixel recovery. If `im2` is `im1` rolled by `(dy, dx)` and no other candidate
displacement reproduces the (mean-subtracted) image up to a constant phase factor, `register_images`
returns exactly the shift, reduced to `-n ≤ 2·d < n`, for every `usfac ≥ 1`. -/
theorem C44_recovers_roll (cfg : FFTConfig) (im1 : Fin ny × Fin nx → ℝ) (dy dx : ℤ) (usfac : ℕ)
    (hu : 1 ≤ usfac) (hsz : usfac = 1 ∨ (2 ≤ ny ∧ 2 ≤ nx)) (zm : Bool)
    (hid : Spec.identifiable (Spec.candidates usfac) fun p => im1 p - if zm then Spec.mean im1 else 0) :
    ∃ dx' dy' : ℤ,
      registerImages cfg (realArr im1) (realArr (Spec.roll2 dy dx im1)) usfac false false zm none
        = .ok [.num dx', .num dy'] ∧
      dx' ≡ dx [ZMOD nx] ∧ -(nx : ℤ) ≤ 2 * dx' ∧ 2 * dx' < nx ∧
      dy' ≡ dy [ZMOD ny] ∧ -(ny : ℤ) ≤ 2 * dy' ∧ 2 * dy' < ny := by
  have red : ∀ (n : ℕ) [NeZero n] (d : ℤ), ∃ d' : ℤ, d' ≡ d [ZMOD n] ∧ -(n : ℤ) ≤ 2 * d' ∧ 2 * d' < n := by
    intro n _ d
    have h1 := wrapPeak_range n (Spec.wrap n (-d) : Fin n) (Fin.isLt _)
    refine ⟨-wrapPeak n (Spec.wrap n (-d) : Fin n), ?_, by omega, by omega⟩
    have := ((wrapPeak_modEq n _).trans (Spec.wrap_modEq n (-d))).neg
    rwa [neg_neg] at this
  obtain ⟨dy', my, ly, ry⟩ := red ny dy
  obtain ⟨dx', mx, lx, rx⟩ := red nx dx
  have hroll : Spec.roll2 dy dx im1 = Spec.roll2 dy' dx' im1 := by
    funext p
    unfold Spec.roll2
    rw [Spec.wrap_congr ny ((Int.ModEq.refl _).sub my), Spec.wrap_congr nx ((Int.ModEq.refl _).sub mx)]
  refine ⟨dx', dy', ?_, mx, lx, rx, my, ly, ry⟩
  rw [hroll, registerImages_same]
  have hb := prep_cshift zm im1 (Spec.roll2 dy' dx' im1) dy' dx' (Spec.roll2_eq_cshift im1 dy' dx')
  rw [← prep_real zm im1] at hid
  obtain ⟨fit, hfit, hr, hc⟩ := fit_recovers ⟨cfg.hasFftw, false, 1⟩ _ _ dy' dx' hb usfac hu hsz hid
    ⟨ly, ry⟩ ⟨lx, rx⟩ none (by intro k hk; cases hk)
  rw [registerBody_ok cfg _ _ usfac false false zm none fit hfit, hr, hc]
  simp

/-- C44 with a condition on the spectrum of `im1` only: its lowest frequencies along both axes and
either the mixed one or (without mean subtraction) the mean are present. -/
theorem C44_recovers_roll_spectrum (cfg : FFTConfig) (im1 : Fin ny × Fin nx → ℝ) (dy dx : ℤ) (usfac : ℕ)
    (hu : 1 ≤ usfac) (hy : 2 ≤ ny) (hx : 2 ≤ nx) (zm : Bool)
    (h10 : dft (fun p => (im1 p : ℂ)) (1, 0) ≠ 0) (h01 : dft (fun p => (im1 p : ℂ)) (0, 1) ≠ 0)
    (h11 : dft (fun p => (im1 p : ℂ)) (1, 1) ≠ 0 ∨ (zm = false ∧ dft (fun p => (im1 p : ℂ)) (0, 0) ≠ 0)) :
    ∃ dx' dy' : ℤ,
      registerImages cfg (realArr im1) (realArr (Spec.roll2 dy dx im1)) usfac false false zm none
        = .ok [.num dx', .num dy'] ∧
      dx' ≡ dx [ZMOD nx] ∧ -(nx : ℤ) ≤ 2 * dx' ∧ 2 * dx' < nx ∧
      dy' ≡ dy [ZMOD ny] ∧ -(ny : ℤ) ≤ 2 * dy' ∧ 2 * dy' < ny := by
  have n1 : ((1 : Fin ny), (0 : Fin nx)) ≠ 0 := by
    intro h
    have := congrArg (fun k => ((k.1 : Fin ny) : ℕ)) h
    simp [Nat.mod_eq_of_lt (show 1 < ny by omega)] at this
  have n2 : ((0 : Fin ny), (1 : Fin nx)) ≠ 0 := by
    intro h
    have := congrArg (fun k => ((k.2 : Fin nx) : ℕ)) h
    simp [Nat.mod_eq_of_lt (show 1 < nx by omega)] at this
  have n3 : ((1 : Fin ny), (1 : Fin nx)) ≠ 0 := by
    intro h
    have := congrArg (fun k => ((k.2 : Fin nx) : ℕ)) h
    simp [Nat.mod_eq_of_lt (show 1 < nx by omega)] at this
  refine C44_recovers_roll cfg im1 dy dx usfac hu (Or.inr ⟨hy, hx⟩) zm
    (identifiable_of_dft _ _ hy hx ?_ ?_ ?_)
  · rw [dft_sub_const _ _ _ n1]; exact h10
  · rw [dft_sub_const _ _ _ n2]; exact h01
  · rcases h11 with h | ⟨rfl, h⟩
    · left; rw [dft_sub_const _ _ _ n3]; exact h
    · right; simpa using h

/-! ## C45 -/

/-- everything about the numbers returned, for every pair of images -/
theorem fit_grid (cfg : FFTConfig) (a b : Fin ny × Fin nx → ℝ) (usfac : ℕ) (hu : 1 ≤ usfac)
    (mo : Option ℕ) :
    ∃ fit, dftregFit cfg (cArr (dft fun p => (a p : ℂ))) (cArr (dft fun p => (b p : ℂ))) usfac mo = .ok fit ∧
      (∃ z : ℤ, -fit.row = (z : ℝ) / usfac) ∧ (∃ z : ℤ, -fit.col = (z : ℝ) / usfac) ∧
      (usfac ≤ 2 → (-(ny : ℝ) ≤ 2 * -fit.row ∧ 2 * -fit.row < ny) ∧
        (-(nx : ℝ) ≤ 2 * -fit.col ∧ 2 * -fit.col < nx)) ∧
      |(-fit.row)| ≤ ny / 2 + 1 ∧ |(-fit.col)| ≤ nx / 2 + 1 ∧
      (∀ k : ℕ, mo = some k → k ≠ 0 →
        (usfac = 1 → |(-fit.row)| ≤ k ∧ |(-fit.col)| ≤ k ∧
          (-fit.row = -(k : ℝ) → ny = 2 * k) ∧ (-fit.col = -(k : ℝ) → nx = 2 * k)) ∧
        (usfac = 2 → |(-fit.row)| ≤ k / 2 ∧ |(-fit.col)| ≤ k / 2) ∧
        |(-fit.row)| ≤ k + 1 ∧ |(-fit.col)| ≤ k + 1 ∧
        (2 < usfac → |(-fit.row)| ≤ k / 2 + 1 ∧ |(-fit.col)| ≤ k / 2 + 1)) := by
  -- one axis of the first search
  have ax : ∀ (n : ℕ) (i : Fin n), ∃ v : ℤ, wrapPeak n i = v ∧ (-(n : ℝ) ≤ 2 * -(v : ℝ) ∧ 2 * -(v : ℝ) < n) ∧
      ∀ k : ℕ, k ≠ 0 → ¬ (k ≤ (i : ℕ) ∧ (i : ℕ) + k < n) → |(v : ℝ)| ≤ k ∧ (-(v : ℝ) = -(k : ℝ) → n = 2 * k) := by
    intro n i
    have h1 := wrapPeak_range n i i.isLt
    have hi := i.isLt
    refine ⟨_, rfl, ?_, ?_⟩
    · constructor
      · have : -(n : ℤ) ≤ 2 * -wrapPeak n i := by omega
        exact_mod_cast this
      · have : 2 * -wrapPeak n i < (n : ℤ) := by omega
        exact_mod_cast this
    · intro k hk h
      have hb : |wrapPeak n i| ≤ (k : ℤ) ∧ (-wrapPeak n i = -(k : ℤ) → n = 2 * k) := by
        rw [abs_le]
        unfold wrapPeak at *
        split_ifs at * <;> omega
      exact ⟨by exact_mod_cast hb.1, fun he => hb.2 (by exact_mod_cast he)⟩
  have abs_half : ∀ (n : ℕ) (v : ℝ), (-(n : ℝ) ≤ 2 * -v ∧ 2 * -v < n) → |(-v)| ≤ n / 2 := by
    rintro n v ⟨h1, h2⟩
    rw [abs_le]; constructor <;> linarith
  have one_le : ∀ (n : ℕ) [NeZero n], (1 : ℝ) ≤ n := fun n _ => by
    exact_mod_cast Nat.pos_of_ne_zero (NeZero.ne n)
  have hy1 := one_le ny
  have hx1 := one_le nx
  by_cases h1 : usfac = 1
  · subst h1
    obtain ⟨loc, fit, hl, hfit, hr, hc⟩ := dftregFit_one cfg a b mo
    have hne : ¬ Spec.erased ny nx mo loc := by
      rw [hl]; exact argmax_not_erased mo _ fun i => norm_nonneg _
    obtain ⟨v, hv, hv1, hv2⟩ := ax ny loc.1
    obtain ⟨w, hw, hw1, hw2⟩ := ax nx loc.2
    rw [hv] at hr
    rw [hw] at hc
    rw [← hr] at hv1 hv2
    rw [← hc] at hw1 hw2
    have by_ := abs_half ny _ hv1
    have bx := abs_half nx _ hw1
    refine ⟨fit, hfit, ⟨-v, by rw [hr]; push_cast; ring⟩, ⟨-w, by rw [hc]; push_cast; ring⟩,
      fun _ => ⟨hv1, hw1⟩, by linarith, by linarith, ?_⟩
    intro k hk hk0
    have hky := hv2 k hk0 fun hh => hne ⟨k, hk, hk0, Or.inl hh⟩
    have hkx := hw2 k hk0 fun hh => hne ⟨k, hk, hk0, Or.inr hh⟩
    rw [abs_neg, abs_neg]
    exact ⟨fun _ => ⟨hky.1, hkx.1, hky.2, hkx.2⟩, by simp, by linarith [hky.1], by linarith [hkx.1], by simp⟩
  · -- the half-pixel search
    have half : ∀ loc : Fin (2 * ny) × Fin (2 * nx),
        loc = Np.argmax (Spec.kept mo fun i : Fin (2 * ny) × Fin (2 * nx) =>
          ‖Spec.cc a b (((i.1 : ℕ) : ℝ) / 2) (((i.2 : ℕ) : ℝ) / 2)‖) →
        ∃ v w : ℤ, wrapPeak (2 * ny) loc.1 = v ∧ wrapPeak (2 * nx) loc.2 = w ∧
          (-(ny : ℝ) ≤ 2 * -((v : ℝ) / 2) ∧ 2 * -((v : ℝ) / 2) < ny) ∧
          (-(nx : ℝ) ≤ 2 * -((w : ℝ) / 2) ∧ 2 * -((w : ℝ) / 2) < nx) ∧
          ∀ k : ℕ, mo = some k → k ≠ 0 → |(v : ℝ)| ≤ k ∧ |(w : ℝ)| ≤ k := by
      intro loc hl
      have hne : ¬ Spec.erased (2 * ny) (2 * nx) mo loc := by
        rw [hl]; exact argmax_not_erased mo _ fun i => norm_nonneg _
      obtain ⟨v, hv, hv1, hv2⟩ := ax (2 * ny) loc.1
      obtain ⟨w, hw, hw1, hw2⟩ := ax (2 * nx) loc.2
      push_cast at hv1 hw1
      refine ⟨v, w, hv, hw, ⟨by linarith, by linarith⟩, ⟨by linarith, by linarith⟩, ?_⟩
      intro k hk hk0
      exact ⟨(hv2 k hk0 fun hh => hne ⟨k, hk, hk0, Or.inl hh⟩).1,
        (hw2 k hk0 fun hh => hne ⟨k, hk, hk0, Or.inr hh⟩).1⟩
    have one : ∀ (m : ℕ) (r : ℝ), Spec.oneAxis m r = r ∨ Spec.oneAxis m r = 0 := by
      intro m r; unfold Spec.oneAxis; split_ifs <;> simp
    by_cases h2 : usfac = 2
    · subst h2
      obtain ⟨loc, fit, hl, hfit, hr, hc⟩ := dftregFit_two cfg a b mo
      obtain ⟨v, w, hv, hw, hv1, hw1, hk⟩ := half loc hl
      rw [hv] at hr
      rw [hw] at hc
      have cr : ∀ (m : ℕ) (r : ℝ) (n : ℕ) (v : ℤ), (1 : ℝ) ≤ n → r = Spec.oneAxis m ((v : ℝ) / 2) →
          (-(n : ℝ) ≤ 2 * -((v : ℝ) / 2) ∧ 2 * -((v : ℝ) / 2) < n) →
          (∃ z : ℤ, -r = (z : ℝ) / (2 : ℕ)) ∧ (-(n : ℝ) ≤ 2 * -r ∧ 2 * -r < n) ∧ |r| ≤ |(v : ℝ)| / 2 := by
        intro m r n v hn hr hv
        have habs : |((v : ℝ) / 2)| = |(v : ℝ)| / 2 := by
          rw [abs_div, abs_of_pos (two_pos : (0 : ℝ) < 2)]
        rcases one m ((v : ℝ) / 2) with h | h
        · rw [hr, h]
          exact ⟨⟨-v, by push_cast; ring⟩, hv, habs.le⟩
        · rw [hr, h]
          refine ⟨⟨0, by simp⟩, ⟨by linarith, by linarith⟩, ?_⟩
          rw [abs_zero]; positivity
      obtain ⟨gy1, gy2, gy3⟩ := cr ny _ ny v hy1 hr hv1
      obtain ⟨gx1, gx2, gx3⟩ := cr nx _ nx w hx1 hc hw1
      have by_ := abs_half ny _ gy2
      have bx := abs_half nx _ gx2
      refine ⟨fit, hfit, gy1, gx1, fun _ => ⟨gy2, gx2⟩, by linarith, by linarith, ?_⟩
      intro k hmo hk0
      obtain ⟨k1, k2⟩ := hk k hmo hk0
      have k0 : (0 : ℝ) ≤ k := by positivity
      rw [abs_neg, abs_neg]
      exact ⟨fun h => absurd h (by norm_num), fun _ => ⟨by linarith, by linarith⟩, by linarith, by linarith,
        fun h => absurd h (by norm_num)⟩
    · have hu3 : 2 < usfac := by omega
      have hu0 : (0 : ℝ) < usfac := by exact_mod_cast (by omega : 0 < usfac)
      have hu3' : (3 : ℝ) ≤ usfac := by exact_mod_cast hu3
      have hs0 : NeZero ⌈(usfac : ℝ) * (3 / 2)⌉₊ := ⟨refineSize_pos usfac (by omega)⟩
      obtain ⟨loc, row2, col2, hl, hrow2, hcol2, loc2, fit, hl2, hfit, hr, hc⟩ :=
        dftregFit_gt cfg a b mo usfac hu3
      obtain ⟨v, w, hv, hw, hv1, hw1, hk⟩ := half loc hl
      rw [hv] at hrow2
      rw [hw] at hcol2
      have near : ∀ (r : ℝ) (i : Fin ⌈(usfac : ℝ) * (3 / 2)⌉₊),
          (∃ z : ℤ, Spec.refineAt usfac r i = (z : ℝ) / usfac) ∧ |Spec.refineAt usfac r i - r| ≤ 1 := by
        intro r i
        have hi := i.isLt
        have hs := Nat.ceil_lt_add_one (show (0 : ℝ) ≤ (usfac : ℝ) * (3 / 2) by positivity)
        unfold Spec.refineAt
        generalize ⌈(usfac : ℝ) * (3 / 2)⌉₊ = s at *
        constructor
        · refine ⟨pyRound (r * usfac) + ((i : ℕ) - (s / 2 : ℕ)), ?_⟩
          rw [Int.cast_add, Int.cast_sub, Int.cast_natCast, Int.cast_natCast]
          ring
        · have hp := abs_pyRound_sub (r * usfac)
          rw [abs_le] at hp ⊢
          have e : (pyRound (r * usfac) : ℝ) / usfac + (((i : ℕ) : ℝ) - ((s / 2 : ℕ) : ℝ)) / usfac - r
              = ((pyRound (r * usfac) - r * usfac) + (((i : ℕ) : ℝ) - ((s / 2 : ℕ) : ℝ))) / usfac := by
            field_simp
            ring
          rw [e, le_div_iff₀ hu0, div_le_iff₀ hu0]
          have s1 : (2 : ℝ) * ((i : ℕ) : ℝ) - 2 * ((s / 2 : ℕ) : ℝ) ≤ s - 1 := by
            have : 2 * (i : ℕ) + 1 ≤ s + 2 * (s / 2) := by omega
            have : (2 : ℝ) * ((i : ℕ) : ℝ) + 1 ≤ s + 2 * ((s / 2 : ℕ) : ℝ) := by exact_mod_cast this
            linarith
          have s2 : (2 : ℝ) * ((s / 2 : ℕ) : ℝ) ≤ s := by
            have : 2 * (s / 2) ≤ s := by omega
            exact_mod_cast this
          have s3 : (0 : ℝ) ≤ ((i : ℕ) : ℝ) := by positivity
          have s4 : (2 : ℝ) * s ≤ 3 * usfac + 1 := by
            have : (2 : ℝ) * s < 3 * usfac + 2 := by linarith
            have : 2 * s < 3 * usfac + 2 := by exact_mod_cast this
            have : 2 * s ≤ 3 * usfac + 1 := by omega
            exact_mod_cast this
          constructor <;> linarith
      have cr : ∀ (m : ℕ) (r r2 : ℝ) (i : Fin ⌈(usfac : ℝ) * (3 / 2)⌉₊),
          r = Spec.oneAxis m (Spec.refineAt usfac r2 i) →
          (∃ z : ℤ, -r = (z : ℝ) / usfac) ∧ |(-r)| ≤ |r2| + 1 := by
        intro m r r2 i hr
        obtain ⟨⟨z, hz⟩, hn⟩ := near r2 i
        rcases one m (Spec.refineAt usfac r2 i) with h | h
        · rw [hr, h]
          refine ⟨⟨-z, by rw [hz]; push_cast; ring⟩, ?_⟩
          rw [abs_neg]
          have := abs_add_le (Spec.refineAt usfac r2 i - r2) r2
          rw [sub_add_cancel] at this
          linarith
        · rw [hr, h]
          refine ⟨⟨0, by simp⟩, ?_⟩
          rw [neg_zero, abs_zero]; positivity
      obtain ⟨gy1, gy2⟩ := cr ny _ row2 _ hr
      obtain ⟨gx1, gx2⟩ := cr nx _ col2 _ hc
      have by_ := abs_half ny _ hv1
      have bx := abs_half nx _ hw1
      rw [abs_neg] at by_ bx
      rw [← hrow2] at by_
      rw [← hcol2] at bx
      refine ⟨fit, hfit, gy1, gx1, fun h => by omega, by linarith, by linarith, ?_⟩
      intro k hmo hk0
      obtain ⟨k1, k2⟩ := hk k hmo hk0
      have k0 : (0 : ℝ) ≤ k := by positivity
      have ha : |row2| ≤ k / 2 := by
        rw [hrow2, abs_div, abs_of_pos (two_pos : (0 : ℝ) < 2)]; linarith
      have hb : |col2| ≤ k / 2 := by
        rw [hcol2, abs_div, abs_of_pos (two_pos : (0 : ℝ) < 2)]; linarith
      exact ⟨fun h => absurd h h1, fun h => absurd h h2, by linarith, by linarith,
        fun _ => ⟨by linarith, by linarith⟩⟩

/-- C45: for every pair of images (NaNs allowed) and every `usfac ≥ 1` the call succeeds and both
shifts are integer multiples of `1/usfac`; for `usfac ≤ 2` they lie in `[-n/2, n/2)`, and always within
one pixel of `[-n/2, n/2]`. -/
theorem C45_grid_and_range (cfg : FFTConfig) (im1 im2 : Fin ny × Fin nx → Pix) (usfac : ℕ)
    (hu : 1 ≤ usfac) (zm : Bool) (mo : Option ℕ) :
    ∃ dx dy : ℝ, registerImages cfg im1 im2 usfac false false zm mo = .ok [.num dx, .num dy] ∧
      (∃ z : ℤ, dx = (z : ℝ) / usfac) ∧ (∃ z : ℤ, dy = (z : ℝ) / usfac) ∧
      (usfac ≤ 2 → (-(nx : ℝ) ≤ 2 * dx ∧ 2 * dx < nx) ∧ (-(ny : ℝ) ≤ 2 * dy ∧ 2 * dy < ny)) ∧
      |dx| ≤ nx / 2 + 1 ∧ |dy| ≤ ny / 2 + 1 := by
  obtain ⟨fit, hfit, g1, g2, g3, g4, g5, -⟩ := fit_grid ⟨cfg.hasFftw, false, 1⟩ (prep zm im1) (prep zm im2)
    usfac hu mo
  refine ⟨-fit.col, -fit.row, ?_, g2, g1, fun h => ⟨(g3 h).2, (g3 h).1⟩, g5, g4⟩
  rw [registerImages_same, registerBody_ok cfg _ _ usfac false false zm mo fit hfit]
  simp

/-! ## C47 -/

/-- C47: with `maxoff ≥ 1` the shifts are limited to `±maxoff` pixels for `usfac = 1` (the value
`-maxoff` only occurs when the image has exactly `2·maxoff` pixels along the axis), to `±maxoff/2` for
`usfac = 2`, and to `±(maxoff/2 + 1)` for larger `usfac`. -/
theorem C47_maxoff_limits (cfg : FFTConfig) (im1 im2 : Fin ny × Fin nx → Pix) (usfac : ℕ)
    (hu : 1 ≤ usfac) (zm : Bool) (maxoff : ℕ) (hk : 1 ≤ maxoff) :
    ∃ dx dy : ℝ, registerImages cfg im1 im2 usfac false false zm (some maxoff) = .ok [.num dx, .num dy] ∧
      (usfac = 1 → |dx| ≤ maxoff ∧ |dy| ≤ maxoff ∧
        (dx = -(maxoff : ℝ) → nx = 2 * maxoff) ∧ (dy = -(maxoff : ℝ) → ny = 2 * maxoff)) ∧
      (usfac = 2 → |dx| ≤ maxoff / 2 ∧ |dy| ≤ maxoff / 2) ∧
      (2 < usfac → |dx| ≤ maxoff / 2 + 1 ∧ |dy| ≤ maxoff / 2 + 1) := by
  obtain ⟨fit, hfit, -, -, -, -, -, g⟩ := fit_grid ⟨cfg.hasFftw, false, 1⟩ (prep zm im1) (prep zm im2)
    usfac hu (some maxoff)
  obtain ⟨a1, a2, -, -, a3⟩ := g maxoff rfl (by omega)
  refine ⟨-fit.col, -fit.row, ?_, fun h => ?_, fun h => (a2 h).symm, fun h => (a3 h).symm⟩
  · rw [registerImages_same, registerBody_ok cfg _ _ usfac false false zm _ fit hfit]
    simp
  · obtain ⟨b1, b2, b3, b4⟩ := a1 h
    exact ⟨b2, b1, b4, b3⟩

omit [NeZero ny] [NeZero nx] in
theorem zeroMiddle_zero {m n : ℕ} (cc : Fin m × Fin n → CPix) : zeroMiddle (some 0) cc = zeroMiddle none cc := by
  funext i
  unfold zeroMiddle inMiddle
  simp

/-- C47: `maxoff=0` imposes no limit at all: the call behaves as with `maxoff=None`. -/
theorem C47_maxoff_zero (cfg : FFTConfig) (im1 im2 : Fin ny × Fin nx → Pix) (usfac : ℕ) (rr re zm : Bool) :
    registerImages cfg im1 im2 usfac rr re zm (some 0) = registerImages cfg im1 im2 usfac rr re zm none := by
  rw [registerImages_same, registerImages_same]
  have h : ∀ (c : FFTConfig) (A B : Fin ny × Fin nx → CPix),
      dftregFit c A B usfac (some 0) = dftregFit c A B usfac none := by
    intro c A B
    unfold dftregFit dftregWhole dftregHalf
    simp only [zeroMiddle_zero]
  unfold registerBody dftregistration
  simp only [h]

/-- C47: a true whole-pixel displacement within the limit is still recovered exactly. -/
theorem C47_keeps_true_shift (cfg : FFTConfig) (im1 : Fin ny × Fin nx → ℝ) (dy dx : ℤ) (usfac : ℕ)
    (hu : 1 ≤ usfac) (hsz : usfac = 1 ∨ (2 ≤ ny ∧ 2 ≤ nx)) (zm : Bool)
    (hid : Spec.identifiable (Spec.candidates usfac) fun p => im1 p - if zm then Spec.mean im1 else 0)
    (hdy : -(ny : ℤ) ≤ 2 * dy ∧ 2 * dy < ny) (hdx : -(nx : ℤ) ≤ 2 * dx ∧ 2 * dx < nx) (maxoff : ℕ)
    (hky : -(maxoff : ℤ) < Spec.density usfac * dy ∧ Spec.density usfac * dy ≤ maxoff)
    (hkx : -(maxoff : ℤ) < Spec.density usfac * dx ∧ Spec.density usfac * dx ≤ maxoff) :
    registerImages cfg (realArr im1) (realArr (Spec.roll2 dy dx im1)) usfac false false zm (some maxoff)
        = .ok [.num dx, .num dy] := by
  rw [registerImages_same]
  have hb := prep_cshift zm im1 (Spec.roll2 dy dx im1) dy dx (Spec.roll2_eq_cshift im1 dy dx)
  rw [← prep_real zm im1] at hid
  obtain ⟨fit, hfit, hr, hc⟩ := fit_recovers ⟨cfg.hasFftw, false, 1⟩ _ _ dy dx hb usfac hu hsz hid
    hdy hdx (some maxoff) (by
      intro k hk _
      obtain rfl : maxoff = k := by injection hk
      exact ⟨hky, hkx⟩)
  rw [registerBody_ok cfg _ _ usfac false false zm _ fit hfit, hr, hc]
  simp

/-! ## C46 -/

/-- the correlation at half-pixel displacements has the period of the image -/
theorem cc_period (a b : Fin ny × Fin nx → ℝ) (t u t' u' : ℝ) (ht : ∃ z : ℤ, t - t' = z * ny)
    (hu : ∃ z : ℤ, u - u' = z * nx) : Spec.cc a b t u = Spec.cc a b t' u' := by
  rw [cc_fourier, cc_fourier]
  congr 1
  refine Finset.sum_congr rfl fun k _ => ?_
  congr 1
  refine ex_congr ?_
  obtain ⟨z, hz⟩ := ht
  obtain ⟨w, hw⟩ := hu
  refine ⟨z * Np.fftfreqInt ny k.1 + w * Np.fftfreqInt nx k.2, ?_⟩
  unfold freq2
  rw [Np.fftfreq_eq, Np.fftfreq_eq]
  have h1 : (ny : ℝ) ≠ 0 := by exact_mod_cast NeZero.ne ny
  have h2 : (nx : ℝ) ≠ 0 := by exact_mod_cast NeZero.ne nx
  have ht' : t = t' + z * ny := by linarith
  have hu' : u = u' + w * nx := by linarith
  rw [ht', hu']
  push_cast
  field_simp
  ring

/-- the numbers tried by the refinement around the first estimate `r` along one axis: multiples of
`1/usfac`, `⌈1.5·usfac⌉` of them, around `r` rounded to a multiple of `1/usfac` -/
def Spec.refineGrid (usfac : ℕ) (r : ℝ) : Set ℝ :=
  {t | ∃ i : ℕ, i < ⌈(usfac : ℝ) * (3 / 2)⌉₊ ∧
    t = (pyRound (r * usfac) : ℝ) / usfac + ((i : ℝ) - ((⌈(usfac : ℝ) * (3 / 2)⌉₊ / 2 : ℕ) : ℝ)) / usfac}

/-- C46: for `usfac > 2` (and at least two pixels per axis) the shift returned is found in two stages:
a first estimate maximises the modulus of the Fourier-interpolated cross-correlation over all half-pixel
displacements, and the returned one maximises it over the refinement grid around that estimate.
(`Spec.cc a b t u` is `Σ_p a(p)·conj(b shifted by (t,u))(p)`; a reported shift `(dx,dy)` means that `im2`
shifted by `(-dy,-dx)` matches `im1`.) -/
theorem C46_refinement_maximises (cfg : FFTConfig) (im1 im2 : Fin ny × Fin nx → Pix) (usfac : ℕ)
    (hu : 2 < usfac) (hy : 2 ≤ ny) (hx : 2 ≤ nx) (zm : Bool) :
    ∃ dx dy row2 col2 : ℝ,
      registerImages cfg im1 im2 usfac false false zm none = .ok [.num dx, .num dy] ∧
      (∃ j k : ℤ, row2 = (j : ℝ) / 2 ∧ col2 = (k : ℝ) / 2 ∧ -(ny : ℤ) < j ∧ j ≤ ny ∧ -(nx : ℤ) < k ∧ k ≤ nx) ∧
      (∀ j k : ℤ, ‖Spec.cc (prep zm im1) (prep zm im2) ((j : ℝ) / 2) ((k : ℝ) / 2)‖
        ≤ ‖Spec.cc (prep zm im1) (prep zm im2) row2 col2‖) ∧
      -dy ∈ Spec.refineGrid usfac row2 ∧ -dx ∈ Spec.refineGrid usfac col2 ∧
      (∀ t ∈ Spec.refineGrid usfac row2, ∀ u ∈ Spec.refineGrid usfac col2,
        ‖Spec.cc (prep zm im1) (prep zm im2) t u‖ ≤ ‖Spec.cc (prep zm im1) (prep zm im2) (-dy) (-dx)‖) := by
  have hs0 : NeZero ⌈(usfac : ℝ) * (3 / 2)⌉₊ := ⟨refineSize_pos usfac (by omega)⟩
  obtain ⟨loc, row2, col2, hl, hrow2, hcol2, loc2, fit, hl2, hfit, hr, hc⟩ :=
    dftregFit_gt ⟨cfg.hasFftw, false, 1⟩ (prep zm im1) (prep zm im2) none usfac hu
  have o1 : ∀ r, Spec.oneAxis ny r = r := fun r => by unfold Spec.oneAxis; rw [if_neg (by omega)]
  have o2 : ∀ r, Spec.oneAxis nx r = r := fun r => by unfold Spec.oneAxis; rw [if_neg (by omega)]
  rw [o1] at hr
  rw [o2] at hc
  have kept_none : ∀ {m n : ℕ} (f : Fin m × Fin n → ℝ), Spec.kept none f = f := by
    intro m n f
    funext i
    have : ¬ Spec.erased m n none i := by rintro ⟨k, hk, _⟩; cases hk
    unfold Spec.kept
    rw [if_neg this]
  rw [kept_none] at hl
  have hmax := (Np.argmax_spec fun i : Fin (2 * ny) × Fin (2 * nx) =>
        ‖Spec.cc (prep zm im1) (prep zm im2) (((i.1 : ℕ) : ℝ) / 2) (((i.2 : ℕ) : ℝ) / 2)‖).1
  rw [← hl] at hmax
  have hmax2 := (Np.argmax_spec fun i : Fin ⌈(usfac : ℝ) * (3 / 2)⌉₊ × Fin ⌈(usfac : ℝ) * (3 / 2)⌉₊ =>
        ‖Spec.cc (prep zm im1) (prep zm im2) (Spec.refineAt usfac row2 i.1) (Spec.refineAt usfac col2 i.2)‖).1
  rw [← hl2] at hmax2
  have halfmod : ∀ (n : ℕ) (x y : ℤ), x ≡ y [ZMOD (2 * n : ℕ)] → ∃ z : ℤ, (x : ℝ) / 2 - (y : ℝ) / 2 = z * n := by
    intro n x y h
    obtain ⟨z, hz⟩ := h.dvd
    refine ⟨-z, ?_⟩
    have : (y : ℝ) - x = 2 * n * z := by exact_mod_cast hz
    push_cast; linarith
  have hpk : Spec.cc (prep zm im1) (prep zm im2) row2 col2
      = Spec.cc (prep zm im1) (prep zm im2) (((loc.1 : ℕ) : ℝ) / 2) (((loc.2 : ℕ) : ℝ) / 2) := by
    rw [hrow2, hcol2]
    exact cc_period _ _ _ _ _ _ (by
        have := halfmod ny _ _ (wrapPeak_modEq (2 * ny) loc.1)
        rwa [Int.cast_natCast] at this)
      (by
        have := halfmod nx _ _ (wrapPeak_modEq (2 * nx) loc.2)
        rwa [Int.cast_natCast] at this)
  refine ⟨-fit.col, -fit.row, row2, col2, ?_, ?_, ?_, ?_, ?_, ?_⟩
  · rw [registerImages_same, registerBody_ok cfg _ _ usfac false false zm _ fit hfit]
    simp
  · have r1 := wrapPeak_range (2 * ny) loc.1 loc.1.isLt
    have r2 := wrapPeak_range (2 * nx) loc.2 loc.2.isLt
    exact ⟨_, _, hrow2, hcol2, by omega, by omega, by omega, by omega⟩
  · intro j k
    rw [hpk]
    refine le_trans (le_of_eq ?_) (hmax (Spec.wrap (2 * ny) j, Spec.wrap (2 * nx) k))
    simp only
    congr 1
    exact cc_period _ _ _ _ _ _ (by
        have := halfmod ny _ _ (Spec.wrap_modEq (2 * ny) j).symm
        rwa [Int.cast_natCast] at this)
      (by
        have := halfmod nx _ _ (Spec.wrap_modEq (2 * nx) k).symm
        rwa [Int.cast_natCast] at this)
  · rw [neg_neg, hr]; exact ⟨_, loc2.1.isLt, rfl⟩
  · rw [neg_neg, hc]; exact ⟨_, loc2.2.isLt, rfl⟩
  · rintro t ⟨i, hi, rfl⟩ u ⟨j, hj, rfl⟩
    rw [neg_neg, neg_neg, hr, hc]
    exact hmax2 (⟨i, hi⟩, ⟨j, hj⟩)

/-- C46: for even `usfac > 2` the returned displacement correlates at least as well as every half-pixel
displacement, in particular every whole-pixel one. -/
theorem C46_even_beats_half_pixels (cfg : FFTConfig) (im1 im2 : Fin ny × Fin nx → Pix) (usfac : ℕ)
    (hu : 2 < usfac) (he : Even usfac) (hy : 2 ≤ ny) (hx : 2 ≤ nx) (zm : Bool) :
    ∃ dx dy : ℝ, registerImages cfg im1 im2 usfac false false zm none = .ok [.num dx, .num dy] ∧
      ∀ j k : ℤ, ‖Spec.cc (prep zm im1) (prep zm im2) ((j : ℝ) / 2) ((k : ℝ) / 2)‖
        ≤ ‖Spec.cc (prep zm im1) (prep zm im2) (-dy) (-dx)‖ := by
  obtain ⟨dx, dy, row2, col2, h, ⟨j0, k0, hj0, hk0, -⟩, hhalf, -, -, href⟩ :=
    C46_refinement_maximises cfg im1 im2 usfac hu hy hx zm
  refine ⟨dx, dy, h, fun j k => (hhalf j k).trans (href row2 ?_ col2 ?_)⟩
  all_goals
    obtain ⟨e, rfl⟩ := he
    have hs := refineSize_pos (e + e) (by omega)
    have he0 : ((e + e : ℕ) : ℝ) ≠ 0 := by
      have : e + e ≠ 0 := by omega
      exact_mod_cast this
    refine ⟨⌈((e + e : ℕ) : ℝ) * (3 / 2)⌉₊ / 2, by omega, ?_⟩
  · have : row2 * ((e + e : ℕ) : ℝ) = ((j0 * e : ℤ) : ℝ) := by rw [hj0]; push_cast; ring
    rw [this, pyRound_int, sub_self, zero_div, add_zero, eq_div_iff he0, this]
  · have : col2 * ((e + e : ℕ) : ℝ) = ((k0 * e : ℤ) : ℝ) := by rw [hk0]; push_cast; ring
    rw [this, pyRound_int, sub_self, zero_div, add_zero, eq_div_iff he0, this]

/-! ## C48 -/

/-- C48: the return layout: `[dx, dy]`, then `1/usfac` twice if `return_error`, then the registered image
if `return_registered`; the numbers and the image do not depend on the flags. -/
theorem C48_layout (cfg : FFTConfig) (im1 im2 : Fin ny × Fin nx → Pix) (usfac : ℕ) (hu : 1 ≤ usfac)
    (zm : Bool) (mo : Option ℕ) :
    ∃ (dx dy : ℝ) (im : Fin ny × Fin nx → Pix), ∀ rr re : Bool,
      registerImages cfg im1 im2 usfac rr re zm mo = .ok
        ([.num dx, .num dy] ++ (if re then [.num (1 / usfac), .num (1 / usfac)] else [])
          ++ (if rr then [.image im] else [])) := by
  obtain ⟨fit, hfit, -⟩ := fit_grid ⟨cfg.hasFftw, false, 1⟩ (prep zm im1) (prep zm im2) usfac hu mo
  refine ⟨-fit.col, -fit.row, Np.abs (Np.ifftshift2 ((getFfts cfg).2 (dftregGreg
    (cArr (dft fun p => (prep zm im2 p : ℂ))) fit))), fun rr re => ?_⟩
  rw [registerImages_same, registerBody_ok cfg _ _ usfac rr re zm mo fit hfit]

/-- C48: `usfac=0` is a ValueError. -/
theorem C48_usfac_zero (cfg : FFTConfig) (im1 im2 : Fin ny × Fin nx → Pix) (rr re zm : Bool)
    (mo : Option ℕ) : registerImages cfg im1 im2 0 rr re zm mo = .error .valueError := by
  rw [registerImages_same, registerBody_err]

/-- C27/C48: `register_images` rejects images of different shapes with ValueError, whatever the other
arguments. -/
theorem C27_register_shape_mismatch {my mx : ℕ} (cfg : FFTConfig) (im1 : Fin ny × Fin nx → Pix)
    (im2 : Fin my × Fin mx → Pix) (h : ¬ (ny = my ∧ nx = mx)) (usfac : ℕ) (rr re zm : Bool)
    (mo : Option ℕ) : registerImages cfg im1 im2 usfac rr re zm mo = .error .valueError := by
  unfold registerImages
  rw [dif_neg h]

theorem C48_shape_mismatch {my mx : ℕ} (cfg : FFTConfig) (im1 : Fin ny × Fin nx → Pix)
    (im2 : Fin my × Fin mx → Pix) (h : ¬ (ny = my ∧ nx = mx)) (usfac : ℕ) (rr re zm : Bool)
    (mo : Option ℕ) : registerImages cfg im1 im2 usfac rr re zm mo = .error .valueError :=
  C27_register_shape_mismatch cfg im1 im2 h usfac rr re zm mo

/-- C48: the FFT backend and thread count do not matter. -/
theorem C48_backend_irrelevant (cfg cfg' : FFTConfig) (im1 im2 : Fin ny × Fin nx → Pix) (usfac : ℕ)
    (rr re zm : Bool) (mo : Option ℕ) :
    registerImages cfg im1 im2 usfac rr re zm mo = registerImages cfg' im1 im2 usfac rr re zm mo := by
  rw [registerImages_same, registerImages_same]
  have h : ∀ (c c' : FFTConfig) (A B : Fin ny × Fin nx → CPix),
      dftregFit c A B usfac mo = dftregFit c' A B usfac mo := by
    intro c c' A B
    unfold dftregFit dftregWhole dftregHalf
    simp only [getFfts_eq]
  unfold registerBody dftregistration
  rw [getFfts_eq, getFfts_eq]
  simp only [h ⟨cfg.hasFftw, false, 1⟩ ⟨cfg'.hasFftw, false, 1⟩]

/-! ## C49 -/

theorem linspace_ifftshift {n : ℕ} [NeZero n] (k : Fin n) :
    Np.linspace (-((n / 2 : ℕ) : ℝ)) ((((n + 1) / 2 : ℕ) : ℝ) - 1) n (Np.ifftshiftIdx k)
      = (Np.fftfreqInt n k : ℝ) := by
  have hn := Nat.pos_of_ne_zero (NeZero.ne n)
  have hk := k.isLt
  unfold Np.linspace
  have hstep : (((Np.ifftshiftIdx k : Fin n) : ℕ) : ℝ)
      * (((((n + 1) / 2 : ℕ) : ℝ) - 1 - -((n / 2 : ℕ) : ℝ)) / ((n - 1 : ℕ) : ℝ))
      = (((Np.ifftshiftIdx k : Fin n) : ℕ) : ℝ) := by
    by_cases h1 : n = 1
    · have : ((Np.ifftshiftIdx k : Fin n) : ℕ) = 0 := by have := (Np.ifftshiftIdx k).isLt; omega
      rw [this]; simp
    · have e : (((n + 1) / 2 : ℕ) : ℝ) - 1 - -((n / 2 : ℕ) : ℝ) = ((n - 1 : ℕ) : ℝ) := by
        have : ((n + 1) / 2 : ℕ) + (n / 2 : ℕ) = (n - 1) + 1 := by omega
        have : (((n + 1) / 2 : ℕ) : ℝ) + ((n / 2 : ℕ) : ℝ) = ((n - 1 : ℕ) : ℝ) + 1 := by exact_mod_cast this
        linarith
      have h0 : ((n - 1 : ℕ) : ℝ) ≠ 0 := by
        have : n - 1 ≠ 0 := by omega
        exact_mod_cast this
      rw [e, div_self h0, mul_one]
  rw [hstep]
  have hv := ifftshiftIdx_val k
  have hf := Np.fftfreqInt_eq n k hk
  have : -((n / 2 : ℕ) : ℤ) + (((Np.ifftshiftIdx k : Fin n) : ℕ) : ℤ) = Np.fftfreqInt n k := by
    rw [hv, hf]
    split_ifs with h
    · rw [Nat.mod_eq_of_lt (by omega)]; push_cast; omega
    · rw [Nat.mod_eq_sub_mod (by omega), Nat.mod_eq_of_lt (by omega)]; push_cast; omega
  exact_mod_cast this

/-- the registered image is the modulus of the Fourier-shifted second image, rolled by half the image -/
theorem greg_image (b : Fin ny × Fin nx → ℝ) (fit : PeakFit) :
    Np.abs (Np.ifftshift2 (Np.ifftn (dftregGreg (cArr (dft fun p => (b p : ℂ))) fit)))
      = realArr fun p => ‖cshift fit.row fit.col b (Np.ifftshiftIdx p.1, Np.ifftshiftIdx p.2)‖ := by
  unfold dftregGreg
  simp only [linspace_ifftshift]
  have h1 : ∀ k : Fin ny × Fin nx, Complex.exp (I * 2 * Real.pi
      * ((-fit.row * (Np.fftfreqInt ny k.1 : ℝ) / (ny : ℝ) - fit.col * (Np.fftfreqInt nx k.2 : ℝ) / (nx : ℝ) : ℝ) : ℂ))
      = ex (-(freq2 fit.col fit.row k)) := by
    intro k
    unfold ex freq2
    rw [Np.fftfreq_eq, Np.fftfreq_eq]
    congr 1
    push_cast
    ring
  simp only [h1]
  have h2 : Np.mul (Np.mul (cArr (dft fun p => (b p : ℂ))) fun k => some (ex (-(freq2 fit.col fit.row k))))
        (fun _ => some (Complex.exp (I * (Complex.arg fit.ccmax : ℂ))))
      = cArr fun k => Complex.exp (I * (Complex.arg fit.ccmax : ℂ))
        * (dft (fun p => (b p : ℂ)) k * ex (-(freq2 fit.col fit.row k))) := by
    funext k
    simp only [Np.mul, cArr, Option.map₂_some_some]
    rw [mul_comm]
  rw [h2, Np.ifftn_cArr, idft_smul]
  funext p
  show some ‖Complex.exp (I * (Complex.arg fit.ccmax : ℂ))
    * idft (fun k => dft (fun p => (b p : ℂ)) k * ex (-(freq2 fit.col fit.row k)))
      (Np.ifftshiftIdx p.1, Np.ifftshiftIdx p.2)‖ = _
  rw [norm_mul, mul_comm I, Complex.norm_exp_ofReal_mul_I, one_mul]
  rfl

/-- C49: the registered image that is returned is the modulus of the mean-subtracted, NaN-zeroed second
image, Fourier-shifted by minus the reported shift, and then rolled by half the image: pixel `p` is taken
at `p + n//2` (periodically). -/
theorem C49_registered_image (cfg : FFTConfig) (im1 im2 : Fin ny × Fin nx → Pix) (usfac : ℕ)
    (hu : 1 ≤ usfac) (zm : Bool) (mo : Option ℕ) :
    ∃ dx dy : ℝ, registerImages cfg im1 im2 usfac true false zm mo = .ok
      [.num dx, .num dy, .image (realArr fun p =>
        ‖cshift (-dy) (-dx) (prep zm im2) (Spec.move (ny / 2 : ℕ) (nx / 2 : ℕ) p)‖)] := by
  obtain ⟨fit, hfit, -⟩ := fit_grid ⟨cfg.hasFftw, false, 1⟩ (prep zm im1) (prep zm im2) usfac hu mo
  refine ⟨-fit.col, -fit.row, ?_⟩
  rw [registerImages_same, registerBody_ok cfg _ _ usfac true false zm mo fit hfit, getFfts_eq, neg_neg, neg_neg]
  simp only [greg_image]
  have : ∀ p : Fin ny × Fin nx, ((Np.ifftshiftIdx p.1, Np.ifftshiftIdx p.2) : Fin ny × Fin nx)
      = Spec.move (ny / 2 : ℕ) (nx / 2 : ℕ) p := by
    intro p
    have key : ∀ (n : ℕ) [NeZero n] (i : Fin n), Np.ifftshiftIdx i = Spec.wrap n (((i : ℕ) : ℤ) + (n / 2 : ℕ)) := by
      intro n _ i
      symm
      rw [Spec.wrap_eq_iff]
      exact (ifftshift_modEq i).symm
    unfold Spec.move
    rw [key, key]
  simp only [this]
  rfl

/-- C49: for a whole-pixel displacement that is recovered, the registered image is the modulus of the
mean-subtracted FIRST image, rolled by half the image: it is aligned with image 1 only up to that roll. -/
theorem C49_half_image_roll (cfg : FFTConfig) (im1 : Fin ny × Fin nx → ℝ) (dy dx : ℤ) (usfac : ℕ)
    (hu : 1 ≤ usfac) (hsz : usfac = 1 ∨ (2 ≤ ny ∧ 2 ≤ nx)) (zm : Bool)
    (hid : Spec.identifiable (Spec.candidates usfac) fun p => im1 p - if zm then Spec.mean im1 else 0)
    (hdy : -(ny : ℤ) ≤ 2 * dy ∧ 2 * dy < ny) (hdx : -(nx : ℤ) ≤ 2 * dx ∧ 2 * dx < nx) :
    registerImages cfg (realArr im1) (realArr (Spec.roll2 dy dx im1)) usfac true false zm none = .ok
      [.num dx, .num dy, .image (realArr (Spec.roll2 (-(ny / 2 : ℕ)) (-(nx / 2 : ℕ))
        fun p => |im1 p - if zm then Spec.mean im1 else 0|))] := by
  rw [registerImages_same]
  have hb := prep_cshift zm im1 (Spec.roll2 dy dx im1) dy dx (Spec.roll2_eq_cshift im1 dy dx)
  rw [← prep_real zm im1] at hid
  obtain ⟨fit, hfit, hr, hc⟩ := fit_recovers ⟨cfg.hasFftw, false, 1⟩ _ _ dy dx hb usfac hu hsz hid
    hdy hdx none (by intro k hk; cases hk)
  rw [registerBody_ok cfg _ _ usfac true false zm _ fit hfit, getFfts_eq]
  simp only [greg_image, hr, hc]
  have hcs := cshift_cshift ((-dy : ℤ) : ℝ) ((-dx : ℤ) : ℝ) _ _ _ _ hb
  have hz : ∀ d : ℤ, ((-d : ℤ) : ℝ) + d = ((0 : ℤ) : ℝ) := fun d => by push_cast; ring
  rw [hz, hz] at hcs
  have himg : (realArr fun p : Fin ny × Fin nx => ‖cshift ((-dy : ℤ) : ℝ) ((-dx : ℤ) : ℝ)
        (prep zm (realArr (Spec.roll2 dy dx im1))) (Np.ifftshiftIdx p.1, Np.ifftshiftIdx p.2)‖)
      = realArr (Spec.roll2 (-(ny / 2 : ℕ)) (-(nx / 2 : ℕ))
        fun p => |im1 p - if zm then Spec.mean im1 else 0|) := by
    funext p
    show some ‖cshift ((-dy : ℤ) : ℝ) ((-dx : ℤ) : ℝ)
        (prep zm (realArr (Spec.roll2 dy dx im1))) (Np.ifftshiftIdx p.1, Np.ifftshiftIdx p.2)‖ = some _
    congr 1
    rw [hcs, cshift_int, Complex.norm_real, Real.norm_eq_abs, prep_real]
    have key : ∀ (n : ℕ) [NeZero n] (i : Fin n),
        Spec.wrap n ((((Np.ifftshiftIdx i : Fin n) : ℕ) : ℤ) - 0) = Spec.wrap n (((i : ℕ) : ℤ) - -((n / 2 : ℕ) : ℤ)) := by
      intro n _ i
      refine Spec.wrap_congr n ?_
      rw [sub_zero, sub_neg_eq_add]
      exact ifftshift_modEq i
    unfold Spec.roll2
    rw [key, key]
  rw [himg]
  simp

/-! ## The hypotheses can be met -/

/-- the single-bright-pixel image is identifiable: a 4×5 star displaced by (1,-2) is measured exactly with
`usfac` 1, 2 and 10 -/
example (cfg : FFTConfig) (zm : Bool) (usfac : ℕ) (hu : usfac = 1 ∨ usfac = 2 ∨ usfac = 10) :
    ∃ dx' dy' : ℤ, registerImages cfg (realArr fun p : Fin 4 × Fin 5 => if p = 0 then (1 : ℝ) else 0)
      (realArr (Spec.roll2 1 (-2) fun p : Fin 4 × Fin 5 => if p = 0 then (1 : ℝ) else 0)) usfac false false zm none
        = .ok [.num dx', .num dy'] ∧ dx' = -2 ∧ dy' = 1 := by
  have hd : ∀ k : Fin 4 × Fin 5,
      dft (fun p : Fin 4 × Fin 5 => ((if p = 0 then (1 : ℝ) else 0 : ℝ) : ℂ)) k ≠ 0 := by
    intro k
    have h1 : dft (fun p : Fin 4 × Fin 5 => ((if p = 0 then (1 : ℝ) else 0 : ℝ) : ℂ)) k = 1 := by
      unfold dft
      rw [Finset.sum_eq_single 0]
      · simp [FFTIndex.e_zero]
      · intro b _ hb; simp [hb]
      · simp
    rw [h1]; exact one_ne_zero
  obtain ⟨dx', dy', h, m1, a1, a2, m2, b1, b2⟩ := C44_recovers_roll_spectrum cfg
    (fun p : Fin 4 × Fin 5 => if p = 0 then (1 : ℝ) else 0) 1 (-2) usfac (by omega) (by norm_num) (by norm_num) zm
    (hd _) (hd _) (Or.inl (hd _))
  refine ⟨dx', dy', h, ?_, ?_⟩
  · unfold Int.ModEq at m1; push_cast at *; omega
  · unfold Int.ModEq at m2; push_cast at *; omega

end

end ImgReg
