import Verif.Props.MirrorCC
import Verif.Props.Shift

/-!
# Mirroring the images (C139): the deviation for two even sizes, and concrete cases
-/

open Complex Finset
open scoped ComplexConjugate

namespace ImgReg

section
variable {m l : ℕ} [NeZero (2 * m)] [NeZero (2 * l)]

/-- the checkerboard `(-1)^(y+x)` -/
noncomputable def Spec.checker (ny nx : ℕ) : Fin ny × Fin nx → ℝ := fun p => (-1) ^ ((p.1 : ℕ) + (p.2 : ℕ))

theorem e_half (m : ℕ) [NeZero (2 * m)] (hm : m < 2 * m) (i : Fin (2 * m)) : e (⟨m, hm⟩ : Fin (2 * m)) i = (((-1 : ℝ) ^ (i : ℕ) : ℝ) : ℂ) := by
  rw [e_fin]
  have : ((m : ℕ) : ℝ) * ((i : ℕ) : ℝ) / ((2 * m : ℕ) : ℝ) = ((i : ℕ) : ℝ) * (1 / 2) := by
    have : (m : ℝ) ≠ 0 := by exact_mod_cast (by omega : m ≠ 0)
    push_cast; field_simp
  rw [this, ex_mul_nat]
  have : ex (1 / 2) = -1 := by
    unfold ex
    rw [show (2 * (Real.pi : ℂ) * I * ((1 / 2 : ℝ) : ℂ)) = Real.pi * I by push_cast; ring]
    exact Complex.exp_pi_mul_I
  rw [this]; push_cast; rfl

theorem fftfreq_half (m : ℕ) [NeZero (2 * m)] (hm : m < 2 * m) : Np.fftfreq (2 * m) (⟨m, hm⟩ : Fin (2 * m)) = -(1 / 2) := by
  rw [Np.fftfreq_eq, Np.fftfreqInt_eq _ _ (Fin.isLt _)]
  have : (m : ℝ) ≠ 0 := by exact_mod_cast (by omega : m ≠ 0)
  simp only []
  rw [if_neg (by simp)]
  push_cast
  field_simp
  ring

/-- C139: `shift2d` multiplies the checkerboard of an even-by-even image by `cos(π (deltax + deltay))` -/
theorem C139_checker (cfg : FFTConfig) (dx dy : ℝ) (ra : Bool) :
    shift2d cfg (rArr (Spec.checker (2 * m) (2 * l))) dx dy 0 ra true
      = .real (realArr fun p => Real.cos (Real.pi * (dx + dy)) * Spec.checker (2 * m) (2 * l) p) := by
  have hm : m < 2 * m := by have := NeZero.ne (2 * m); omega
  have hl : l < 2 * l := by have := NeZero.ne (2 * l); omega
  rw [shift2d_real]
  have hx : (fun p : Fin (2 * m) × Fin (2 * l) => ((Spec.checker (2 * m) (2 * l) p : ℝ) : ℂ))
      = fun p => e ((⟨m, hm⟩, ⟨l, hl⟩) : Fin (2 * m) × Fin (2 * l)) p := by
    funext p
    rw [e_prod, e_half, e_half]
    unfold Spec.checker
    rw [pow_add]; push_cast; rfl
  unfold cshift
  rw [hx, filt_char]
  congr 1
  funext p
  have hp := (congrFun hx p).symm
  simp only [realArr]
  rw [hp, Complex.re_mul_ofReal, ex_re]
  unfold freq2
  simp only [fftfreq_half]
  congr 3
  ring

/-- C139, the deviation: with two even sizes, flipping a real image left-right and changing the sign of `deltax` does not give the flipped
result, whatever the two shifts, unless one of them is a whole number of pixels. -/
theorem C139_even_deviation (cfg : FFTConfig) (dx dy : ℝ) (ra : Bool) (hx : ∀ z : ℤ, dx ≠ z) (hy : ∀ z : ℤ, dy ≠ z) :
    ∃ a : Fin (2 * m) × Fin (2 * l) → ℝ,
      shift2d cfg (rArr (Spec.flip false true a)) (-dx) dy 0 ra true ≠ Spec.flipOut false true (shift2d cfg (rArr a) dx dy 0 ra true) := by
  refine ⟨Spec.checker (2 * m) (2 * l), fun h => ?_⟩
  have hl0 : 0 < 2 * l := Nat.pos_of_ne_zero (NeZero.ne _)
  have hfl : Spec.flip false true (Spec.checker (2 * m) (2 * l)) = fun p => -Spec.checker (2 * m) (2 * l) p := by
    funext p
    simp only [Spec.flip, Spec.rev, Spec.checker, if_true, Bool.false_eq_true, if_false]
    have hp := p.2.isLt
    rw [Fin.val_rev, pow_add, pow_add]
    have : (-1 : ℝ) ^ (2 * l - ((p.2 : ℕ) + 1)) = -(-1) ^ (p.2 : ℕ) := by
      have h1 : (-1 : ℝ) ^ (2 * l - ((p.2 : ℕ) + 1)) * (-1) ^ ((p.2 : ℕ) + 1) = 1 := by
        rw [← pow_add, Nat.sub_add_cancel (by omega), pow_mul]; norm_num
      have h2 : (-1 : ℝ) ^ (p.2 : ℕ) * (-1) ^ (p.2 : ℕ) = 1 := by
        rw [← pow_add, ← two_mul, pow_mul]; norm_num
      rw [pow_succ] at h1
      linear_combination (-(-1) ^ (p.2 : ℕ) : ℝ) * h1 - (-1 : ℝ) ^ (2 * l - ((p.2 : ℕ) + 1)) * h2
    rw [this]; ring
  have hneg : shift2d cfg (rArr fun p => -Spec.checker (2 * m) (2 * l) p) (-dx) dy 0 ra true
      = .real (realArr fun p => -(Real.cos (Real.pi * (-dx + dy)) * Spec.checker (2 * m) (2 * l) p)) := by
    have h1 := C139_checker (m := m) (l := l) cfg (-dx) dy ra
    rw [shift2d_real] at h1 ⊢
    have h2 : cshift dy (-dx) (fun p => -Spec.checker (2 * m) (2 * l) p) = fun p => -1 * cshift dy (-dx) (Spec.checker (2 * m) (2 * l)) p := by
      unfold cshift
      rw [← filt_smul]
      congr 1; funext p; push_cast; ring
    rw [h2]
    injection h1 with h1
    congr 1
    funext p
    have h3 := congrFun h1 p
    simp only [realArr, Option.some.injEq] at h3 ⊢
    rw [← h3]; simp
  rw [hfl, hneg, C139_checker] at h
  simp only [Spec.flipOut] at h
  injection h with h
  have h0 := congrFun h (0, 0)
  have hf0 := congrFun hfl (0, 0)
  simp only [realArr, Spec.flip] at h0
  simp only [Spec.flip] at hf0
  rw [hf0] at h0
  have hc : Spec.checker (2 * m) (2 * l) (0, 0) = 1 := by simp [Spec.checker]
  rw [hc] at h0
  have h1 : Real.cos (Real.pi * (-dx + dy)) = Real.cos (Real.pi * (dx + dy)) := by
    have := Option.some.inj h0
    linarith
  have h2 : Real.sin (Real.pi * dx) * Real.sin (Real.pi * dy) = 0 := by
    rw [show Real.pi * (-dx + dy) = Real.pi * dy - Real.pi * dx by ring, show Real.pi * (dx + dy) = Real.pi * dy + Real.pi * dx by ring,
      Real.cos_sub, Real.cos_add] at h1
    linarith
  have hz : ∀ d : ℝ, Real.sin (Real.pi * d) = 0 → ∃ z : ℤ, d = z := by
    intro d hd
    obtain ⟨z, hz⟩ := Real.sin_eq_zero_iff.1 hd
    refine ⟨z, ?_⟩
    have := Real.pi_pos
    have h3 : Real.pi * ((z : ℝ) - d) = 0 := by linarith
    rcases mul_eq_zero.1 h3 with h3 | h3
    · exact absurd h3 Real.pi_ne_zero
    · linarith
  rcases mul_eq_zero.1 h2 with h2 | h2
  · obtain ⟨z, hz⟩ := hz _ h2; exact hx z hz
  · obtain ⟨z, hz⟩ := hz _ h2; exact hy z hz

end

/-! ### concrete cases -/

/-- `C139_shift2d`: a 4×5 array with a NaN, flipped left-right. -/
example (cfg : FFTConfig) := C139_shift2d cfg false true (fun h => by cases h) (fun _ => by decide)
  (fun p : Fin 4 × Fin 5 => if p = (1, 2) then none else some ((p.1 : ℕ) + I * (p.2 : ℕ))) 0.3 (-1.7) 0.5 false false

/-- `C139_rot180`: even sizes. -/
example (cfg : FFTConfig) := C139_rot180 cfg (fun p : Fin 4 × Fin 6 => if p = (1, 2) then none else some (p.1 : ℕ)) 0.3 (-1.7) true false

/-- `C139_shift2d_real`: one even size, flipped along it. -/
example (cfg : FFTConfig) := C139_shift2d_real cfg true false (.inr (by decide))
  (fun p : Fin 4 × Fin 5 => if p = (1, 2) then none else some (p.1 : ℕ)) 0.3 (-1.7) false

/-- `C139_even_deviation`: half a pixel. -/
example (cfg : FFTConfig) := C139_even_deviation (m := 2) (l := 3) cfg (1 / 2) (1 / 2) false
  (fun z h => by
    have : (2 * z : ℝ) = 1 := by linarith
    have : 2 * z = 1 := by exact_mod_cast this
    omega)
  (fun z h => by
    have : (2 * z : ℝ) = 1 := by linarith
    have : 2 * z = 1 := by exact_mod_cast this
    omega)

/-- C139, non-vacuity of `C139_cross_correlation_shifts`: a star moved by `(dy, dx) = (1, 2)` on a 10×9 detector gives `(5/2, 1)`; the images
flipped left-right give `(1 - 5/2, 1)`. -/
example (cfg : FFTConfig) :
    crossCorrelationShifts cfg none (Spec.flip false true (realArr fun p : Fin 10 × Fin 9 => if p = (4, 3) then (1 : ℝ) else 0))
      (Spec.flip false true (realArr (Spec.roll2 1 2 fun p : Fin 10 × Fin 9 => if p = (4, 3) then (1 : ℝ) else 0))) none none none false false
      false false = .ok [.fin (-3 / 2), .fin 1] := by
  have hp : prep false (realArr fun p : Fin 10 × Fin 9 => if p = (4, 3) then (1 : ℝ) else 0)
      = fun p => if p = (4, 3) then (1 : ℝ) else 0 := by
    rw [prep_real]; funext p; simp
  have hmax := roll_peak (fun p : Fin 10 × Fin 9 => if p = (4, 3) then (1 : ℝ) else 0) (aperiodic_point _) 1 2
    (3, 2) (by norm_num [Spec.zeroLag]) (by norm_num [Spec.zeroLag])
  obtain ⟨rx, ry, h1, h2⟩ := C139_cross_correlation_shifts cfg none false true
    (realArr fun p : Fin 10 × Fin 9 => if p = (4, 3) then (1 : ℝ) else 0)
    (realArr (Spec.roll2 1 2 fun p : Fin 10 × Fin 9 => if p = (4, 3) then (1 : ℝ) else 0)) none none none none false false
    (Or.inr (by norm_num)) (3, 2)
    (by rw [prep_roll, hp]; exact hmax)
    (by
      rw [prep_roll, hp]
      have h2 := hmax (0, 0) (by decide)
      refine (lt_of_le_of_lt ?_ h2).ne'
      unfold Spec.xcorr Spec.roll2
      exact Finset.sum_nonneg fun p _ => by positivity)
    (by decide) (by decide) (by decide) (by decide) (by decide) (by decide)
  rw [C50_roll cfg none _ (aperiodic_point _) 1 2 (by norm_num) (by norm_num) (by norm_num) (by norm_num) none
    none false false (Or.inr (by norm_num))] at h1
  have h3 := Except.ok.inj h1
  simp only [List.cons.injEq, and_true] at h3
  rw [h2, ← h3.1, ← h3.2]
  norm_num [Spec.flipFl, Spec.reflect, Spec.oddOne]

/-- C139, non-vacuity of `C139_register_images`: a 4×5 star and its roll by (1,-2), flipped left-right, for every `usfac`. -/
example (cfg : FFTConfig) (usfac : ℕ) (hu : 1 ≤ usfac) :
    registerImages cfg (Spec.flip false true (realArr fun p : Fin 4 × Fin 5 => if p = 0 then (1 : ℝ) else 0))
      (Spec.flip false true (realArr (Spec.roll2 1 (-2) fun p : Fin 4 × Fin 5 => if p = 0 then (1 : ℝ) else 0)))
      usfac false false false none = .ok [.num 2, .num 1] ∧
    registerImages cfg (Spec.flip true true (realArr fun p : Fin 4 × Fin 5 => if p = 0 then (1 : ℝ) else 0))
      (Spec.flip true true (realArr (Spec.roll2 1 (-2) fun p : Fin 4 × Fin 5 => if p = 0 then (1 : ℝ) else 0)))
      usfac false false false none = .ok [.num 2, .num (-1)] := by
  have hd : ∀ k : Fin 4 × Fin 5,
      dft (fun p : Fin 4 × Fin 5 => ((if p = 0 then (1 : ℝ) else 0 : ℝ) : ℂ)) k ≠ 0 := by
    intro k
    have h1 : dft (fun p : Fin 4 × Fin 5 => ((if p = 0 then (1 : ℝ) else 0 : ℝ) : ℂ)) k = 1 := by
      unfold dft
      rw [Finset.sum_eq_single 0]
      · simp [FFTIndex.e_zero]
      · intro b _ hb; simp [hb]
      · simp
    rw [h1]; exact one_ne_zero
  have hid := identifiable_of_dft (Spec.candidates usfac) (fun p : Fin 4 × Fin 5 => if p = 0 then (1 : ℝ) else 0)
    (by norm_num) (by norm_num) (hd _) (hd _) (Or.inl (hd _))
  have hsz : usfac = 1 ∨ (2 ≤ 4 ∧ 2 ≤ 5) := Or.inr ⟨by norm_num, by norm_num⟩
  have hm := clearMatch_roll _ usfac hu hsz hid 1 (-2) (by norm_num) (by norm_num)
  have hp : prep false (realArr fun p : Fin 4 × Fin 5 => if p = 0 then (1 : ℝ) else 0)
      = fun p => if p = 0 then (1 : ℝ) else 0 := by
    rw [prep_real]; funext p; simp
  rw [← hp, ← prep_roll2] at hm
  have h1 := C119_clear_match cfg _ _ usfac hu hsz false _ _ _ _ hm
  constructor
  · obtain ⟨dx, dy, g1, g2⟩ := C139_register_images cfg false true (fun h => by cases h) (fun _ => by decide) _ _ usfac hu hsz false _ _ _ _ hm
    have e := Except.ok.inj (h1.symm.trans g1)
    simp only [List.cons.injEq, RegVal.num.injEq, and_true] at e
    rw [← e.1, ← e.2] at g2
    refine g2.trans ?_
    norm_num [Spec.sgn]
  · obtain ⟨dx, dy, g1, g2⟩ := C139_register_rot180 cfg _ _ usfac hu hsz false _ _ _ _ hm
    have e := Except.ok.inj (h1.symm.trans g1)
    simp only [List.cons.injEq, RegVal.num.injEq, and_true] at e
    rw [← e.1, ← e.2] at g2
    refine g2.trans ?_
    norm_num

/-- C139, non-vacuity of `C139_chi2_shift`: the star on the 10×9 detector, flipped left-right, with a single point of the upsampled map. -/
example (cfg : FFTConfig) : ∃ dx dy ex ey : ℝ,
    chi2Shift cfg none (realArr fun p : Fin 10 × Fin 9 => if p = (4, 3) then (1 : ℝ) else 0)
      (realArr (Spec.roll2 1 2 fun p : Fin 10 × Fin 9 => if p = (4, 3) then (1 : ℝ) else 0)) .none .auto false 2 false true false 1 3 false
      = .ok [.num dx, .num dy, .num ex, .num ey] ∧
    chi2Shift cfg none (Spec.flip false true (realArr fun p : Fin 10 × Fin 9 => if p = (4, 3) then (1 : ℝ) else 0))
      (Spec.flip false true (realArr (Spec.roll2 1 2 fun p : Fin 10 × Fin 9 => if p = (4, 3) then (1 : ℝ) else 0))) .none .auto false 2 false
      true false 1 3 false
      = .ok [.num (-dx), .num dy, .num ex, .num ey] := by
  have hp : prep false (realArr fun p : Fin 10 × Fin 9 => if p = (4, 3) then (1 : ℝ) else 0)
      = fun p => if p = (4, 3) then (1 : ℝ) else 0 := by
    rw [prep_real]; funext p; simp
  have hmax := roll_peak (fun p : Fin 10 × Fin 9 => if p = (4, 3) then (1 : ℝ) else 0) (aperiodic_point _) 1 2
    (3, 2) (by norm_num [Spec.zeroLag]) (by norm_num [Spec.zeroLag])
  have hf : Spec.fits false 10 9 := Or.inr (by norm_num)
  obtain ⟨cm, hcm, S1, S2, i1, i2, hg, u, hu, hu0, YV, XV, hY, hX, C, hC, er, her, hall⟩ :=
    chi2Shift_ok cfg none trivial (realArr fun p : Fin 10 × Fin 9 => if p = (4, 3) then (1 : ℝ) else 0)
      (realArr (Spec.roll2 1 2 fun p : Fin 10 × Fin 9 => if p = (4, 3) then (1 : ℝ) else 0)) .none .auto false 2 1 3 false hf Nat.one_pos
  obtain ⟨m, hm, m1, m2, m3, -, m5⟩ := chi2nMapBody_eq cfg (realArr fun p : Fin 10 × Fin 9 => if p = (4, 3) then (1 : ℝ) else 0)
      (realArr (Spec.roll2 1 2 fun p : Fin 10 × Fin 9 => if p = (4, 3) then (1 : ℝ) else 0)) .none false false false hf
  obtain rfl : m = cm := Except.ok.inj (hm.symm.trans hcm)
  have hu : ∀ j, j ≠ ((3, 2) : Fin 10 × Fin 9) → m.chi2 (3, 2) < m.chi2 j := by
    intro j hj
    have := hmax j hj
    rw [m5, m5, m3, m3, m2]
    simp only [Spec.maskOf, Spec.errOf, Bool.false_eq_true, if_false, div_one, one_pow]
    rw [prep_roll, hp]
    linarith
  have hg' : S1 = 1 ∧ S2 = 1 := Prod.mk.inj hg
  obtain ⟨rfl, rfl⟩ := hg'
  refine ⟨_, _, _, _, hall true false, ?_⟩
  exact C139_chi2_shift cfg none trivial false true (fun h => by cases h) (fun _ => by decide) _ _ .none .auto false 2 1 3 false Nat.one_pos m.chi2
    (by rw [chi2nMap_same, hcm]; rfl) (3, 2) hu _ _ _ _ _ _ _ _ _ (hall true true) (0, 0)
    (fun j hj => absurd (Subsingleton.elim _ _) hj) true false

end ImgReg
