import Verif.Props.Inexact
import Verif.Props.InexactUps

/-!
# `register_images` in floating point, with `dftups` made of elementary operations (C117)

C111 asks for one error bound for `dftups` at all offsets and for transforms of all sizes.  Floating point gives neither: the error of a
`dftups` value grows with the distance of the output point (C116), that of a sum with the number of terms.  Here the operations need only be
accurate at the sizes that occur, `dftups` is computed from elementary operations, and the results of C111 follow with the error bound that
the refinement, which never looks further than `n/2 + 3/2` pixels, can reach.
-/

open Complex Finset
open scoped ComplexConjugate

namespace ImgReg

/-- The operations that registering two `ny × nx` images uses, other than `dftups`, have relative error at most `δ`: the forward FFT of this
size in root-mean-square, the inverse FFT of this and of twice the size relative to the sum of the moduli, the mean relative to
the mean modulus, the others relative to the result. -/
structure Spec.AccurateFor (A : Arith) (δ : ℝ) (ny nx : ℕ) [NeZero ny] [NeZero nx] : Prop where
  fft : ∀ x : Fin ny × Fin nx → ℂ, Real.sqrt (∑ k, ‖A.fft x k - dft x k‖ ^ 2) ≤ δ * Real.sqrt (∑ k, ‖dft x k‖ ^ 2)
  ifft : ∀ (y : Fin ny × Fin nx → ℂ) (i : Fin ny × Fin nx), ‖A.ifft y i - idft y i‖ ≤ δ * ((∑ k, ‖y k‖) / ((ny : ℝ) * nx))
  ifft2 : ∀ (y : Fin (2 * ny) × Fin (2 * nx) → ℂ) (i : Fin (2 * ny) × Fin (2 * nx)),
    ‖A.ifft y i - idft y i‖ ≤ δ * ((∑ k, ‖y k‖) / (((2 * ny : ℕ) : ℝ) * ((2 * nx : ℕ) : ℝ)))
  mul : ∀ z w : ℂ, ‖A.mul z w - z * w‖ ≤ δ * ‖z * w‖
  div : ∀ (z : ℂ) (r : ℝ), r ≠ 0 → ‖A.div z r - z / r‖ ≤ δ * ‖z / r‖
  abs : ∀ z : ℂ, |A.abs z - ‖z‖| ≤ δ * ‖z‖
  sub : ∀ x y : ℝ, |A.sub x y - (x - y)| ≤ δ * |x - y|
  mean : ∀ im : Fin ny × Fin nx → Pix, (∃ p, (im p).isSome) →
    |A.mean im - Spec.finiteMean im| ≤ δ * ((∑ p, |(im p).getD 0|) / ((univ.filter fun p => (im p).isSome).card : ℝ))

/-- the relative error of `dftups` within the reach of the refinement; it exceeds `δ` -/
noncomputable def Spec.regErr (δ : ℝ) (ny nx : ℕ) : ℝ := Spec.upsErr δ ((ny : ℝ) / 2 + 3 / 2) ((nx : ℝ) / 2 + 3 / 2)

open Classical in
/-- `A` with `dftups` from `Z`, replaced by exact operations at sizes and output points that do not occur -/
noncomputable def clampA (A : Arith) (Z : ZoomArith) (ny nx : ℕ) : Arith where
  fft := fun {m n} _ _ x k => if m = ny ∧ n = nx then A.fft x k else dft x k
  ifft := fun {m n} _ _ y i => if (m = ny ∧ n = nx) ∨ (m = 2 * ny ∧ n = 2 * nx) then A.ifft y i else idft y i
  dftups := fun {m n} _ _ y s us roff coff i =>
    if (m = ny ∧ n = nx) ∧ |(((i.1 : ℕ) : ℝ) - roff) / us| ≤ (ny : ℝ) / 2 + 3 / 2 ∧ |(((i.2 : ℕ) : ℝ) - coff) / us| ≤ (nx : ℝ) / 2 + 3 / 2
      then dftupsA Z y s s us roff coff i else dftupsVal y us roff coff (i.1 : ℕ) (i.2 : ℕ)
  mul := A.mul
  div := A.div
  abs := A.abs
  sub := A.sub
  mean := fun {m n} im => if m = ny ∧ n = nx then A.mean im else Spec.finiteMean im

theorem upsErr_mono {δ : ℝ} (h0 : 0 ≤ δ) {a b a' b' : ℝ} (ha : |a| ≤ |a'|) (hb : |b| ≤ |b'|) : Spec.upsErr δ a b ≤ Spec.upsErr δ a' b' := by
  have k : ∀ {x y : ℝ}, |x| ≤ |y| → 1 + Spec.kernelErr δ 7 (Real.pi * |x|) ≤ 1 + Spec.kernelErr δ 7 (Real.pi * |y|) := by
    intro x y h
    unfold Spec.kernelErr
    have h1 : 0 ≤ (1 + δ) ^ 7 - 1 := by have := one_le_pow₀ (n := 7) (by linarith : 1 ≤ 1 + δ); linarith
    have := mul_le_mul_of_nonneg_left (mul_le_mul_of_nonneg_left h Real.pi_pos.le) h1
    linarith
  have p : ∀ x : ℝ, 0 ≤ 1 + Spec.kernelErr δ 7 (Real.pi * |x|) := by
    intro x
    have h1 : 0 ≤ (1 + δ) ^ 7 - 1 := by have := one_le_pow₀ (n := 7) (by linarith : 1 ≤ 1 + δ); linarith
    unfold Spec.kernelErr
    have := Real.pi_pos
    positivity
  unfold Spec.upsErr
  have := mul_le_mul (mul_le_mul_of_nonneg_left (k ha) (by positivity : (0 : ℝ) ≤ (1 + δ) ^ 2)) (k hb) (p b)
    (mul_nonneg (by positivity) (p a'))
  linarith

theorem le_regErr {δ : ℝ} (h0 : 0 ≤ δ) (ny nx : ℕ) : δ ≤ Spec.regErr δ ny nx := by
  have h : Spec.upsErr δ 0 0 ≤ Spec.regErr δ ny nx := upsErr_mono h0 (by rw [abs_zero]; positivity) (by rw [abs_zero]; positivity)
  refine le_trans ?_ h
  unfold Spec.upsErr Spec.kernelErr
  simp only [abs_zero, mul_zero, add_zero]
  nlinarith [mul_nonneg h0 h0, mul_nonneg (mul_nonneg h0 h0) h0, mul_nonneg (mul_nonneg h0 h0) (mul_nonneg h0 h0)]

section
variable {ny nx : ℕ} [NeZero ny] [NeZero nx]

theorem clampA_accurate {A : Arith} {Z : ZoomArith} {δ : ℝ} (hA : Spec.AccurateFor A δ ny nx) (hZ : Spec.UpsAccurate Z δ ny nx)
    (hδ : δ ≤ 1 / 2) : Spec.Accurate (clampA A Z ny nx) (Spec.regErr δ ny nx) := by
  have h0 := hZ.nonneg
  have hle := le_regErr h0 ny nx
  have hr : 0 ≤ Spec.regErr δ ny nx := h0.trans hle
  refine ⟨?_, ?_, ?_, ?_, ?_, ?_, ?_, ?_⟩
  · intro m n _ _ x
    by_cases h : m = ny ∧ n = nx
    · obtain ⟨rfl, rfl⟩ := h
      simp only [clampA, if_true, and_self]
      exact (hA.fft x).trans (mul_le_mul_of_nonneg_right hle (Real.sqrt_nonneg _))
    · simp only [clampA, if_neg h, sub_self, norm_zero]
      simp
      positivity
  · intro m n _ _ y i
    by_cases h : m = ny ∧ n = nx
    · obtain ⟨rfl, rfl⟩ := h
      simp only [clampA, and_self, true_or, if_true]
      exact (hA.ifft y i).trans (mul_le_mul_of_nonneg_right hle (by positivity))
    · by_cases h2 : m = 2 * ny ∧ n = 2 * nx
      · obtain ⟨rfl, rfl⟩ := h2
        simp only [clampA, and_self, or_true, if_true]
        exact (hA.ifft2 y i).trans (mul_le_mul_of_nonneg_right hle (by positivity))
      · simp only [clampA, h, h2, or_self, if_false, sub_self, norm_zero]
        positivity
  · intro m n _ _ y s us roff coff o ho i
    have hs : 0 ≤ ∑ k, ‖y k‖ := Finset.sum_nonneg fun k _ => norm_nonneg _
    by_cases hus : us = 0
    · subst hus; exact absurd ho (dftups_zero_not_ok _ _ _ _ _ _)
    have e : o = fun i => dftupsVal y us roff coff (i.1 : ℕ) (i.2 : ℕ) := by
      rw [dftups_eq y (some s) (some s) us roff coff hus] at ho
      simp only [Option.getD_some, Except.ok.injEq, COut2.mk.injEq, heq_eq_eq, true_and] at ho
      funext i
      have h1 := congrFun ho i
      simp only [cArr, Option.some.injEq] at h1
      exact h1.symm
    simp only [clampA]
    split_ifs with h
    · obtain ⟨⟨rfl, rfl⟩, hr1, hr2⟩ := h
      have h := dftupsA_near (clampZ_accurate hZ) hδ (NearC.refl y) s s hus roff coff i
      rw [dftupsA_clamp] at h
      rw [e]
      refine h.trans (le_trans (le_of_eq (by unfold Spec.upsErr; ring)) (mul_le_mul_of_nonneg_right
        (upsErr_mono (a := (((i.1 : ℕ) : ℝ) - roff) / us) (b := (((i.2 : ℕ) : ℝ) - coff) / us) h0 ?_ ?_) hs))
      · rw [abs_of_nonneg (by positivity : (0 : ℝ) ≤ (m : ℝ) / 2 + 3 / 2)]; exact hr1
      · rw [abs_of_nonneg (by positivity : (0 : ℝ) ≤ (n : ℝ) / 2 + 3 / 2)]; exact hr2
    · rw [e, sub_self, norm_zero]
      positivity
  · intro z w
    exact (hA.mul z w).trans (mul_le_mul_of_nonneg_right hle (norm_nonneg _))
  · intro z r h
    exact (hA.div z r h).trans (mul_le_mul_of_nonneg_right hle (norm_nonneg _))
  · intro z
    exact (hA.abs z).trans (mul_le_mul_of_nonneg_right hle (norm_nonneg _))
  · intro x y
    exact (hA.sub x y).trans (mul_le_mul_of_nonneg_right hle (abs_nonneg _))
  · intro m n im him
    by_cases h : m = ny ∧ n = nx
    · obtain ⟨rfl, rfl⟩ := h
      simp only [clampA, and_self, if_true]
      exact (hA.mean im him).trans (mul_le_mul_of_nonneg_right hle (by positivity))
    · simp only [clampA, if_neg h, sub_self, abs_zero]
      positivity

/-- the positions the refinement looks at -/
theorem refine_reach {n usfac : ℕ} (hu : 2 < usfac) {r : ℝ} (hr : |r| ≤ (n : ℝ) / 2) (a : Fin ⌈(usfac : ℝ) * (3 / 2)⌉₊) :
    |(((a : ℕ) : ℝ) - (((⌈(usfac : ℝ) * (3 / 2)⌉₊ / 2 : ℕ) : ℝ) - (pyRound (r * usfac) : ℝ) / usfac * usfac)) / usfac| ≤ (n : ℝ) / 2 + 3 / 2 := by
  have hu' : (3 : ℝ) ≤ usfac := by exact_mod_cast hu
  have hup : (0 : ℝ) < usfac := by linarith
  have hp := abs_pyRound_sub (r * usfac)
  have ha := a.isLt
  generalize (a : ℕ) = b at *
  clear a
  set s := ⌈(usfac : ℝ) * (3 / 2)⌉₊ with hs
  have hsle : (s : ℝ) < usfac * (3 / 2) + 1 := Nat.ceil_lt_add_one (by positivity)
  have h1 : (b : ℝ) ≤ (s : ℝ) - 1 := by
    have : b + 1 ≤ s := ha
    have : ((b + 1 : ℕ) : ℝ) ≤ s := Nat.cast_le.2 this
    push_cast at this; linarith
  have h2 : (s : ℝ) - 1 ≤ 2 * ((s / 2 : ℕ) : ℝ) := by
    have : s ≤ 2 * (s / 2) + 1 := by omega
    have : (s : ℝ) ≤ ((2 * (s / 2) + 1 : ℕ) : ℝ) := Nat.cast_le.2 this
    push_cast at this; linarith
  have h3 : 2 * ((s / 2 : ℕ) : ℝ) ≤ s := by
    have : 2 * (s / 2) ≤ s := by omega
    have : ((2 * (s / 2) : ℕ) : ℝ) ≤ s := Nat.cast_le.2 this
    push_cast at this; linarith
  have h4 : (0 : ℝ) ≤ (b : ℝ) := Nat.cast_nonneg _
  generalize ((s / 2 : ℕ) : ℝ) = q at *
  generalize (pyRound (r * usfac) : ℝ) = w at *
  have e : w / usfac * usfac = w := by field_simp
  rw [e, abs_div, abs_of_pos hup, div_le_iff₀ hup]
  rw [abs_le] at hp hr ⊢
  have r1 := mul_le_mul_of_nonneg_right hr.1 hup.le
  have r2 := mul_le_mul_of_nonneg_right hr.2 hup.le
  constructor
  · nlinarith [hp.1, hp.2]
  · nlinarith [hp.1, hp.2]

theorem halfPeak_le (n : ℕ) (i : Fin (2 * n)) : |(wrapPeak (2 * n) i : ℝ) / 2| ≤ (n : ℝ) / 2 := by
  obtain ⟨h1, h2⟩ := wrapPeak_range (2 * n) i i.isLt
  have h1' : -(n : ℝ) ≤ wrapPeak (2 * n) i := by
    have : -(n : ℤ) ≤ wrapPeak (2 * n) i := by push_cast at h1; linarith
    exact_mod_cast this
  have h2' : (wrapPeak (2 * n) i : ℝ) ≤ n := by
    have : wrapPeak (2 * n) i ≤ (n : ℤ) := by push_cast at h2; linarith
    exact_mod_cast this
  rw [abs_le]; constructor <;> linarith

theorem refineA_clamp (A : Arith) (Z : ZoomArith) (buf1 buf2 : Fin ny × Fin nx → ℂ) {usfac : ℕ} (hu : 2 < usfac) {r c : ℝ}
    (hr : |r| ≤ (ny : ℝ) / 2) (hc : |c| ≤ (nx : ℝ) / 2) :
    refineA (clampA A Z ny nx) buf1 buf2 usfac r c = refineA (A.withDftups Z) buf1 buf2 usfac r c := by
  have e : ∀ y : Fin ny × Fin nx → ℂ, (clampA A Z ny nx).dftups y ⌈(usfac : ℝ) * (3 / 2)⌉₊ usfac
      (((⌈(usfac : ℝ) * (3 / 2)⌉₊ / 2 : ℕ) : ℝ) - (pyRound (r * usfac) : ℝ) / usfac * usfac)
      (((⌈(usfac : ℝ) * (3 / 2)⌉₊ / 2 : ℕ) : ℝ) - (pyRound (c * usfac) : ℝ) / usfac * usfac)
      = (A.withDftups Z).dftups y ⌈(usfac : ℝ) * (3 / 2)⌉₊ usfac
      (((⌈(usfac : ℝ) * (3 / 2)⌉₊ / 2 : ℕ) : ℝ) - (pyRound (r * usfac) : ℝ) / usfac * usfac)
      (((⌈(usfac : ℝ) * (3 / 2)⌉₊ / 2 : ℕ) : ℝ) - (pyRound (c * usfac) : ℝ) / usfac * usfac) := by
    intro y
    funext i
    simp only [clampA, Arith.withDftups]
    exact if_pos ⟨⟨trivial, trivial⟩, refine_reach hu hr i.1, refine_reach hu hc i.2⟩
  unfold refineA
  simp only [e]
  rfl

theorem registerA_clamp (A : Arith) (Z : ZoomArith) (im1 im2 : Fin ny × Fin nx → Pix) (usfac : ℕ) (zm : Bool) (mo : Option ℕ) :
    registerA (clampA A Z ny nx) im1 im2 usfac zm mo = registerA (A.withDftups Z) im1 im2 usfac zm mo := by
  have ep : ∀ im : Fin ny × Fin nx → Pix, prepA (clampA A Z ny nx) zm im = prepA (A.withDftups Z) zm im := by
    intro im
    funext p
    have e : (clampA A Z ny nx).mean im = (A.withDftups Z).mean im := by simp [clampA, Arith.withDftups]
    unfold prepA
    rw [e]
    rfl
  have ef : ∀ x : Fin ny × Fin nx → ℂ, (clampA A Z ny nx).fft x = (A.withDftups Z).fft x := by
    intro x; funext k; simp [clampA, Arith.withDftups]
  have ei : ∀ x : Fin ny × Fin nx → ℂ, (clampA A Z ny nx).ifft x = (A.withDftups Z).ifft x := by
    intro x; funext k; simp [clampA, Arith.withDftups]
  have ei2 : ∀ x : Fin (2 * ny) × Fin (2 * nx) → ℂ, (clampA A Z ny nx).ifft x = (A.withDftups Z).ifft x := by
    intro x; funext k; simp [clampA, Arith.withDftups]
  have eh : ∀ b1 b2 : Fin ny × Fin nx → ℂ, halfA (clampA A Z ny nx) b1 b2 mo = halfA (A.withDftups Z) b1 b2 mo := by
    intro b1 b2
    unfold halfA
    rw [ei2]
    rfl
  have ew : ∀ b1 b2 : Fin ny × Fin nx → ℂ, wholeA (clampA A Z ny nx) b1 b2 mo = wholeA (A.withDftups Z) b1 b2 mo := by
    intro b1 b2
    unfold wholeA
    rw [ei]
    rfl
  have ed : ∀ b1 b2 : Fin ny × Fin nx → ℂ, dftregA (clampA A Z ny nx) b1 b2 usfac mo = dftregA (A.withDftups Z) b1 b2 usfac mo := by
    intro b1 b2
    unfold dftregA
    rw [eh, ew]
    by_cases hu : 2 < usfac
    · rw [if_pos hu, if_pos hu, refineA_clamp A Z b1 b2 hu]
      · exact halfPeak_le ny _
      · exact halfPeak_le nx _
    · rw [if_neg hu, if_neg hu]
  unfold registerA
  simp only [ep, ef, ed]

/-- C117: with error-free operations the elementary model is the exact one. -/
theorem C117_exact_arithmetic (A : Arith) (Z : ZoomArith) (hA : Spec.AccurateFor A 0 ny nx) (hZ : Spec.UpsAccurate Z 0 ny nx) (cfg : FFTConfig)
    (im1 im2 : Fin ny × Fin nx → Pix) (usfac : ℕ) (zm : Bool) (mo : Option ℕ) :
    registerA (A.withDftups Z) im1 im2 usfac zm mo = registerImages cfg im1 im2 usfac false false zm mo := by
  have e : Spec.regErr 0 ny nx = 0 := by simp [Spec.regErr, Spec.upsErr, Spec.kernelErr]
  have h := clampA_accurate hA hZ (by norm_num)
  rw [e] at h
  rw [← registerA_clamp]
  exact C111_exact_arithmetic _ h cfg im1 im2 usfac zm mo

/-- C117: rounding does not change the answer when the answer is clear. If at every search the exact modulus of the cross-correlation at the best
position exceeds that at every other position searched by more than twice the error bound, the computed shifts are the exact ones. -/
theorem C117_same_answer (A : Arith) (Z : ZoomArith) (δ : ℝ) (hA : Spec.AccurateFor A δ ny nx) (hZ : Spec.UpsAccurate Z δ ny nx) (hδ : δ ≤ 1 / 2)
    (cfg : FFTConfig) (im1 im2 : Fin ny × Fin nx → Pix) (usfac : ℕ) (zm : Bool) (mo : Option ℕ)
    (t : ℝ) (ht : t = Spec.tau (Spec.regErr δ ny nx) zm im1 im2)
    (hwhole : usfac = 1 → Spec.clearPeak (Spec.kept mo fun i : Fin ny × Fin nx =>
        ‖Spec.cc (prep zm im1) (prep zm im2) ((i.1 : ℕ) : ℝ) ((i.2 : ℕ) : ℝ)‖) t)
    (hhalf : 2 ≤ usfac → Spec.clearPeak (Spec.kept mo fun i : Fin (2 * ny) × Fin (2 * nx) =>
        ‖Spec.cc (prep zm im1) (prep zm im2) (((i.1 : ℕ) : ℝ) / 2) (((i.2 : ℕ) : ℝ) / 2)‖) t)
    (hfine : 2 < usfac → ∀ loc : Fin (2 * ny) × Fin (2 * nx),
      (∀ i, Spec.kept mo (fun i : Fin (2 * ny) × Fin (2 * nx) =>
          ‖Spec.cc (prep zm im1) (prep zm im2) (((i.1 : ℕ) : ℝ) / 2) (((i.2 : ℕ) : ℝ) / 2)‖) i
        ≤ Spec.kept mo (fun i : Fin (2 * ny) × Fin (2 * nx) =>
          ‖Spec.cc (prep zm im1) (prep zm im2) (((i.1 : ℕ) : ℝ) / 2) (((i.2 : ℕ) : ℝ) / 2)‖) loc) →
      Spec.clearPeak (fun i : Fin ⌈(usfac : ℝ) * (3 / 2)⌉₊ × Fin ⌈(usfac : ℝ) * (3 / 2)⌉₊ => ‖Spec.cc (prep zm im1) (prep zm im2)
          (Spec.refineAt usfac ((wrapPeak (2 * ny) loc.1 : ℝ) / 2) i.1)
          (Spec.refineAt usfac ((wrapPeak (2 * nx) loc.2 : ℝ) / 2) i.2)‖) t) :
    registerA (A.withDftups Z) im1 im2 usfac zm mo = registerImages cfg im1 im2 usfac false false zm mo := by
  subst ht
  rw [← registerA_clamp]
  exact C111_same_answer _ _ (clampA_accurate hA hZ hδ) cfg im1 im2 usfac zm mo hwhole hhalf hfine

/-- C117: whatever the images and however the rounding errors fall, with `usfac=1` the reported shift correlates as well as every other
whole-pixel shift, up to twice the error bound. -/
theorem C117_near_optimal_whole (A : Arith) (Z : ZoomArith) (δ : ℝ) (hA : Spec.AccurateFor A δ ny nx) (hZ : Spec.UpsAccurate Z δ ny nx)
    (hδ : δ ≤ 1 / 2) (im1 im2 : Fin ny × Fin nx → Pix) (zm : Bool) :
    ∃ dx dy : ℤ, registerA (A.withDftups Z) im1 im2 1 zm none = .ok [.num dx, .num dy] ∧
      -(ny : ℤ) ≤ 2 * dy ∧ 2 * dy < ny ∧ -(nx : ℤ) ≤ 2 * dx ∧ 2 * dx < nx ∧
      ∀ j k : ℤ, ‖Spec.cc (prep zm im1) (prep zm im2) j k‖
        ≤ ‖Spec.cc (prep zm im1) (prep zm im2) (-dy) (-dx)‖ + 2 * Spec.tau (Spec.regErr δ ny nx) zm im1 im2 := by
  rw [← registerA_clamp]
  exact C111_near_optimal_whole _ _ (clampA_accurate hA hZ hδ) im1 im2 zm

/-- C117: with `usfac=2` the reported shift correlates as well as every other half-pixel shift, up to twice the error bound. -/
theorem C117_near_optimal_half (A : Arith) (Z : ZoomArith) (δ : ℝ) (hA : Spec.AccurateFor A δ ny nx) (hZ : Spec.UpsAccurate Z δ ny nx)
    (hδ : δ ≤ 1 / 2) (im1 im2 : Fin ny × Fin nx → Pix) (hy : 2 ≤ ny) (hx : 2 ≤ nx) (zm : Bool) :
    ∃ dx dy : ℝ, registerA (A.withDftups Z) im1 im2 2 zm none = .ok [.num dx, .num dy] ∧
      (∃ j k : ℤ, -dy = (j : ℝ) / 2 ∧ -dx = (k : ℝ) / 2 ∧ -(ny : ℤ) < j ∧ j ≤ ny ∧ -(nx : ℤ) < k ∧ k ≤ nx) ∧
      ∀ j k : ℤ, ‖Spec.cc (prep zm im1) (prep zm im2) ((j : ℝ) / 2) ((k : ℝ) / 2)‖
        ≤ ‖Spec.cc (prep zm im1) (prep zm im2) (-dy) (-dx)‖ + 2 * Spec.tau (Spec.regErr δ ny nx) zm im1 im2 := by
  rw [← registerA_clamp]
  exact C111_near_optimal_half _ _ (clampA_accurate hA hZ hδ) im1 im2 hy hx zm

/-- C117: with `usfac > 2` the first estimate and the reported shift each maximise the modulus of the cross-correlation over the positions
searched, up to twice the error bound. -/
theorem C117_near_optimal_fine (A : Arith) (Z : ZoomArith) (δ : ℝ) (hA : Spec.AccurateFor A δ ny nx) (hZ : Spec.UpsAccurate Z δ ny nx)
    (hδ : δ ≤ 1 / 2) (im1 im2 : Fin ny × Fin nx → Pix) (usfac : ℕ) (hu : 2 < usfac) (hy : 2 ≤ ny) (hx : 2 ≤ nx) (zm : Bool) :
    ∃ dx dy row2 col2 : ℝ, registerA (A.withDftups Z) im1 im2 usfac zm none = .ok [.num dx, .num dy] ∧
      (∃ j k : ℤ, row2 = (j : ℝ) / 2 ∧ col2 = (k : ℝ) / 2 ∧ -(ny : ℤ) < j ∧ j ≤ ny ∧ -(nx : ℤ) < k ∧ k ≤ nx) ∧
      (∀ j k : ℤ, ‖Spec.cc (prep zm im1) (prep zm im2) ((j : ℝ) / 2) ((k : ℝ) / 2)‖
        ≤ ‖Spec.cc (prep zm im1) (prep zm im2) row2 col2‖ + 2 * Spec.tau (Spec.regErr δ ny nx) zm im1 im2) ∧
      -dy ∈ Spec.refineGrid usfac row2 ∧ -dx ∈ Spec.refineGrid usfac col2 ∧
      (∀ t ∈ Spec.refineGrid usfac row2, ∀ u ∈ Spec.refineGrid usfac col2,
        ‖Spec.cc (prep zm im1) (prep zm im2) t u‖
          ≤ ‖Spec.cc (prep zm im1) (prep zm im2) (-dy) (-dx)‖ + 2 * Spec.tau (Spec.regErr δ ny nx) zm im1 im2) := by
  rw [← registerA_clamp]
  exact C111_near_optimal_fine _ _ (clampA_accurate hA hZ hδ) im1 im2 usfac hu hy hx zm

/-- C117: whole-pixel registration in floating point, with noise: if the autocorrelation of the (mean-subtracted) image at every other candidate
displacement stays below its value at 0 by more than `2·‖a‖·‖noise‖` plus twice the rounding error bound, the shifts computed
in floating point are exactly the whole numbers `dx`, `dy` (reduced to `-n ≤ 2·d < n`). -/
theorem C117_recovers_roll (A : Arith) (Z : ZoomArith) (δ : ℝ) (hA : Spec.AccurateFor A δ ny nx) (hZ : Spec.UpsAccurate Z δ ny nx)
    (hδ : δ ≤ 1 / 2) (im1 noise : Fin ny × Fin nx → ℝ) (dy dx : ℤ) (usfac : ℕ)
    (hu : 1 ≤ usfac) (hsz : usfac = 1 ∨ (2 ≤ ny ∧ 2 ≤ nx)) (zm : Bool)
    (a : Fin ny × Fin nx → ℝ) (ha : ∀ p, a p = im1 p - if zm then Spec.mean im1 else 0)
    (hmargin : ∀ t ∈ Spec.candidates usfac, ∀ u ∈ Spec.candidates usfac,
      ¬ ((∃ z : ℤ, t = z * ny) ∧ ∃ z : ℤ, u = z * nx) →
      ‖Spec.cc a a t u‖ + 2 * (Real.sqrt (∑ p, a p ^ 2) * Real.sqrt (∑ p, noise p ^ 2))
        + 2 * Spec.tau (Spec.regErr δ ny nx) zm (realArr im1) (realArr fun p => Spec.roll2 dy dx im1 p + noise p) < ∑ p, a p ^ 2) :
    ∃ dx' dy' : ℤ,
      registerA (A.withDftups Z) (realArr im1) (realArr fun p => Spec.roll2 dy dx im1 p + noise p) usfac zm none
        = .ok [.num dx', .num dy'] ∧
      dx' ≡ dx [ZMOD nx] ∧ -(nx : ℤ) ≤ 2 * dx' ∧ 2 * dx' < nx ∧
      dy' ≡ dy [ZMOD ny] ∧ -(ny : ℤ) ≤ 2 * dy' ∧ 2 * dy' < ny := by
  rw [← registerA_clamp]
  exact C111_recovers_roll _ _ (clampA_accurate hA hZ hδ) im1 noise dy dx usfac hu hsz zm a ha hmargin

end

/-- an arithmetic accurate at all sizes is accurate at one -/
theorem Spec.Accurate.at {A : Arith} {δ : ℝ} (h : Spec.Accurate A δ) (ny nx : ℕ) [NeZero ny] [NeZero nx] : Spec.AccurateFor A δ ny nx :=
  ⟨fun x => h.fft x, fun y i => h.ifft y i, fun y i => h.ifft y i, h.mul, h.div, h.abs, h.sub, fun im => h.mean im⟩

/-- the hypotheses are met by operations that are all wrong by one part in a million, and the error bound is then below 0.001 for images of
16 × 16 pixels -/
example : Spec.AccurateFor (Arith.biased (1 / 10 ^ 6)) (1 / 10 ^ 6) 16 16 ∧
    Spec.UpsAccurate (ZoomArith.biased (1 / 10 ^ 6)) (1 / 10 ^ 6) 16 16 ∧ Spec.regErr (1 / 10 ^ 6) 16 16 ≤ 1 / 1000 := by
  refine ⟨(Arith.biased_accurate _ (by norm_num)).at 16 16, (ZoomArith.biased_accurate _ (by norm_num)).ups 16 16, ?_⟩
  refine upsErr_small _ _ ?_ ?_ <;> norm_num [abs_of_nonneg]

end ImgReg
