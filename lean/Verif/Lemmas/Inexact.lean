import Verif.Model.Inexact
import Verif.Props.RegisterNoise
import Mathlib.Tactic.LinearCombination

/-! # Error bounds for `register_images` in inexact arithmetic -/

open Complex Finset
open scoped ComplexConjugate

namespace ImgReg

/-- Every operation has relative error at most `δ`: the forward FFT in root-mean-square, the inverse FFT and `dftups` relative to the sum of
the moduli of the input (what each output value is bounded by), the mean relative to the mean modulus, the others relative to
the result. -/
structure Spec.Accurate (A : Arith) (δ : ℝ) : Prop where
  fft : ∀ {m n : ℕ} [NeZero m] [NeZero n] (x : Fin m × Fin n → ℂ),
    Real.sqrt (∑ k, ‖A.fft x k - dft x k‖ ^ 2) ≤ δ * Real.sqrt (∑ k, ‖dft x k‖ ^ 2)
  ifft : ∀ {m n : ℕ} [NeZero m] [NeZero n] (y : Fin m × Fin n → ℂ) (i : Fin m × Fin n),
    ‖A.ifft y i - idft y i‖ ≤ δ * ((∑ k, ‖y k‖) / ((m : ℝ) * n))
  dftups : ∀ {m n : ℕ} [NeZero m] [NeZero n] (y : Fin m × Fin n → ℂ) (s : ℕ) (us roff coff : ℝ) (o : Fin s × Fin s → ℂ),
    ImgReg.dftups (cArr y) (some s) (some s) us roff coff = .ok ⟨s, s, cArr o⟩ →
    ∀ i, ‖A.dftups y s us roff coff i - o i‖ ≤ δ * ∑ k, ‖y k‖
  mul : ∀ z w : ℂ, ‖A.mul z w - z * w‖ ≤ δ * ‖z * w‖
  div : ∀ (z : ℂ) (r : ℝ), r ≠ 0 → ‖A.div z r - z / r‖ ≤ δ * ‖z / r‖
  abs : ∀ z : ℂ, |A.abs z - ‖z‖| ≤ δ * ‖z‖
  sub : ∀ x y : ℝ, |A.sub x y - (x - y)| ≤ δ * |x - y|
  mean : ∀ {m n : ℕ} (im : Fin m × Fin n → Pix), (∃ p, (im p).isSome) →
    |A.mean im - Spec.finiteMean im| ≤ δ * ((∑ p, |(im p).getD 0|) / ((univ.filter fun p => (im p).isSome).card : ℝ))

theorem Spec.Accurate.nonneg {A : Arith} {δ : ℝ} (h : Spec.Accurate A δ) : 0 ≤ δ := by
  have := (abs_nonneg _).trans (h.abs 1)
  simpa using this

/-! ### generic bounds -/

section generic
variable {ι : Type} [Fintype ι]

theorem l2_sub_le (f g h : ι → ℂ) : l2 (fun p => f p - h p) ≤ l2 (fun p => f p - g p) + l2 (fun p => g p - h p) := by
  have := l2_add (fun p => f p - g p) (fun p => g p - h p)
  simpa using this

theorem sum_norm_mul_conj_le (f g : ι → ℂ) : ∑ k, ‖f k * conj (g k)‖ ≤ l2 f * l2 g := by
  simp only [norm_mul, RCLike.norm_conj]
  exact Real.sum_mul_le_sqrt_mul_sqrt univ _ _

/-- products of two spectra known approximately -/
theorem cross_near {A : Arith} {δ : ℝ} (hA : Spec.Accurate A δ) (f g F G : ι → ℂ) {X Y X' Y' : ℝ}
    (hf : l2 f ≤ X') (hg : l2 g ≤ Y') (hF : l2 F ≤ X)
    (hfF : l2 (fun k => f k - F k) ≤ X' - X) (hgG : l2 (fun k => g k - G k) ≤ Y' - Y) :
    ∑ k, ‖A.mul (f k) (conj (g k))‖ ≤ (1 + δ) * (X' * Y') ∧
    ∑ k, ‖A.mul (f k) (conj (g k)) - F k * conj (G k)‖ ≤ (1 + δ) * (X' * Y') - X * Y := by
  have h0 := hA.nonneg
  have hX' : 0 ≤ X' := (l2_nonneg f).trans hf
  have hY' : 0 ≤ Y' := (l2_nonneg g).trans hg
  have hp : ∑ k, ‖f k * conj (g k)‖ ≤ X' * Y' :=
    (sum_norm_mul_conj_le f g).trans (mul_le_mul hf hg (l2_nonneg g) hX')
  have he : ∑ k, ‖A.mul (f k) (conj (g k)) - f k * conj (g k)‖ ≤ δ * (X' * Y') := by
    refine (Finset.sum_le_sum fun k _ => hA.mul (f k) (conj (g k))).trans ?_
    rw [← Finset.mul_sum]
    exact mul_le_mul_of_nonneg_left hp h0
  constructor
  · have : ∑ k, ‖A.mul (f k) (conj (g k))‖
        ≤ ∑ k, (‖A.mul (f k) (conj (g k)) - f k * conj (g k)‖ + ‖f k * conj (g k)‖) := by
      refine Finset.sum_le_sum fun k _ => ?_
      have := norm_add_le (A.mul (f k) (conj (g k)) - f k * conj (g k)) (f k * conj (g k))
      simpa using this
    rw [Finset.sum_add_distrib] at this
    linarith
  · have h1 : ∑ k, ‖(f k - F k) * conj (g k)‖ ≤ (X' - X) * Y' :=
      (sum_norm_mul_conj_le _ g).trans (mul_le_mul hfF hg (l2_nonneg g) ((l2_nonneg _).trans hfF))
    have h2 : ∑ k, ‖F k * conj (g k - G k)‖ ≤ X * (Y' - Y) :=
      (sum_norm_mul_conj_le F _).trans (mul_le_mul hF hgG (l2_nonneg _) ((l2_nonneg _).trans hF))
    have : ∑ k, ‖A.mul (f k) (conj (g k)) - F k * conj (G k)‖
        ≤ ∑ k, (‖A.mul (f k) (conj (g k)) - f k * conj (g k)‖ + ‖(f k - F k) * conj (g k)‖ + ‖F k * conj (g k - G k)‖) := by
      refine Finset.sum_le_sum fun k _ => ?_
      have e : A.mul (f k) (conj (g k)) - F k * conj (G k)
          = A.mul (f k) (conj (g k)) - f k * conj (g k) + (f k - F k) * conj (g k) + F k * conj (g k - G k) := by
        rw [map_sub]; ring
      rw [e]
      exact norm_add₃_le
    rw [Finset.sum_add_distrib, Finset.sum_add_distrib] at this
    linarith

/-- one more relative error -/
theorem near_step {δ B B' : ℝ} (h0 : 0 ≤ δ) {z' z y : ℂ} (hz' : ‖z'‖ ≤ B') (hz : ‖z' - z‖ ≤ B' - B) (hy : ‖y - z'‖ ≤ δ * ‖z'‖) :
    ‖y‖ ≤ (1 + δ) * B' ∧ ‖y - z‖ ≤ (1 + δ) * B' - B := by
  have h1 := mul_le_mul_of_nonneg_left hz' h0
  have h2 := norm_add_le (y - z') z'
  have h3 := norm_add_le (y - z') (z' - z)
  rw [sub_add_cancel] at h2
  rw [sub_add_sub_cancel] at h3
  constructor <;> linarith

theorem near_abs {A : Arith} {δ B B' : ℝ} (hA : Spec.Accurate A δ) {z' z : ℂ} (hz' : ‖z'‖ ≤ B') (hz : ‖z' - z‖ ≤ B' - B) :
    |A.abs z' - ‖z‖| ≤ (1 + δ) * B' - B := by
  have h0 := hA.nonneg
  have h1 := mul_le_mul_of_nonneg_left hz' h0
  have h2 := hA.abs z'
  have h3 := abs_norm_sub_norm_le z' z
  have h4 := abs_add_le (A.abs z' - ‖z'‖) (‖z'‖ - ‖z‖)
  rw [sub_add_sub_cancel] at h4
  linarith

end generic

section
variable {ny nx : ℕ} [NeZero ny] [NeZero nx]

theorem l2_dft (x : Fin ny × Fin nx → ℂ) : l2 (dft x) = Real.sqrt ((ny : ℝ) * nx) * l2 x := by
  have c0 : (0 : ℝ) < (ny : ℝ) * nx := by
    have := Nat.pos_of_ne_zero (NeZero.ne ny); have := Nat.pos_of_ne_zero (NeZero.ne nx); positivity
  unfold l2
  rw [parseval_normSq x, ← Real.sqrt_mul c0.le]
  simp only [Fintype.card_prod, Fintype.card_fin]
  push_cast
  rw [← mul_assoc, mul_one_div_cancel c0.ne', one_mul]

/-- the computed spectrum of an approximately known image -/
theorem fft_near {A : Arith} {δ : ℝ} (hA : Spec.Accurate A δ) (x' x : Fin ny × Fin nx → ℂ) {T' T : ℝ}
    (hx' : l2 x' ≤ T') (hx : l2 (fun p => x' p - x p) ≤ T' - T) :
    l2 (A.fft x') ≤ Real.sqrt ((ny : ℝ) * nx) * ((1 + δ) * T') ∧
    l2 (fun k => A.fft x' k - dft x k) ≤ Real.sqrt ((ny : ℝ) * nx) * ((1 + δ) * T') - Real.sqrt ((ny : ℝ) * nx) * T := by
  have h0 := hA.nonneg
  have hs := Real.sqrt_nonneg ((ny : ℝ) * nx)
  have h1 : l2 (fun k => A.fft x' k - dft x' k) ≤ δ * l2 (dft x') := hA.fft x'
  rw [l2_dft] at h1
  have h2 : l2 (fun k => dft x' k - dft x k) = Real.sqrt ((ny : ℝ) * nx) * l2 (fun p => x' p - x p) := by
    rw [← l2_dft]
    congr 1
    have e : (fun p => x' p - x p) = fun p => x' p + (-1) * x p := by funext p; ring
    rw [e, dft_add, dft_smul]
    funext k; ring
  have h3 := l2_sub_le (A.fft x') (dft x') (dft x)
  have h4 := l2_add (fun k => A.fft x' k - dft x' k) (dft x')
  simp only [sub_add_cancel] at h4
  rw [l2_dft] at h4
  have h5 := mul_le_mul_of_nonneg_left hx' hs
  have h6 := mul_le_mul_of_nonneg_left h5 h0
  have h7 := mul_le_mul_of_nonneg_left hx hs
  constructor
  · have e : Real.sqrt ((ny : ℝ) * nx) * ((1 + δ) * T')
        = δ * (Real.sqrt ((ny : ℝ) * nx) * T') + Real.sqrt ((ny : ℝ) * nx) * T' := by ring
    rw [e]; unfold l2 at *; linarith
  · have e : Real.sqrt ((ny : ℝ) * nx) * ((1 + δ) * T') - Real.sqrt ((ny : ℝ) * nx) * T
        = δ * (Real.sqrt ((ny : ℝ) * nx) * T') + Real.sqrt ((ny : ℝ) * nx) * (T' - T) := by ring
    rw [e]; rw [h2] at h3; linarith

omit [NeZero ny] [NeZero nx] in
theorem norm_idft_le [NeZero ny] [NeZero nx] (y : Fin ny × Fin nx → ℂ) (i : Fin ny × Fin nx) :
    ‖idft y i‖ ≤ (∑ k, ‖y k‖) / ((ny : ℝ) * nx) := by
  unfold idft
  rw [norm_mul]
  simp only [Fintype.card_prod, Fintype.card_fin]
  have h : ‖∑ k, y k * e k i‖ ≤ ∑ k, ‖y k‖ := by
    refine (norm_sum_le _ _).trans (le_of_eq ?_)
    simp only [norm_mul, norm_e, mul_one]
  have e : ‖(1 / ((ny * nx : ℕ) : ℂ))‖ = 1 / ((ny : ℝ) * nx) := by
    rw [norm_div, norm_one, Complex.norm_natCast]; push_cast; rfl
  rw [e, one_div, inv_mul_eq_div]
  gcongr

/-- the computed inverse transform of an approximately known spectrum -/
theorem ifft_near {A : Arith} {δ : ℝ} (hA : Spec.Accurate A δ) (y' y : Fin ny × Fin nx → ℂ) (i : Fin ny × Fin nx) {C' C : ℝ}
    (hy' : ∑ k, ‖y' k‖ ≤ C') (hy : ∑ k, ‖y' k - y k‖ ≤ C' - C) :
    ‖A.ifft y' i‖ ≤ (1 + δ) * (C' / ((ny : ℝ) * nx)) ∧
    ‖A.ifft y' i - idft y i‖ ≤ (1 + δ) * (C' / ((ny : ℝ) * nx)) - C / ((ny : ℝ) * nx) := by
  have h0 := hA.nonneg
  have c0 : (0 : ℝ) < (ny : ℝ) * nx := by
    have := Nat.pos_of_ne_zero (NeZero.ne ny); have := Nat.pos_of_ne_zero (NeZero.ne nx); positivity
  have h1 := hA.ifft y' i
  have d1 : (∑ k, ‖y' k‖) / ((ny : ℝ) * nx) ≤ C' / ((ny : ℝ) * nx) := by gcongr
  have d2 : (∑ k, ‖y' k - y k‖) / ((ny : ℝ) * nx) ≤ C' / ((ny : ℝ) * nx) - C / ((ny : ℝ) * nx) := by
    rw [← sub_div]; gcongr
  have h2 := norm_idft_le y' i
  have h3 : idft y' i - idft y i = idft (fun k => y' k - y k) i := by
    have e : (fun k => y' k - y k) = fun k => y' k + (-1) * y k := by funext k; ring
    rw [e, idft_add, idft_smul]; ring
  have h4 := norm_idft_le (fun k => y' k - y k) i
  rw [← h3] at h4
  have h5 := mul_le_mul_of_nonneg_left d1 h0
  have h6 := norm_add_le (A.ifft y' i - idft y' i) (idft y' i)
  have h7 := norm_add_le (A.ifft y' i - idft y' i) (idft y' i - idft y i)
  rw [sub_add_cancel] at h6
  rw [sub_add_sub_cancel] at h7
  constructor <;> linarith

omit [NeZero ny] [NeZero nx] in
theorem norm_dftupsVal_le [NeZero ny] [NeZero nx] (y : Fin ny × Fin nx → ℂ) (us roff coff a b : ℝ) :
    ‖dftupsVal y us roff coff a b‖ ≤ ∑ k, ‖y k‖ := by
  unfold dftupsVal
  refine (norm_sum_le _ _).trans (le_of_eq ?_)
  simp only [norm_mul, norm_ex, mul_one]

theorem dftups_near {A : Arith} {δ : ℝ} (hA : Spec.Accurate A δ) (y' y : Fin ny × Fin nx → ℂ) (s : ℕ) (us roff coff : ℝ) (hus : us ≠ 0)
    (i : Fin s × Fin s) {C' C : ℝ} (hy' : ∑ k, ‖y' k‖ ≤ C') (hy : ∑ k, ‖y' k - y k‖ ≤ C' - C) :
    ‖A.dftups y' s us roff coff i‖ ≤ (1 + δ) * C' ∧
    ‖A.dftups y' s us roff coff i - dftupsVal y us roff coff (i.1 : ℕ) (i.2 : ℕ)‖ ≤ (1 + δ) * C' - C := by
  have h0 := hA.nonneg
  have h1 := hA.dftups y' s us roff coff _ (dftups_eq y' (some s) (some s) us roff coff hus) i
  have h2 := norm_dftupsVal_le y' us roff coff (i.1 : ℕ) (i.2 : ℕ)
  have h3 : dftupsVal y' us roff coff (i.1 : ℕ) (i.2 : ℕ) - dftupsVal y us roff coff (i.1 : ℕ) (i.2 : ℕ)
      = dftupsVal (fun k => y' k - y k) us roff coff (i.1 : ℕ) (i.2 : ℕ) := by
    unfold dftupsVal
    rw [← Finset.sum_sub_distrib]
    refine Finset.sum_congr rfl fun k _ => ?_
    ring
  have h4 := norm_dftupsVal_le (fun k => y' k - y k) us roff coff (i.1 : ℕ) (i.2 : ℕ)
  rw [← h3] at h4
  have h5 := mul_le_mul_of_nonneg_left hy' h0
  have h6 := norm_add_le (A.dftups y' s us roff coff i - dftupsVal y' us roff coff (i.1 : ℕ) (i.2 : ℕ))
    (dftupsVal y' us roff coff (i.1 : ℕ) (i.2 : ℕ))
  have h7 := norm_add_le (A.dftups y' s us roff coff i - dftupsVal y' us roff coff (i.1 : ℕ) (i.2 : ℕ))
    (dftupsVal y' us roff coff (i.1 : ℕ) (i.2 : ℕ) - dftupsVal y us roff coff (i.1 : ℕ) (i.2 : ℕ))
  rw [sub_add_cancel] at h6
  rw [sub_add_sub_cancel] at h7
  constructor <;> linarith

/-! ### the image preparation -/

/-- root of the sum of squares of the prepared image, and of the values before the mean is subtracted -/
noncomputable def Spec.prepNorm (zm : Bool) (im : Fin ny × Fin nx → Pix) : ℝ := Real.sqrt (∑ p, prep zm im p ^ 2)

/-- bound on the norm of the prepared image as computed -/
noncomputable def Spec.prepNorm' (δ : ℝ) (zm : Bool) (im : Fin ny × Fin nx → Pix) : ℝ :=
  if zm then (1 + δ) * (Spec.prepNorm true im + δ * Spec.prepNorm false im) else Spec.prepNorm false im

omit [NeZero ny] [NeZero nx] in
theorem l2_real (a : Fin ny × Fin nx → ℝ) : l2 (fun p => (a p : ℂ)) = Real.sqrt (∑ p, a p ^ 2) := by
  unfold l2; simp

omit [NeZero ny] [NeZero nx] in
theorem prep_near {A : Arith} {δ : ℝ} (hA : Spec.Accurate A δ) (zm : Bool) (im : Fin ny × Fin nx → Pix) :
    l2 (fun p => (prepA A zm im p : ℂ)) ≤ Spec.prepNorm' δ zm im ∧
    l2 (fun p => (prepA A zm im p : ℂ) - (prep zm im p : ℂ)) ≤ Spec.prepNorm' δ zm im - Spec.prepNorm zm im := by
  have h0 := hA.nonneg
  cases zm with
  | false =>
    have e : prepA A false im = prep false im := by
      funext p; unfold prepA prep; cases im p <;> rfl
    unfold Spec.prepNorm'
    simp only [Bool.false_eq_true, if_false, e, sub_self]
    refine ⟨(l2_real _).le, ?_⟩
    unfold l2; simp
  | true =>
    set cnt : ℝ := ((univ.filter fun p => (im p).isSome).card : ℝ) with hcnt
    set M : ℝ := (∑ p, |(im p).getD 0|) / cnt with hM
    -- one pixel
    have hpx : ∀ p, ‖(prepA A true im p : ℂ) - (prep true im p : ℂ)‖
        ≤ ‖((δ * |prep true im p| : ℝ) : ℂ) + (((1 + δ) * δ * if (im p).isSome then M else 0 : ℝ) : ℂ)‖ := by
      intro p
      have hM0 : 0 ≤ M := by rw [hM, hcnt]; positivity
      have hr : 0 ≤ δ * |prep true im p| + (1 + δ) * δ * if (im p).isSome then M else 0 := by
        split_ifs <;> positivity
      rw [← Complex.ofReal_sub, ← Complex.ofReal_add, Complex.norm_real, Complex.norm_real, Real.norm_of_nonneg hr, Real.norm_eq_abs]
      cases hp : im p with
      | none => simp [prepA, prep, hp]
      | some v =>
        have h1 := hA.mean im ⟨p, by simp [hp]⟩
        have h2 := hA.sub v (A.mean im)
        have e1 : prepA A true im p = A.sub v (A.mean im) := by simp [prepA, hp]
        have e2 : prep true im p = v - Spec.finiteMean im := by simp [prep, hp]
        rw [e1, e2]
        simp only [Option.isSome_some, if_true]
        have h3 : |v - A.mean im| ≤ |v - Spec.finiteMean im| + |A.mean im - Spec.finiteMean im| := by
          have := abs_sub_abs_le_abs_sub (v - A.mean im) (v - Spec.finiteMean im)
          have e : v - A.mean im - (v - Spec.finiteMean im) = -(A.mean im - Spec.finiteMean im) := by ring
          rw [e, abs_neg] at this
          linarith
        have h4 := abs_add_le (A.sub v (A.mean im) - (v - A.mean im)) (-(A.mean im - Spec.finiteMean im))
        rw [abs_neg] at h4
        have e : A.sub v (A.mean im) - (v - A.mean im) + -(A.mean im - Spec.finiteMean im)
            = A.sub v (A.mean im) - (v - Spec.finiteMean im) := by ring
        rw [e] at h4
        have h5 := mul_le_mul_of_nonneg_left h3 h0
        have h6 := mul_le_mul_of_nonneg_left h1 (by linarith : (0 : ℝ) ≤ 1 + δ)
        rw [← hcnt, ← hM] at h6
        linarith
    have hl : l2 (fun p => (prepA A true im p : ℂ) - (prep true im p : ℂ))
        ≤ l2 (fun p => ((δ * |prep true im p| : ℝ) : ℂ)) + l2 (fun p => (((1 + δ) * δ * if (im p).isSome then M else 0 : ℝ) : ℂ)) := by
      refine le_trans ?_ (l2_add _ _)
      apply l2_le_of_sq
      exact Finset.sum_le_sum fun p _ => pow_le_pow_left₀ (norm_nonneg _) (hpx p) 2
    have hl1 : l2 (fun p => ((δ * |prep true im p| : ℝ) : ℂ)) = δ * Spec.prepNorm true im := by
      rw [l2_real]
      unfold Spec.prepNorm
      simp only [mul_pow, sq_abs]
      rw [← Finset.mul_sum, Real.sqrt_mul (by positivity), Real.sqrt_sq h0]
    have hl2 : l2 (fun p => (((1 + δ) * δ * if (im p).isSome then M else 0 : ℝ) : ℂ)) ≤ (1 + δ) * δ * Spec.prepNorm false im := by
      rw [l2_real]
      simp only [mul_pow ((1 + δ) * δ)]
      rw [← Finset.mul_sum, Real.sqrt_mul (by positivity), Real.sqrt_sq (by positivity)]
      refine mul_le_mul_of_nonneg_left ?_ (by positivity)
      unfold Spec.prepNorm
      apply Real.sqrt_le_sqrt
      have e : ∑ p, (if (im p).isSome then M else 0) ^ 2 = cnt * M ^ 2 := by
        have : ∀ p, (if (im p).isSome then M else 0) ^ 2 = if (im p).isSome then M ^ 2 else 0 := by
          intro p; split_ifs <;> simp
        simp only [this]
        rw [← Finset.sum_filter, Finset.sum_const, nsmul_eq_mul]
      rw [e]
      by_cases hc : cnt = 0
      · rw [hc, zero_mul]; exact Finset.sum_nonneg fun _ _ => by positivity
      · have hcp : 0 < cnt := lt_of_le_of_ne (by rw [hcnt]; positivity) (Ne.symm hc)
        have hcs : (∑ p, |(im p).getD 0|) ^ 2 ≤ cnt * ∑ p, prep false im p ^ 2 := by
          have h1 := sq_sum_le_card_mul_sum_sq (s := univ.filter fun p => (im p).isSome) (f := fun p => |(im p).getD 0|)
          have h2 : ∑ p ∈ univ.filter (fun p => (im p).isSome), |(im p).getD 0| = ∑ p, |(im p).getD 0| := by
            rw [Finset.sum_filter]
            refine Finset.sum_congr rfl fun p _ => ?_
            cases im p <;> simp
          have h3 : ∑ p ∈ univ.filter (fun p => (im p).isSome), |(im p).getD 0| ^ 2 = ∑ p, prep false im p ^ 2 := by
            rw [Finset.sum_filter]
            refine Finset.sum_congr rfl fun p _ => ?_
            unfold prep
            cases im p <;> simp
          rw [h2, h3] at h1
          exact h1
        have : cnt * M ^ 2 = (∑ p, |(im p).getD 0|) ^ 2 / cnt := by rw [hM]; field_simp
        rw [this, div_le_iff₀ hcp, mul_comm]
        exact hcs
    have hd : l2 (fun p => (prepA A true im p : ℂ) - (prep true im p : ℂ)) ≤ Spec.prepNorm' δ true im - Spec.prepNorm true im := by
      unfold Spec.prepNorm'
      simp only [if_true]
      have e : (1 + δ) * (Spec.prepNorm true im + δ * Spec.prepNorm false im) - Spec.prepNorm true im
          = δ * Spec.prepNorm true im + (1 + δ) * δ * Spec.prepNorm false im := by ring
      rw [e]; linarith
    refine ⟨?_, hd⟩
    have h := l2_add (fun p => (prepA A true im p : ℂ) - (prep true im p : ℂ)) (fun p => (prep true im p : ℂ))
    simp only [sub_add_cancel] at h
    rw [l2_real (prep true im)] at h
    change _ ≤ _ + Spec.prepNorm true im at h
    linarith

/-! ### the three searches -/

/-- how far every computed correlation modulus can be from the exact one -/
noncomputable def Spec.tau (δ : ℝ) (zm : Bool) (im1 im2 : Fin ny × Fin nx → Pix) : ℝ :=
  (1 + δ) ^ 6 * (Spec.prepNorm' δ zm im1 * Spec.prepNorm' δ zm im2) - Spec.prepNorm zm im1 * Spec.prepNorm zm im2

omit [NeZero ny] [NeZero nx] in
theorem prepNorm_nonneg (zm : Bool) (im : Fin ny × Fin nx → Pix) : 0 ≤ Spec.prepNorm zm im := Real.sqrt_nonneg _

omit [NeZero ny] [NeZero nx] in
theorem prepNorm'_nonneg {δ : ℝ} (h0 : 0 ≤ δ) (zm : Bool) (im : Fin ny × Fin nx → Pix) : 0 ≤ Spec.prepNorm' δ zm im := by
  have h1 := prepNorm_nonneg true im
  have h2 := prepNorm_nonneg false im
  unfold Spec.prepNorm'
  split_ifs <;> positivity

omit [NeZero ny] [NeZero nx] in
theorem prepNorm_le {δ : ℝ} (h0 : 0 ≤ δ) (zm : Bool) (im : Fin ny × Fin nx → Pix) : Spec.prepNorm zm im ≤ Spec.prepNorm' δ zm im := by
  have h1 := prepNorm_nonneg true im
  have h2 := prepNorm_nonneg false im
  unfold Spec.prepNorm'
  cases zm
  · simp
  · simp only [if_true]
    have : 0 ≤ δ * Spec.prepNorm true im + (1 + δ) * δ * Spec.prepNorm false im := by positivity
    linarith

omit [NeZero ny] [NeZero nx] in
theorem tau_nonneg {δ : ℝ} (h0 : 0 ≤ δ) (zm : Bool) (im1 im2 : Fin ny × Fin nx → Pix) : 0 ≤ Spec.tau δ zm im1 im2 := by
  unfold Spec.tau
  have h1 := mul_le_mul (prepNorm_le h0 zm im1) (prepNorm_le h0 zm im2) (prepNorm_nonneg _ _) (prepNorm'_nonneg h0 _ _)
  have h2 : 1 ≤ (1 + δ) ^ 6 := one_le_pow₀ (by linarith)
  have h3 := mul_nonneg (prepNorm'_nonneg h0 zm im1) (prepNorm'_nonneg h0 zm im2)
  nlinarith

omit [NeZero ny] [NeZero nx] in
/-- fewer rounding errors are below the bound -/
theorem le_tau {δ : ℝ} (h0 : 0 ≤ δ) (zm : Bool) (im1 im2 : Fin ny × Fin nx → Pix) {k : ℕ} (hk : k ≤ 6) :
    (1 + δ) ^ k * (Spec.prepNorm' δ zm im1 * Spec.prepNorm' δ zm im2) - Spec.prepNorm zm im1 * Spec.prepNorm zm im2
      ≤ Spec.tau δ zm im1 im2 := by
  unfold Spec.tau
  have h2 : (1 + δ) ^ k ≤ (1 + δ) ^ 6 := pow_le_pow_right₀ (by linarith) hk
  have h3 := mul_le_mul_of_nonneg_right h2 (mul_nonneg (prepNorm'_nonneg h0 zm im1) (prepNorm'_nonneg h0 zm im2))
  linarith

/-- the computed cross spectrum -/
theorem crossA_near {A : Arith} {δ : ℝ} (hA : Spec.Accurate A δ) (zm : Bool) (im1 im2 : Fin ny × Fin nx → Pix) :
    (∑ k, ‖A.mul (A.fft (fun p => (prepA A zm im1 p : ℂ)) k) (conj (A.fft (fun p => (prepA A zm im2 p : ℂ)) k))‖
      ≤ (ny : ℝ) * nx * ((1 + δ) ^ 3 * (Spec.prepNorm' δ zm im1 * Spec.prepNorm' δ zm im2))) ∧
    (∑ k, ‖A.mul (A.fft (fun p => (prepA A zm im1 p : ℂ)) k) (conj (A.fft (fun p => (prepA A zm im2 p : ℂ)) k))
        - dft (fun p => (prep zm im1 p : ℂ)) k * conj (dft (fun p => (prep zm im2 p : ℂ)) k)‖
      ≤ (ny : ℝ) * nx * ((1 + δ) ^ 3 * (Spec.prepNorm' δ zm im1 * Spec.prepNorm' δ zm im2))
        - (ny : ℝ) * nx * (Spec.prepNorm zm im1 * Spec.prepNorm zm im2)) := by
  have c0 : (0 : ℝ) ≤ (ny : ℝ) * nx := by positivity
  obtain ⟨p1, q1⟩ := prep_near hA zm im1
  obtain ⟨p2, q2⟩ := prep_near hA zm im2
  obtain ⟨f1, g1⟩ := fft_near hA _ _ p1 q1
  obtain ⟨f2, g2⟩ := fft_near hA _ _ p2 q2
  have hF : l2 (dft fun p => (prep zm im1 p : ℂ)) ≤ Real.sqrt ((ny : ℝ) * nx) * Spec.prepNorm zm im1 := by
    rw [l2_dft, l2_real]; exact le_rfl
  obtain ⟨r1, r2⟩ := cross_near hA _ _ _ _ f1 f2 hF g1 g2
  have hs : Real.sqrt ((ny : ℝ) * nx) * Real.sqrt ((ny : ℝ) * nx) = (ny : ℝ) * nx := Real.mul_self_sqrt c0
  have e1 : (1 + δ) * (Real.sqrt ((ny : ℝ) * nx) * ((1 + δ) * Spec.prepNorm' δ zm im1)
      * (Real.sqrt ((ny : ℝ) * nx) * ((1 + δ) * Spec.prepNorm' δ zm im2)))
      = (ny : ℝ) * nx * ((1 + δ) ^ 3 * (Spec.prepNorm' δ zm im1 * Spec.prepNorm' δ zm im2)) := by
    linear_combination ((1 + δ) ^ 3 * (Spec.prepNorm' δ zm im1 * Spec.prepNorm' δ zm im2)) * hs
  have e2 : Real.sqrt ((ny : ℝ) * nx) * Spec.prepNorm zm im1 * (Real.sqrt ((ny : ℝ) * nx) * Spec.prepNorm zm im2)
      = (ny : ℝ) * nx * (Spec.prepNorm zm im1 * Spec.prepNorm zm im2) := by
    linear_combination (Spec.prepNorm zm im1 * Spec.prepNorm zm im2) * hs
  rw [e1] at r1 r2
  rw [e2] at r2
  exact ⟨r1, r2⟩

theorem zeroMiddleA_eq {m n : ℕ} (mo : Option ℕ) (v : Fin m × Fin n → ℂ) : zeroMiddleA mo v = Spec.kept mo v := by
  have h := zeroMiddle_eq mo v
  funext i
  have h2 := congrFun h i
  have h3 : zeroMiddle mo (cArr v) i = some (zeroMiddleA mo v i) := by
    unfold zeroMiddle zeroMiddleA
    cases mo with
    | none => rfl
    | some k =>
      simp only
      split_ifs <;> rfl
  rw [h3] at h2
  simpa [cArr] using h2

theorem abs_kept_near {A : Arith} {δ : ℝ} (hA : Spec.Accurate A δ) {m n : ℕ} (mo : Option ℕ) (v : Fin m × Fin n → ℂ) (f : Fin m × Fin n → ℝ)
    {t : ℝ} (ht : 0 ≤ t) (h : ∀ i, |A.abs (v i) - f i| ≤ t) (i : Fin m × Fin n) :
    |A.abs (zeroMiddleA mo v i) - Spec.kept mo f i| ≤ t := by
  classical
  rw [zeroMiddleA_eq]
  unfold Spec.kept
  split_ifs
  · have := hA.abs 0
    simp only [norm_zero, sub_zero, mul_zero] at this
    rw [sub_zero]
    exact this.trans ht
  · exact h i

theorem wholeA_near {A : Arith} {δ : ℝ} (hA : Spec.Accurate A δ) (zm : Bool) (im1 im2 : Fin ny × Fin nx → Pix) (mo : Option ℕ) :
    ∃ g : Fin ny × Fin nx → ℝ,
      (∀ i, |g i - Spec.kept mo (fun i : Fin ny × Fin nx =>
        ‖Spec.cc (prep zm im1) (prep zm im2) ((i.1 : ℕ) : ℝ) ((i.2 : ℕ) : ℝ)‖) i| ≤ Spec.tau δ zm im1 im2) ∧
      wholeA A (A.fft fun p => (prepA A zm im1 p : ℂ)) (A.fft fun p => (prepA A zm im2 p : ℂ)) mo
        = ((wrapPeak ny (Np.argmax g).1 : ℝ), (wrapPeak nx (Np.argmax g).2 : ℝ)) := by
  refine ⟨_, ?_, rfl⟩
  apply abs_kept_near hA _ _ _ (tau_nonneg hA.nonneg _ _ _)
  intro i
  obtain ⟨c1, c2⟩ := crossA_near hA zm im1 im2
  obtain ⟨d1, d2⟩ := ifft_near hA _ _ i c1 c2
  have h := near_abs hA d1 d2
  rw [idft_cross] at h
  refine h.trans (le_trans (le_of_eq ?_) (le_tau hA.nonneg zm im1 im2 (show 5 ≤ 6 by norm_num)))
  have c0 : (ny : ℝ) * nx ≠ 0 := by have := NeZero.ne ny; have := NeZero.ne nx; positivity
  rw [mul_div_cancel_left₀ _ c0, mul_div_cancel_left₀ _ c0]
  ring

theorem ifftshift_ccLargeA (A : Arith) (f g : Fin ny × Fin nx → ℂ) :
    Np.ifftshift2 (ccLargeA A f g) = fun K => ∑ k : Fin ny × Fin nx,
      if Spec.wrap (2 * ny) (Np.fftfreqInt ny k.1) = K.1 ∧ Spec.wrap (2 * nx) (Np.fftfreqInt nx k.2) = K.2
        then A.mul (f k) (conj (g k)) else 0 := by
  funext K
  unfold Np.ifftshift2 ccLargeA
  simp only
  obtain ⟨a1, a2⟩ := ccLarge_axis (n := ny) K.1
  obtain ⟨b1, b2⟩ := ccLarge_axis (n := nx) K.2
  split_ifs with h
  · have ha := a1 h.1 (by have := Nat.pos_of_ne_zero (NeZero.ne ny); omega)
    have hb := b1 h.2 (by have := Nat.pos_of_ne_zero (NeZero.ne nx); omega)
    rw [Finset.sum_eq_single (Np.fftshiftIdx ⟨((Np.ifftshiftIdx K.1 : Fin (2 * ny)) : ℕ) - (ny - ny / 2), by
        have := Nat.pos_of_ne_zero (NeZero.ne ny); omega⟩,
      Np.fftshiftIdx ⟨((Np.ifftshiftIdx K.2 : Fin (2 * nx)) : ℕ) - (nx - nx / 2), by have := Nat.pos_of_ne_zero (NeZero.ne nx); omega⟩)]
    · rw [if_pos ⟨(ha _).2 rfl, (hb _).2 rfl⟩]
      rfl
    · intro k _ hk
      rw [if_neg]
      rintro ⟨h1, h2⟩
      exact hk (Prod.ext ((ha _).1 h1) ((hb _).1 h2))
    · intro h; exact absurd (mem_univ _) h
  · symm
    refine Finset.sum_eq_zero fun k _ => ?_
    rw [if_neg]
    rintro ⟨h1, h2⟩
    by_cases hy : ny - ny / 2 ≤ ((Np.ifftshiftIdx K.1 : Fin (2 * ny)) : ℕ) ∧
        ((Np.ifftshiftIdx K.1 : Fin (2 * ny)) : ℕ) < ny + (ny - 1) / 2 + 1
    · exact b2 (fun hx => h ⟨hy, hx⟩) _ h2
    · exact a2 hy _ h1

/-- embedding a spectrum in a larger one does not increase the sum of the moduli -/
theorem sum_embed_le (c : Fin ny × Fin nx → ℂ) :
    ∑ K : Fin (2 * ny) × Fin (2 * nx), ‖∑ k : Fin ny × Fin nx,
      if Spec.wrap (2 * ny) (Np.fftfreqInt ny k.1) = K.1 ∧ Spec.wrap (2 * nx) (Np.fftfreqInt nx k.2) = K.2
        then c k else 0‖ ≤ ∑ k, ‖c k‖ := by
  refine (Finset.sum_le_sum fun K _ => norm_sum_le _ _).trans ?_
  rw [Finset.sum_comm]
  refine Finset.sum_le_sum fun k _ => ?_
  rw [Finset.sum_eq_single (Spec.wrap (2 * ny) (Np.fftfreqInt ny k.1), Spec.wrap (2 * nx) (Np.fftfreqInt nx k.2))]
  · rw [if_pos ⟨rfl, rfl⟩]
  · intro K _ hK
    rw [if_neg, norm_zero]
    rintro ⟨h1, h2⟩
    exact hK (Prod.ext h1.symm h2.symm)
  · intro h; exact absurd (mem_univ _) h

theorem halfA_near {A : Arith} {δ : ℝ} (hA : Spec.Accurate A δ) (zm : Bool) (im1 im2 : Fin ny × Fin nx → Pix) (mo : Option ℕ) :
    ∃ g : Fin (2 * ny) × Fin (2 * nx) → ℝ,
      (∀ i, |g i - Spec.kept mo (fun i : Fin (2 * ny) × Fin (2 * nx) =>
        ‖Spec.cc (prep zm im1) (prep zm im2) (((i.1 : ℕ) : ℝ) / 2) (((i.2 : ℕ) : ℝ) / 2)‖) i| ≤ Spec.tau δ zm im1 im2) ∧
      halfA A (A.fft fun p => (prepA A zm im1 p : ℂ)) (A.fft fun p => (prepA A zm im2 p : ℂ)) mo
        = ((wrapPeak (2 * ny) (Np.argmax g).1 : ℝ) / 2, (wrapPeak (2 * nx) (Np.argmax g).2 : ℝ) / 2) := by
  obtain ⟨c1, c2⟩ := crossA_near hA zm im1 im2
  set cc := zeroMiddleA mo (A.ifft (Np.ifftshift2 (ccLargeA A (A.fft fun p => (prepA A zm im1 p : ℂ))
    (A.fft fun p => (prepA A zm im2 p : ℂ))))) with hcc
  refine ⟨fun i => 4 * A.abs (cc i), ?_, ?_⟩
  · intro i
    have h := abs_kept_near hA mo (A.ifft (Np.ifftshift2 (ccLargeA A (A.fft fun p => (prepA A zm im1 p : ℂ))
      (A.fft fun p => (prepA A zm im2 p : ℂ))))) (fun i : Fin (2 * ny) × Fin (2 * nx) =>
        (1 / 4) * ‖Spec.cc (prep zm im1) (prep zm im2) (((i.1 : ℕ) : ℝ) / 2) (((i.2 : ℕ) : ℝ) / 2)‖) (t := Spec.tau δ zm im1 im2 / 4)
      (by have := tau_nonneg hA.nonneg zm im1 im2; linarith) (fun i => by
        rw [ifftshift_ccLargeA]
        obtain ⟨d1, d2⟩ := ifft_near hA _ (fun K => ∑ k : Fin ny × Fin nx,
          if Spec.wrap (2 * ny) (Np.fftfreqInt ny k.1) = K.1 ∧ Spec.wrap (2 * nx) (Np.fftfreqInt nx k.2) = K.2
            then dft (fun p => (prep zm im1 p : ℂ)) k * conj (dft (fun p => (prep zm im2 p : ℂ)) k) else 0) i
          ((sum_embed_le _).trans c1) (by
            refine le_trans ?_ ((sum_embed_le _).trans c2)
            refine le_of_eq (Finset.sum_congr rfl fun K _ => ?_)
            rw [← Finset.sum_sub_distrib]
            congr 1
            refine Finset.sum_congr rfl fun k _ => ?_
            split_ifs <;> simp)
        have h := near_abs hA d1 d2
        rw [idft_ccLarge, norm_mul] at h
        have e : ‖(1 / 4 : ℂ)‖ = 1 / 4 := by norm_num
        rw [e] at h
        refine h.trans ?_
        have h5 := le_tau hA.nonneg zm im1 im2 (show 5 ≤ 6 by norm_num)
        have c0 : (ny : ℝ) ≠ 0 := by exact_mod_cast NeZero.ne ny
        have c0' : (nx : ℝ) ≠ 0 := by exact_mod_cast NeZero.ne nx
        have e2 : ∀ x : ℝ, (ny : ℝ) * nx * x / (((2 * ny : ℕ) : ℝ) * ((2 * nx : ℕ) : ℝ)) = x / 4 := by
          intro x; push_cast; field_simp; ring
        rw [e2, e2]
        calc _ = ((1 + δ) ^ 5 * (Spec.prepNorm' δ zm im1 * Spec.prepNorm' δ zm im2) - Spec.prepNorm zm im1 * Spec.prepNorm zm im2) / 4 := by ring
          _ ≤ _ := by linarith) i
    rw [← hcc] at h
    have e : Spec.kept mo (fun i : Fin (2 * ny) × Fin (2 * nx) =>
        (1 / 4) * ‖Spec.cc (prep zm im1) (prep zm im2) (((i.1 : ℕ) : ℝ) / 2) (((i.2 : ℕ) : ℝ) / 2)‖) i
        = (1 / 4) * Spec.kept mo (fun i : Fin (2 * ny) × Fin (2 * nx) =>
        ‖Spec.cc (prep zm im1) (prep zm im2) (((i.1 : ℕ) : ℝ) / 2) (((i.2 : ℕ) : ℝ) / 2)‖) i := by
      unfold Spec.kept; split_ifs <;> simp
    rw [e] at h
    rw [abs_le] at h ⊢
    constructor <;> linarith [h.1, h.2]
  · rw [argmax_smul 4 (by norm_num)]
    rfl

theorem refineA_near {A : Arith} {δ : ℝ} (hA : Spec.Accurate A δ) (zm : Bool) (im1 im2 : Fin ny × Fin nx → Pix) (usfac : ℕ) (hu : usfac ≠ 0)
    (row2 col2 : ℝ) [NeZero ⌈(usfac : ℝ) * (3 / 2)⌉₊] :
    ∃ g : Fin ⌈(usfac : ℝ) * (3 / 2)⌉₊ × Fin ⌈(usfac : ℝ) * (3 / 2)⌉₊ → ℝ,
      (∀ i, |g i - ‖Spec.cc (prep zm im1) (prep zm im2) (Spec.refineAt usfac row2 i.1) (Spec.refineAt usfac col2 i.2)‖|
        ≤ Spec.tau δ zm im1 im2) ∧
      refineA A (A.fft fun p => (prepA A zm im1 p : ℂ)) (A.fft fun p => (prepA A zm im2 p : ℂ)) usfac row2 col2
        = .ok (Spec.refineAt usfac row2 (Np.argmax g).1, Spec.refineAt usfac col2 (Np.argmax g).2) := by
  have hu' : (0 : ℝ) < usfac := by exact_mod_cast Nat.pos_of_ne_zero hu
  obtain ⟨c1, c2⟩ := crossA_near hA zm im2 im1
  set roff : ℝ := ((⌈(usfac : ℝ) * (3 / 2)⌉₊ / 2 : ℕ) : ℝ) - (pyRound (row2 * usfac) : ℝ) / usfac * usfac with hroff
  set coff : ℝ := ((⌈(usfac : ℝ) * (3 / 2)⌉₊ / 2 : ℕ) : ℝ) - (pyRound (col2 * usfac) : ℝ) / usfac * usfac with hcoff
  set ups := A.dftups (fun k => A.mul (A.fft (fun p => (prepA A zm im2 p : ℂ)) k) (conj (A.fft (fun p => (prepA A zm im1 p : ℂ)) k)))
    ⌈(usfac : ℝ) * (3 / 2)⌉₊ usfac roff coff with hups
  refine ⟨fun i => (usfac : ℝ) ^ 2 * A.abs (A.div (conj (ups i)) ((ny : ℝ) * nx * (usfac : ℝ) ^ 2)), ?_, ?_⟩
  · intro i
    obtain ⟨d1, d2⟩ := dftups_near hA _ (fun k => dft (fun p => (prep zm im2 p : ℂ)) k * conj (dft (fun p => (prep zm im1 p : ℂ)) k))
      ⌈(usfac : ℝ) * (3 / 2)⌉₊ usfac roff coff hu'.ne' i c1 c2
    have c0 : (0 : ℝ) < (ny : ℝ) * nx := by
      have := Nat.pos_of_ne_zero (NeZero.ne ny); have := Nat.pos_of_ne_zero (NeZero.ne nx); positivity
    have hr : (0 : ℝ) < (ny : ℝ) * nx * (usfac : ℝ) ^ 2 := by positivity
    rw [← hups] at d1 d2
    -- divide
    have nd : ∀ z : ℂ, ‖z / (((ny : ℝ) * nx * (usfac : ℝ) ^ 2 : ℝ) : ℂ)‖ = ‖z‖ / ((ny : ℝ) * nx * (usfac : ℝ) ^ 2) := by
      intro z
      rw [norm_div, Complex.norm_real, Real.norm_of_nonneg hr.le]
    have e1 : ‖conj (ups i) / (((ny : ℝ) * nx * (usfac : ℝ) ^ 2 : ℝ) : ℂ)‖
        ≤ ((1 + δ) ^ 4 * (Spec.prepNorm' δ zm im2 * Spec.prepNorm' δ zm im1)) / (usfac : ℝ) ^ 2 := by
      rw [nd, RCLike.norm_conj, div_le_iff₀ hr]
      refine d1.trans (le_of_eq ?_)
      field_simp
    have hcc := dftupsVal_cc (prep zm im1) (prep zm im2) usfac hu row2 col2 i
    rw [← hroff, ← hcoff] at hcc
    have e2 : ‖conj (ups i) / (((ny : ℝ) * nx * (usfac : ℝ) ^ 2 : ℝ) : ℂ)
        - ((1 / (usfac : ℝ) ^ 2 : ℝ) : ℂ) * Spec.cc (prep zm im1) (prep zm im2) (Spec.refineAt usfac row2 i.1) (Spec.refineAt usfac col2 i.2)‖
        ≤ ((1 + δ) ^ 4 * (Spec.prepNorm' δ zm im2 * Spec.prepNorm' δ zm im1)) / (usfac : ℝ) ^ 2
          - (Spec.prepNorm zm im2 * Spec.prepNorm zm im1) / (usfac : ℝ) ^ 2 := by
      rw [← hcc]
      have e3 : (ny : ℂ) * nx * (usfac : ℂ) ^ 2 = (((ny : ℝ) * nx * (usfac : ℝ) ^ 2 : ℝ) : ℂ) := by push_cast; rfl
      rw [e3, ← sub_div, nd, ← map_sub, RCLike.norm_conj, div_le_iff₀ hr]
      refine d2.trans (le_of_eq ?_)
      field_simp
    obtain ⟨g1, g2⟩ := near_step hA.nonneg e1 e2 (hA.div (conj (ups i)) _ hr.ne')
    have h := near_abs hA g1 g2
    rw [norm_mul, Complex.norm_real, Real.norm_of_nonneg (by positivity)] at h
    have h6 := le_tau hA.nonneg zm im1 im2 (le_refl 6)
    have hu2 : (0 : ℝ) < (usfac : ℝ) ^ 2 := by positivity
    have e4 : (usfac : ℝ) ^ 2 * A.abs (A.div (conj (ups i)) ((ny : ℝ) * nx * (usfac : ℝ) ^ 2))
        - ‖Spec.cc (prep zm im1) (prep zm im2) (Spec.refineAt usfac row2 i.1) (Spec.refineAt usfac col2 i.2)‖
        = (usfac : ℝ) ^ 2 * (A.abs (A.div (conj (ups i)) ((ny : ℝ) * nx * (usfac : ℝ) ^ 2))
          - 1 / (usfac : ℝ) ^ 2 * ‖Spec.cc (prep zm im1) (prep zm im2) (Spec.refineAt usfac row2 i.1) (Spec.refineAt usfac col2 i.2)‖) := by
      field_simp
    rw [e4, abs_mul, abs_of_pos hu2]
    refine (mul_le_mul_of_nonneg_left h hu2.le).trans (le_trans (le_of_eq ?_) h6)
    field_simp
  · rw [argmax_smul _ (by positivity)]
    unfold refineA
    simp only
    rw [dif_pos (NeZero.ne _)]
    rfl

end

end ImgReg
