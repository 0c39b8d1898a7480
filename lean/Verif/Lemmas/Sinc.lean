import Verif.Lemmas.Scale
import Mathlib.Analysis.SpecialFunctions.Trigonometric.Basic
import Mathlib.Tactic.LinearCombination

/-!
# The periodic sinc kernel

`Spec.psinc` is the closed form of the interpolation kernel; the lemmas sum the Fourier series.
-/

open Complex Finset
open scoped ComplexConjugate

namespace ImgReg

/-- The periodic sinc (Dirichlet) kernel of an `n`-sample period, at the distance `u` (pixels):
`sin(πu)/(n sin(πu/n))` for odd `n`, `sin(πu) cos(πu/n)/(n sin(πu/n))` for even `n`, and `1` where
`sin(πu/n) = 0`, i.e. at multiples of the period. -/
noncomputable def Spec.psinc (n : ℕ) (u : ℝ) : ℝ :=
  open Classical in
  if Real.sin (Real.pi * u / n) = 0 then 1
  else if n % 2 = 0 then
    Real.sin (Real.pi * u) * Real.cos (Real.pi * u / n) / (n * Real.sin (Real.pi * u / n))
  else Real.sin (Real.pi * u) / (n * Real.sin (Real.pi * u / n))

/-- The unpaired (Nyquist) term of an even-length axis: `sin(πu)/n`, absent for odd `n`. -/
noncomputable def Spec.nyq (n : ℕ) (u : ℝ) : ℝ :=
  if n % 2 = 0 then Real.sin (Real.pi * u) / n else 0

/-- sum over the FFT frequencies in increasing order -/
theorem sum_fftfreqInt {M : Type} [AddCommMonoid M] (n : ℕ) (g : ℤ → M) :
    ∑ k : Fin n, g (Np.fftfreqInt n k) = ∑ i ∈ range n, g ((i : ℤ) - (n / 2 : ℕ)) := by
  rw [Fin.sum_univ_eq_sum_range (fun k => g (Np.fftfreqInt n k)) n]
  obtain ⟨p, hp⟩ : ∃ p, n = p + n / 2 := ⟨n - n / 2, by omega⟩
  generalize hq : n / 2 = q at hp
  have hlhs : ∑ k ∈ range n, g (Np.fftfreqInt n k)
      = ∑ k ∈ range p, g (k : ℤ) + ∑ k ∈ range q, g ((k : ℤ) - q) := by
    have : range n = range (p + q) := by rw [hp]
    rw [this, sum_range_add]
    congr 1
    · refine sum_congr rfl fun k hk => ?_
      have hk' := mem_range.1 hk
      rw [Np.fftfreqInt_eq n k (by omega), if_pos (by omega)]
    · refine sum_congr rfl fun k hk => ?_
      have hk' := mem_range.1 hk
      rw [Np.fftfreqInt_eq n (p + k) (by omega), if_neg (by omega)]
      congr 1
      push_cast
      omega
  have hrhs : ∑ i ∈ range n, g ((i : ℤ) - q)
      = ∑ k ∈ range q, g ((k : ℤ) - q) + ∑ k ∈ range p, g (k : ℤ) := by
    have : range n = range (q + p) := by rw [hp, add_comm]
    rw [this, sum_range_add]
    congr 1
    refine sum_congr rfl fun k _ => ?_
    congr 1
    push_cast
    ring
  rw [hlhs, hrhs, add_comm]

/-- telescoping cosine sum over `n` consecutive integers starting at `a` -/
theorem sum_cos_tele (θ a : ℝ) (n : ℕ) :
    2 * Real.sin (θ / 2) * ∑ i ∈ range n, Real.cos (((i : ℝ) + a) * θ)
      = Real.sin ((n + a - 1 / 2) * θ) - Real.sin ((a - 1 / 2) * θ) := by
  induction n with
  | zero => simp
  | succ n ih =>
    rw [sum_range_succ, mul_add, ih]
    have h1 : (((n + 1 : ℕ) : ℝ) + a - 1 / 2) * θ = ((n : ℝ) + a) * θ + θ / 2 := by push_cast; ring
    have h2 : ((n : ℝ) + a - 1 / 2) * θ = ((n : ℝ) + a) * θ - θ / 2 := by ring
    rw [h1, h2, Real.sin_add, Real.sin_sub]
    ring

/-- telescoping sine sum -/
theorem sum_sin_tele (θ a : ℝ) (n : ℕ) :
    2 * Real.sin (θ / 2) * ∑ i ∈ range n, Real.sin (((i : ℝ) + a) * θ)
      = Real.cos ((a - 1 / 2) * θ) - Real.cos ((n + a - 1 / 2) * θ) := by
  induction n with
  | zero => simp
  | succ n ih =>
    rw [sum_range_succ, mul_add, ih]
    have h1 : (((n + 1 : ℕ) : ℝ) + a - 1 / 2) * θ = ((n : ℝ) + a) * θ + θ / 2 := by push_cast; ring
    have h2 : ((n : ℝ) + a - 1 / 2) * θ = ((n : ℝ) + a) * θ - θ / 2 := by ring
    rw [h1, h2, Real.cos_add, Real.cos_sub]
    ring

/-- if `sin(πu/n) = 0` then `u` is a multiple of the period -/
theorem period_of_sin_zero {n : ℕ} [NeZero n] {u : ℝ} (h : Real.sin (Real.pi * u / n) = 0) :
    ∃ k : ℤ, u = k * n := by
  obtain ⟨k, hk⟩ := Real.sin_eq_zero_iff.1 h
  have hn : (n : ℝ) ≠ 0 := Nat.cast_ne_zero.2 (NeZero.ne n)
  refine ⟨k, ?_⟩
  have hpi := Real.pi_ne_zero
  field_simp at hk
  exact hk.symm

/-- `(1/n) Σ_k ex(f_k u) = psinc(u) - i nyq(u)` -/
theorem sum_ex_fftfreq {n : ℕ} [NeZero n] (u : ℝ) :
    (1 / (n : ℂ)) * ∑ k : Fin n, ex (Np.fftfreq n k * u)
      = ((Spec.psinc n u : ℝ) : ℂ) - ((Spec.nyq n u : ℝ) : ℂ) * I := by
  have hn : (n : ℝ) ≠ 0 := Nat.cast_ne_zero.2 (NeZero.ne n)
  have hnc : (n : ℂ) ≠ 0 := Nat.cast_ne_zero.2 (NeZero.ne n)
  set q : ℕ := n / 2 with hq
  set θ : ℝ := 2 * (Real.pi * u / n) with hθ
  have hsum : ∑ k : Fin n, ex (Np.fftfreq n k * u)
      = ∑ i ∈ range n, ex (((i : ℝ) - q) * u / n) := by
    have := sum_fftfreqInt n (fun z => ex ((z : ℝ) * u / n))
    rw [show (∑ k : Fin n, ex (Np.fftfreq n k * u))
      = ∑ k : Fin n, ex ((Np.fftfreqInt n k : ℝ) * u / n) from sum_congr rfl fun k _ => by
        rw [Np.fftfreq_eq]; congr 1; ring]
    rw [this]
    refine sum_congr rfl fun i _ => ?_
    push_cast
    rfl
  rw [hsum]
  have hre : (∑ i ∈ range n, ex (((i : ℝ) - q) * u / n)).re
      = ∑ i ∈ range n, Real.cos (((i : ℝ) + (-(q : ℝ))) * θ) := by
    rw [Complex.re_sum]
    refine sum_congr rfl fun i _ => ?_
    rw [ex_re]; congr 1; rw [hθ]; ring
  have him : (∑ i ∈ range n, ex (((i : ℝ) - q) * u / n)).im
      = ∑ i ∈ range n, Real.sin (((i : ℝ) + (-(q : ℝ))) * θ) := by
    rw [Complex.im_sum]
    refine sum_congr rfl fun i _ => ?_
    rw [ex_im]; congr 1; rw [hθ]; ring
  have hdiv : ∀ z : ℂ, ((1 / (n : ℂ)) * z).re = z.re / n ∧ ((1 / (n : ℂ)) * z).im = z.im / n := by
    intro z
    have : (1 / (n : ℂ)) * z = ((1 / n : ℝ) : ℂ) * z := by push_cast; ring
    rw [this, Complex.re_ofReal_mul, Complex.im_ofReal_mul]
    constructor <;> ring
  have hθ2 : θ / 2 = Real.pi * u / n := by rw [hθ]; ring
  have hs0 : Real.sin (Real.pi * u / n) = 0 →
      (∀ i : ℕ, Real.cos (((i : ℝ) + (-(q : ℝ))) * θ) = 1 ∧
        Real.sin (((i : ℝ) + (-(q : ℝ))) * θ) = 0) := by
    intro h i
    obtain ⟨k, hk⟩ := period_of_sin_zero h
    have : ((i : ℝ) + (-(q : ℝ))) * θ = ((((i : ℤ) - q) * k : ℤ) : ℝ) * (2 * Real.pi) := by
      rw [hθ, hk]; push_cast; field_simp; ring
    rw [this]
    constructor
    · exact Real.cos_int_mul_two_pi _
    · rw [show ((((i : ℤ) - q) * k : ℤ) : ℝ) * (2 * Real.pi)
        = ((2 * (((i : ℤ) - q) * k) : ℤ) : ℝ) * Real.pi by push_cast; ring]
      exact Real.sin_int_mul_pi _
  have hc := sum_cos_tele θ (-(q : ℝ)) n
  have hs := sum_sin_tele θ (-(q : ℝ)) n
  rw [hθ2] at hc hs
  have hnθ : (n : ℝ) * θ = 2 * (Real.pi * u) := by rw [hθ]; field_simp
  apply Complex.ext
  · rw [(hdiv _).1, hre]
    have hR : (((Spec.psinc n u : ℝ) : ℂ) - ((Spec.nyq n u : ℝ) : ℂ) * I).re = Spec.psinc n u := by
      simp
    rw [hR]
    unfold Spec.psinc
    by_cases h0 : Real.sin (Real.pi * u / n) = 0
    · rw [if_pos h0, sum_congr rfl fun i _ => (hs0 h0 i).1]
      simp [hn]
    · rw [if_neg h0]
      by_cases he : n % 2 = 0
      · rw [if_pos he]
        have hnq : (n : ℝ) = 2 * q := by
          have : n = 2 * q := by omega
          exact_mod_cast this
        have h1 : ((n : ℝ) + -(q : ℝ) - 1 / 2) * θ = Real.pi * u - Real.pi * u / n := by
          have : ((n : ℝ) + -(q : ℝ) - 1 / 2) * θ = ((n : ℝ) * θ) / 2 - θ / 2 := by
            rw [hnq]; ring
          rw [this, hnθ, hθ2]; ring
        have h2 : (-(q : ℝ) - 1 / 2) * θ = -(Real.pi * u + Real.pi * u / n) := by
          have : (-(q : ℝ) - 1 / 2) * θ = -(((n : ℝ) * θ) / 2 + θ / 2) := by
            rw [hnq]; ring
          rw [this, hnθ, hθ2]; ring
        rw [h1, h2, Real.sin_neg, Real.sin_add, Real.sin_sub] at hc
        rw [div_eq_div_iff hn (mul_ne_zero hn h0)]
        linear_combination (n : ℝ) / 2 * hc
      · rw [if_neg he]
        have hnq : (n : ℝ) = 2 * q + 1 := by
          have : n = 2 * q + 1 := by omega
          exact_mod_cast this
        have h1 : ((n : ℝ) + -(q : ℝ) - 1 / 2) * θ = Real.pi * u := by
          have : ((n : ℝ) + -(q : ℝ) - 1 / 2) * θ = ((n : ℝ) * θ) / 2 := by rw [hnq]; ring
          rw [this, hnθ]; ring
        have h2 : (-(q : ℝ) - 1 / 2) * θ = -(Real.pi * u) := by
          have : (-(q : ℝ) - 1 / 2) * θ = -(((n : ℝ) * θ) / 2) := by rw [hnq]; ring
          rw [this, hnθ]; ring
        rw [h1, h2, Real.sin_neg] at hc
        rw [div_eq_div_iff hn (mul_ne_zero hn h0)]
        linear_combination (n : ℝ) / 2 * hc
  · rw [(hdiv _).2, him]
    have hR : (((Spec.psinc n u : ℝ) : ℂ) - ((Spec.nyq n u : ℝ) : ℂ) * I).im = -Spec.nyq n u := by
      simp
    rw [hR]
    unfold Spec.nyq
    by_cases h0 : Real.sin (Real.pi * u / n) = 0
    · rw [sum_congr rfl fun i _ => (hs0 h0 i).2]
      obtain ⟨k, hk⟩ := period_of_sin_zero h0
      have : Real.sin (Real.pi * u) = 0 := by
        rw [hk, show Real.pi * ((k : ℝ) * n) = ((k * n : ℤ) : ℝ) * Real.pi by push_cast; ring]
        exact Real.sin_int_mul_pi _
      rw [this]
      split_ifs <;> simp
    · by_cases he : n % 2 = 0
      · rw [if_pos he]
        have hnq : (n : ℝ) = 2 * q := by
          have : n = 2 * q := by omega
          exact_mod_cast this
        have h1 : ((n : ℝ) + -(q : ℝ) - 1 / 2) * θ = Real.pi * u - Real.pi * u / n := by
          have : ((n : ℝ) + -(q : ℝ) - 1 / 2) * θ = ((n : ℝ) * θ) / 2 - θ / 2 := by
            rw [hnq]; ring
          rw [this, hnθ, hθ2]; ring
        have h2 : (-(q : ℝ) - 1 / 2) * θ = -(Real.pi * u + Real.pi * u / n) := by
          have : (-(q : ℝ) - 1 / 2) * θ = -(((n : ℝ) * θ) / 2 + θ / 2) := by
            rw [hnq]; ring
          rw [this, hnθ, hθ2]; ring
        rw [h1, h2, Real.cos_neg, Real.cos_add, Real.cos_sub] at hs
        rw [← neg_div, div_eq_div_iff hn hn]
        have := mul_left_cancel₀ h0 (show Real.sin (Real.pi * u / n) *
            ∑ i ∈ range n, Real.sin (((i : ℝ) + (-(q : ℝ))) * θ)
          = Real.sin (Real.pi * u / n) * -Real.sin (Real.pi * u) by linear_combination hs / 2)
        rw [this]
      · rw [if_neg he]
        have hnq : (n : ℝ) = 2 * q + 1 := by
          have : n = 2 * q + 1 := by omega
          exact_mod_cast this
        have h1 : ((n : ℝ) + -(q : ℝ) - 1 / 2) * θ = Real.pi * u := by
          have : ((n : ℝ) + -(q : ℝ) - 1 / 2) * θ = ((n : ℝ) * θ) / 2 := by rw [hnq]; ring
          rw [this, hnθ]; ring
        have h2 : (-(q : ℝ) - 1 / 2) * θ = -(Real.pi * u) := by
          have : (-(q : ℝ) - 1 / 2) * θ = -(((n : ℝ) * θ) / 2) := by rw [hnq]; ring
          rw [this, hnθ]; ring
        rw [h1, h2, Real.cos_neg, sub_self] at hs
        have := mul_left_cancel₀ h0 (show Real.sin (Real.pi * u / n) *
            ∑ i ∈ range n, Real.sin (((i : ℝ) + (-(q : ℝ))) * θ)
          = Real.sin (Real.pi * u / n) * 0 by linear_combination hs / 2)
        rw [this]; simp

/-- even-ness of the kernels -/
theorem psinc_neg (n : ℕ) (u : ℝ) : Spec.psinc n (-u) = Spec.psinc n u := by
  unfold Spec.psinc
  have h1 : Real.pi * -u = -(Real.pi * u) := by ring
  have h2 : Real.pi * -u / n = -(Real.pi * u / n) := by ring
  rw [h2, h1, Real.sin_neg, Real.sin_neg, Real.cos_neg]
  simp only [neg_eq_zero]
  split_ifs with a b
  · rfl
  · rw [mul_neg, neg_mul, neg_div_neg_eq]
  · rw [mul_neg, neg_div_neg_eq]

theorem nyq_neg (n : ℕ) (u : ℝ) : Spec.nyq n (-u) = -Spec.nyq n u := by
  unfold Spec.nyq
  have h1 : Real.pi * -u = -(Real.pi * u) := by ring
  rw [h1, Real.sin_neg]
  split_ifs <;> ring

/-- the interpolant as a sum over pixels -/
theorem interpC_kernel {n : ℕ} [NeZero n] (x : Fin n → ℂ) (t : ℝ) :
    interpC x t = ∑ j : Fin n, x j * (((Spec.psinc n (t - ((j : ℕ) : ℝ)) : ℝ) : ℂ)
      + ((Spec.nyq n (t - ((j : ℕ) : ℝ)) : ℝ) : ℂ) * I) := by
  have hk : ∀ (j k : Fin n), e j k * ex (-(Np.fftfreq n k * t))
      = ex (Np.fftfreq n k * (((j : ℕ) : ℝ) - t)) := by
    intro j k
    rw [FFTIndex.e_symm, ← Np.ex_int_mul_fftfreq (((j : ℕ) : ℤ)) k j (Int.ModEq.refl _), ← ex_add]
    congr 1; push_cast; ring
  unfold interpC
  have : ∀ k : Fin n, idft x k * ex (-(Np.fftfreq n k * t))
      = ∑ j : Fin n, x j * ((1 / (n : ℂ)) * ex (Np.fftfreq n k * (((j : ℕ) : ℝ) - t))) := by
    intro k
    unfold idft
    rw [Finset.mul_sum, Finset.sum_mul]
    refine Finset.sum_congr rfl fun j _ => ?_
    rw [← hk j k, Fintype.card_fin]
    ring
  simp_rw [this]
  rw [Finset.sum_comm]
  refine Finset.sum_congr rfl fun j _ => ?_
  rw [← Finset.mul_sum, ← Finset.mul_sum, sum_ex_fftfreq]
  rw [show ((j : ℕ) : ℝ) - t = -(t - ((j : ℕ) : ℝ)) by ring, psinc_neg, nyq_neg]
  push_cast
  ring

end ImgReg
