import Mathlib.Analysis.SpecialFunctions.Complex.Circle
import Mathlib.Algebra.BigOperators.Pi
import Mathlib.Data.ZMod.Basic
import Mathlib.Algebra.Order.Chebyshev

/-!
# Discrete Fourier transforms over finite index groups

Mathematical background shared by the whole model: the definition of numpy's `fftn`/`ifftn`
(documented by numpy as the sums below) for 1-D, 2-D and N-D index types, and the classical
theorems about them (inversion, Parseval, convolution theorem).  Nothing in this file models
repository code.
-/

open Complex Finset
open scoped BigOperators ComplexConjugate

set_option linter.unusedSectionVars false
set_option linter.unusedFintypeInType false
set_option linter.flexible false

namespace ImgReg

/-- `ex x = exp(2πi x)`. -/
noncomputable def ex (x : ℝ) : ℂ := Complex.exp (2 * Real.pi * I * x)

theorem ex_add (x y : ℝ) : ex (x + y) = ex x * ex y := by
  unfold ex; rw [← Complex.exp_add]; push_cast; ring_nf

@[simp] theorem ex_zero : ex 0 = 1 := by simp [ex]

theorem ex_int (z : ℤ) : ex z = 1 := by
  unfold ex
  rw [Complex.exp_eq_one_iff]
  exact ⟨z, by push_cast; ring⟩

theorem ex_nat (z : ℕ) : ex z = 1 := by simpa using ex_int z

theorem ex_neg (x : ℝ) : ex (-x) = (ex x)⁻¹ := by
  unfold ex; rw [← Complex.exp_neg]; push_cast; ring_nf

theorem ex_sub (x y : ℝ) : ex (x - y) = ex x * ex (-y) := by
  rw [sub_eq_add_neg, ex_add]

theorem conj_ex (x : ℝ) : conj (ex x) = ex (-x) := by
  unfold ex
  rw [← Complex.exp_conj]
  congr 1
  have h2 : (starRingEnd ℂ) 2 = 2 := Complex.conj_ofNat 2
  simp [h2]

@[simp] theorem norm_ex (x : ℝ) : ‖ex x‖ = 1 := by
  unfold ex
  rw [Complex.norm_exp]
  simp

theorem ex_ne_zero (x : ℝ) : ex x ≠ 0 := by
  intro h; have := norm_ex x; rw [h] at this; simp at this

theorem ex_mul_nat (x : ℝ) (k : ℕ) : ex (k * x) = ex x ^ k := by
  unfold ex; rw [← Complex.exp_nat_mul]; push_cast; ring_nf

theorem ex_eq_one_iff (x : ℝ) : ex x = 1 ↔ ∃ z : ℤ, x = z := by
  unfold ex
  rw [Complex.exp_eq_one_iff]
  constructor
  · rintro ⟨z, hz⟩
    refine ⟨z, ?_⟩
    have hpi : (2 * (Real.pi : ℂ) * I) ≠ 0 := by
      simp [Real.pi_ne_zero]
    have : (x : ℂ) = (z : ℂ) := by
      apply mul_left_cancel₀ hpi
      rw [hz]; ring
    exact_mod_cast this
  · rintro ⟨z, hz⟩
    exact ⟨z, by rw [hz]; push_cast; ring⟩

theorem ex_add_int (x : ℝ) (z : ℤ) : ex (x + z) = ex x := by
  rw [ex_add, ex_int, mul_one]

/-- `ex` only depends on its argument modulo 1. -/
theorem ex_congr {x y : ℝ} (h : ∃ z : ℤ, x - y = z) : ex x = ex y := by
  obtain ⟨z, hz⟩ := h
  have : x = y + z := by linarith
  rw [this, ex_add_int]

theorem ex_re (x : ℝ) : (ex x).re = Real.cos (2 * Real.pi * x) := by
  unfold ex
  have : (2 * (Real.pi:ℂ) * I * x) = ((2 * Real.pi * x : ℝ) : ℂ) * I := by push_cast; ring
  rw [this, Complex.exp_ofReal_mul_I_re]

theorem ex_im (x : ℝ) : (ex x).im = Real.sin (2 * Real.pi * x) := by
  unfold ex
  have : (2 * (Real.pi:ℂ) * I * x) = ((2 * Real.pi * x : ℝ) : ℂ) * I := by push_cast; ring
  rw [this, Complex.exp_ofReal_mul_I_im]

/-- A finite array index type with its Fourier characters `e k j = exp(2πi Σ_d k_d j_d / n_d)`. -/
class FFTIndex (ι : Type) [AddCommGroup ι] [Fintype ι] [DecidableEq ι] where
  /-- the character -/
  e : ι → ι → ℂ
  e_zero : ∀ k, e k 0 = 1
  e_add : ∀ k i j, e k (i + j) = e k i * e k j
  e_symm : ∀ k j, e k j = e j k
  e_conj : ∀ k j, conj (e k j) = e k (-j)
  e_orth : ∀ j, ∑ k, e k j = if j = 0 then (Fintype.card ι : ℂ) else 0

export FFTIndex (e)

section generic
variable {ι : Type} [AddCommGroup ι] [Fintype ι] [DecidableEq ι] [FFTIndex ι]

/-- `np.fft.fftn`: `A[k] = Σ_j a[j] exp(-2πi Σ_d j_d k_d/n_d)`. -/
noncomputable def dft (x : ι → ℂ) : ι → ℂ := fun k => ∑ j, x j * conj (e k j)

/-- `np.fft.ifftn`: `a[j] = (1/N) Σ_k A[k] exp(+2πi Σ_d j_d k_d/n_d)`. -/
noncomputable def idft (X : ι → ℂ) : ι → ℂ :=
  fun j => (1 / (Fintype.card ι : ℂ)) * ∑ k, X k * e k j

theorem card_ne_zero' : (Fintype.card ι : ℂ) ≠ 0 := by
  have : Nonempty ι := ⟨0⟩
  exact_mod_cast Fintype.card_ne_zero

theorem e_mul_conj (k i j : ι) : e k i * conj (e k j) = e k (i - j) := by
  rw [FFTIndex.e_conj, ← FFTIndex.e_add, sub_eq_add_neg]

theorem e_sub (k i j : ι) : e k (i - j) = e k i * conj (e k j) := (e_mul_conj k i j).symm

theorem e_add_left (k l j : ι) : e (k + l) j = e k j * e l j := by
  rw [FFTIndex.e_symm, FFTIndex.e_add, FFTIndex.e_symm j k, FFTIndex.e_symm j l]

theorem e_zero_left (j : ι) : e 0 j = 1 := by
  rw [FFTIndex.e_symm, FFTIndex.e_zero]

theorem e_neg_left (k j : ι) : e (-k) j = conj (e k j) := by
  rw [FFTIndex.e_symm, ← FFTIndex.e_conj, FFTIndex.e_symm]

theorem e_normSq (k j : ι) : e k j * conj (e k j) = 1 := by
  rw [e_mul_conj, sub_self, FFTIndex.e_zero]

theorem norm_e (k j : ι) : ‖e k j‖ = 1 := by
  have h := e_normSq k j
  rw [Complex.mul_conj] at h
  have h2 : Complex.normSq (e k j) = 1 := by exact_mod_cast h
  rw [Complex.normSq_eq_norm_sq] at h2
  have h3 := norm_nonneg (e k j)
  nlinarith

theorem e_orth_right (k : ι) : ∑ j, e k j = if k = 0 then (Fintype.card ι : ℂ) else 0 := by
  rw [← FFTIndex.e_orth k]
  exact Finset.sum_congr rfl fun j _ => FFTIndex.e_symm k j

/-- Fourier inversion: `ifftn(fftn(x)) = x`. -/
theorem idft_dft (x : ι → ℂ) : idft (dft x) = x := by
  funext i
  unfold idft dft
  have h1 : ∀ k, (∑ j, x j * conj (e k j)) * e k i = ∑ j, x j * e k (i - j) := by
    intro k
    rw [Finset.sum_mul]
    refine Finset.sum_congr rfl fun j _ => ?_
    rw [e_sub]; ring
  simp_rw [h1]
  rw [Finset.sum_comm]
  simp_rw [← Finset.mul_sum, FFTIndex.e_orth, sub_eq_zero]
  have hc := card_ne_zero' (ι := ι)
  simp
  field_simp

/-- `fftn(ifftn(X)) = X`. -/
theorem dft_idft (X : ι → ℂ) : dft (idft X) = X := by
  funext k
  unfold idft dft
  have h1 : ∀ j, (1 / (Fintype.card ι : ℂ) * ∑ l, X l * e l j) * conj (e k j)
      = ∑ l, (1 / (Fintype.card ι : ℂ)) * (X l * e (l - k) j) := by
    intro j
    rw [Finset.mul_sum, Finset.sum_mul]
    refine Finset.sum_congr rfl fun l _ => ?_
    rw [sub_eq_add_neg, e_add_left, e_neg_left]; ring
  simp_rw [h1]
  rw [Finset.sum_comm]
  simp_rw [← Finset.mul_sum, e_orth_right, sub_eq_zero]
  have hc := card_ne_zero' (ι := ι)
  simp
  field_simp

theorem dft_add (x y : ι → ℂ) : dft (fun i => x i + y i) = fun k => dft x k + dft y k := by
  funext k; simp [dft, add_mul, Finset.sum_add_distrib]

theorem dft_smul (c : ℂ) (x : ι → ℂ) : dft (fun i => c * x i) = fun k => c * dft x k := by
  funext k; simp [dft, Finset.mul_sum, mul_assoc]

theorem idft_add (x y : ι → ℂ) : idft (fun i => x i + y i) = fun k => idft x k + idft y k := by
  funext k; simp [idft, add_mul, Finset.sum_add_distrib, mul_add]

theorem idft_smul (c : ℂ) (x : ι → ℂ) : idft (fun i => c * x i) = fun k => c * idft x k := by
  funext k; simp only [idft, Finset.mul_sum]
  exact Finset.sum_congr rfl fun j _ => by ring

theorem dft_injective : Function.Injective (dft : (ι → ℂ) → ι → ℂ) :=
  Function.LeftInverse.injective idft_dft

/-- Convolution theorem: `ifftn(fftn(a)·fftn(b))[i] = Σ_j a[j] b[i-j]`. -/
theorem idft_mul_dft (a b : ι → ℂ) :
    idft (fun k => dft a k * dft b k) = fun i => ∑ j, a j * b (i - j) := by
  apply dft_injective
  rw [dft_idft]
  funext k
  unfold dft
  simp_rw [Finset.sum_mul]
  rw [Finset.sum_comm]
  refine Finset.sum_congr rfl fun j _ => ?_
  rw [Finset.mul_sum]
  rw [← Equiv.sum_comp (Equiv.subRight j)]
  refine Finset.sum_congr rfl fun i _ => ?_
  simp only [Equiv.subRight_apply]
  have : e k i = e k (i - j) * e k j := by rw [← FFTIndex.e_add, sub_add_cancel]
  rw [this, map_mul]; ring

/-- Cross-correlation: `ifftn(fftn(a)·conj(fftn(b)))[r] = Σ_j a[j+r] conj(b[j])`. -/
theorem idft_mul_conj_dft (a b : ι → ℂ) :
    idft (fun k => dft a k * conj (dft b k)) = fun r => ∑ j, a (j + r) * conj (b j) := by
  have h : ∀ k, conj (dft b k) = dft (fun j => conj (b (-j))) k := by
    intro k
    unfold dft
    rw [map_sum, ← Equiv.sum_comp (Equiv.neg ι)]
    refine Finset.sum_congr rfl fun j _ => ?_
    simp only [Equiv.neg_apply, map_mul, Complex.conj_conj]
    rw [FFTIndex.e_conj]
  simp_rw [h]
  rw [idft_mul_dft]
  funext r
  rw [← Equiv.sum_comp (Equiv.addRight r)]
  refine Finset.sum_congr rfl fun j _ => ?_
  simp

/-- Parseval (polarised): `Σ_j a[j] conj(b[j]) = (1/N) Σ_k A[k] conj(B[k])`. -/
theorem parseval (a b : ι → ℂ) :
    ∑ j, a j * conj (b j) = (1 / (Fintype.card ι : ℂ)) * ∑ k, dft a k * conj (dft b k) := by
  have := congrFun (idft_mul_conj_dft a b) 0
  simp only [add_zero] at this
  rw [← this]
  unfold idft
  simp [FFTIndex.e_zero]

theorem parseval_normSq (a : ι → ℂ) :
    ∑ j, ‖a j‖ ^ 2 = (1 / (Fintype.card ι : ℝ)) * ∑ k, ‖dft a k‖ ^ 2 := by
  have h := parseval a a
  simp_rw [Complex.mul_conj, Complex.normSq_eq_norm_sq] at h
  apply Complex.ofReal_injective
  push_cast
  push_cast at h
  exact h

end generic

section instFin
variable {n : ℕ} [NeZero n]

theorem nR_ne_zero : (n : ℝ) ≠ 0 := by exact_mod_cast NeZero.ne n

/-- index values that agree mod `n` give the same character value -/
theorem ex_div_congr {a b : ℤ} (h : a ≡ b [ZMOD n]) : ex ((a:ℝ) / n) = ex ((b:ℝ) / n) := by
  obtain ⟨c, hc⟩ := h.symm.dvd
  apply ex_congr
  refine ⟨c, ?_⟩
  have hn : (n : ℝ) ≠ 0 := nR_ne_zero
  field_simp
  have : ((a - b : ℤ) : ℝ) = ((n * c : ℤ) : ℝ) := by rw [hc]
  push_cast at this ⊢
  linarith

theorem Fin.val_add_modEq (i j : Fin n) : (((i + j : Fin n) : ℕ) : ℤ) ≡ (i : ℕ) + (j : ℕ) [ZMOD n] := by
  rw [Fin.val_add]
  have := Nat.mod_modEq ((i:ℕ) + j) n
  have h := (Int.natCast_modEq_iff).2 this
  simpa using h

theorem Fin.val_neg_modEq (j : Fin n) : (((-j : Fin n) : ℕ) : ℤ) ≡ -((j : ℕ) : ℤ) [ZMOD n] := by
  have h := Fin.val_add_modEq (-j) j
  rw [neg_add_cancel] at h
  have h0 : (((0 : Fin n) : ℕ) : ℤ) = 0 := by simp
  rw [h0] at h
  have := (h.sub (Int.ModEq.refl ((j:ℕ):ℤ)))
  simpa using this.symm

theorem Fin.val_sub_modEq (i j : Fin n) : (((i - j : Fin n) : ℕ) : ℤ) ≡ (i : ℕ) - (j : ℕ) [ZMOD n] := by
  rw [sub_eq_add_neg]
  refine (Fin.val_add_modEq i (-j)).trans ?_
  have := (Int.ModEq.refl ((i:ℕ):ℤ)).add (Fin.val_neg_modEq j)
  simpa [sub_eq_add_neg] using this

theorem Fin.eq_of_modEq {i j : Fin n} (h : ((i : ℕ) : ℤ) ≡ ((j : ℕ) : ℤ) [ZMOD n]) : i = j := by
  have h2 := (Int.natCast_modEq_iff).1 h
  apply Fin.ext
  have := h2
  unfold Nat.ModEq at this
  rwa [Nat.mod_eq_of_lt i.isLt, Nat.mod_eq_of_lt j.isLt] at this

/-- geometric sum of characters on `Fin n` -/
theorem sum_ex_fin (j : Fin n) :
    ∑ k : Fin n, ex (((k:ℕ):ℝ) * ((j:ℕ):ℝ) / n) = if j = 0 then (n : ℂ) else 0 := by
  split_ifs with hj
  · subst hj; simp
  · have hn : (n : ℝ) ≠ 0 := nR_ne_zero
    have h1 : ∀ k : Fin n, ex (((k:ℕ):ℝ) * ((j:ℕ):ℝ) / n) = (ex (((j:ℕ):ℝ) / n)) ^ (k:ℕ) := by
      intro k; rw [← ex_mul_nat]; congr 1; ring
    simp_rw [h1]
    rw [Fin.sum_univ_eq_sum_range (fun k => (ex (((j:ℕ):ℝ) / n)) ^ k)]
    have hne : ex (((j:ℕ):ℝ) / n) ≠ 1 := by
      rw [Ne, ex_eq_one_iff]
      rintro ⟨z, hz⟩
      rw [div_eq_iff hn] at hz
      have hz' : ((j:ℕ):ℤ) = z * n := by exact_mod_cast hz
      apply hj
      apply Fin.eq_of_modEq (n := n)
      rw [hz']
      simp [Int.ModEq]
    rw [geom_sum_eq hne, ← ex_mul_nat]
    have : (n:ℝ) * (((j:ℕ):ℝ) / n) = ((j:ℕ):ℝ) := by field_simp
    rw [this, ex_nat]; simp

noncomputable instance : FFTIndex (Fin n) where
  e k j := ex (((k:ℕ):ℝ) * ((j:ℕ):ℝ) / n)
  e_zero k := by simp
  e_add k i j := by
    rw [← ex_add]
    have h := (Fin.val_add_modEq i j).mul_left ((k:ℕ):ℤ)
    have := ex_div_congr h
    push_cast at this
    rw [this]; congr 1; ring
  e_symm k j := by rw [mul_comm]
  e_conj k j := by
    rw [conj_ex]
    have h := (Fin.val_neg_modEq j).mul_left ((k:ℕ):ℤ)
    have := ex_div_congr h
    push_cast at this
    rw [this]; congr 1; ring
  e_orth j := by
    rw [sum_ex_fin]; simp

theorem e_fin (k j : Fin n) : e k j = ex (((k:ℕ):ℝ) * ((j:ℕ):ℝ) / n) := rfl

/-- the 1-D transform written out -/
theorem dft_fin_apply (x : Fin n → ℂ) (k : Fin n) :
    dft x k = ∑ j : Fin n, x j * Complex.exp (-(2 * Real.pi * I * (((j:ℕ):ℝ) * ((k:ℕ):ℝ) / n : ℝ))) := by
  unfold dft
  refine Finset.sum_congr rfl fun j _ => ?_
  rw [e_fin, conj_ex]; unfold ex; congr 2; push_cast; ring

end instFin

section instProd
variable {ι κ : Type} [AddCommGroup ι] [Fintype ι] [DecidableEq ι] [FFTIndex ι]
  [AddCommGroup κ] [Fintype κ] [DecidableEq κ] [FFTIndex κ]

noncomputable instance : FFTIndex (ι × κ) where
  e k j := e k.1 j.1 * e k.2 j.2
  e_zero k := by simp [FFTIndex.e_zero]
  e_add k i j := by simp only [Prod.fst_add, Prod.snd_add, FFTIndex.e_add]; ring
  e_symm k j := by rw [FFTIndex.e_symm k.1, FFTIndex.e_symm k.2]
  e_conj k j := by simp [FFTIndex.e_conj]
  e_orth j := by
    rw [Fintype.sum_prod_type]
    simp only [← Finset.mul_sum, ← Finset.sum_mul, FFTIndex.e_orth]
    by_cases h1 : j.1 = 0 <;> by_cases h2 : j.2 = 0 <;> simp [h1, h2, Prod.ext_iff]

theorem e_prod (k j : ι × κ) : e k j = e k.1 j.1 * e k.2 j.2 := rfl

/-- the 2-D transform is the iterated 1-D transform -/
theorem dft_prod (x : ι × κ → ℂ) (k : ι × κ) :
    dft x k = dft (fun i => dft (fun j => x (i, j)) k.2) k.1 := by
  unfold dft
  rw [Fintype.sum_prod_type]
  refine Finset.sum_congr rfl fun i _ => ?_
  rw [Finset.sum_mul]
  refine Finset.sum_congr rfl fun j _ => ?_
  rw [e_prod, map_mul]; ring

theorem idft_prod (x : ι × κ → ℂ) (k : ι × κ) :
    idft x k = idft (fun i => idft (fun j => x (i, j)) k.2) k.1 := by
  unfold idft
  rw [Fintype.sum_prod_type, Finset.mul_sum, Finset.mul_sum]
  refine Finset.sum_congr rfl fun i _ => ?_
  simp only [Fintype.card_prod, Finset.mul_sum, Finset.sum_mul]
  refine Finset.sum_congr rfl fun j _ => ?_
  rw [e_prod]; push_cast; field_simp

end instProd

section instPi
variable {D : ℕ} {s : Fin D → ℕ} [∀ d, NeZero (s d)]

noncomputable instance : FFTIndex (∀ d, Fin (s d)) where
  e k j := ∏ d, e (k d) (j d)
  e_zero k := by simp [FFTIndex.e_zero]
  e_add k i j := by simp [FFTIndex.e_add, Finset.prod_mul_distrib]
  e_symm k j := Finset.prod_congr rfl fun d _ => FFTIndex.e_symm _ _
  e_conj k j := by simp [map_prod, FFTIndex.e_conj]
  e_orth j := by
    have h := Finset.prod_univ_sum (fun d => (Finset.univ : Finset (Fin (s d))))
      (fun d kd => e kd (j d))
    rw [Fintype.piFinset_univ] at h
    rw [← h]
    simp only [FFTIndex.e_orth]
    split_ifs with hj
    · subst hj; simp [Fintype.card_pi]
    · have : ∃ d, j d ≠ 0 := by
        by_contra hc; push Not at hc; exact hj (funext hc)
      obtain ⟨d, hd⟩ := this
      exact Finset.prod_eq_zero (Finset.mem_univ d) (by simp [hd])

theorem e_pi (k j : ∀ d, Fin (s d)) : e k j = ∏ d, e (k d) (j d) := rfl

end instPi

end ImgReg
