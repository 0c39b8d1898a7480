import Verif.Lemmas.Shift

/-!
# Properties C01–C08: FFT backends and Fourier shifts

`rArr x` / `cArr x` are real / complex arrays without NaN, `.real`/`.cplx` the dtype returned.
-/

open Complex Finset
open scoped ComplexConjugate

set_option linter.unusedSectionVars false

namespace ImgReg

/-! ## C01 -/

section C01
variable {D : ℕ} {s : Fin D → ℕ} [∀ d, NeZero (s d)]

/-- C01: what both backends compute, written out: `Σ_j x[j] exp(-2πi Σ_d j_d k_d / n_d)`. -/
theorem C01_forward_formula (cfg : FFTConfig) (x : (∀ d, Fin (s d)) → ℂ) (k : ∀ d, Fin (s d)) :
    (getFfts cfg).1 (cArr x) k = some (∑ j : (∀ d, Fin (s d)),
      x j * Complex.exp (-2 * Real.pi * I * ∑ d, ((j d : ℕ) : ℂ) * ((k d : ℕ) : ℂ) / (s d : ℂ))) := by
  rw [getFfts_eq]
  simp only [Np.fftn_cArr, cArr, dft]
  congr 1
  refine Finset.sum_congr rfl fun j _ => ?_
  congr 1
  rw [e_pi, map_prod]
  simp_rw [e_fin, conj_ex]
  rw [← ex_sum]
  unfold ex
  congr 1
  push_cast
  rw [Finset.mul_sum, Finset.mul_sum]
  refine Finset.sum_congr rfl fun d _ => ?_
  ring

/-- C01: the inverse transform, written out. -/
theorem C01_inverse_formula (cfg : FFTConfig) (x : (∀ d, Fin (s d)) → ℂ) (j : ∀ d, Fin (s d)) :
    (getFfts cfg).2 (cArr x) j = some ((∑ k : (∀ d, Fin (s d)),
      x k * Complex.exp (2 * Real.pi * I * ∑ d, ((j d : ℕ) : ℂ) * ((k d : ℕ) : ℂ) / (s d : ℂ)))
        / (∏ d, (s d : ℂ))) := by
  rw [getFfts_eq]
  simp only [Np.ifftn_cArr, cArr, idft]
  congr 1
  rw [one_div, mul_comm, ← div_eq_mul_inv]
  congr 1
  · refine Finset.sum_congr rfl fun k _ => ?_
    congr 1
    rw [e_pi]
    simp_rw [e_fin]
    rw [← ex_sum]
    unfold ex
    congr 1
    push_cast
    rw [Finset.mul_sum, Finset.mul_sum]
    refine Finset.sum_congr rfl fun d _ => ?_
    ring
  · simp [Fintype.card_pi]

/-- C01: the values do not depend on the backend, on `use_numpy_fft` or on `nthreads`
(NaN inputs included). -/
theorem C01_backends_agree (cfg cfg' : FFTConfig) (x : (∀ d, Fin (s d)) → CPix) :
    (getFfts cfg).1 x = (getFfts cfg').1 x ∧ (getFfts cfg).2 x = (getFfts cfg').2 x := by
  simp [getFfts_eq]

/-- C01: the two functions are inverse to each other. -/
theorem C01_inverse (cfg : FFTConfig) (x : (∀ d, Fin (s d)) → ℂ) :
    (getFfts cfg).2 ((getFfts cfg).1 (cArr x)) = cArr x ∧
    (getFfts cfg).1 ((getFfts cfg).2 (cArr x)) = cArr x := by
  simp [getFfts_eq, idft_dft, dft_idft]

/-- the same for the 2-D index type used by the 2-D functions -/
theorem C01_inverse_2d {ny nx : ℕ} [NeZero ny] [NeZero nx] (cfg : FFTConfig)
    (x : Fin ny × Fin nx → ℂ) :
    (getFfts cfg).2 ((getFfts cfg).1 (cArr x)) = cArr x ∧
    (getFfts cfg).1 ((getFfts cfg).2 (cArr x)) = cArr x := by
  simp [getFfts_eq, idft_dft, dft_idft]

/-- a NaN anywhere makes the whole transform NaN (why the callers replace NaNs first) -/
theorem C01_nan_spreads (cfg : FFTConfig) (x : (∀ d, Fin (s d)) → CPix) (i : ∀ d, Fin (s d))
    (hi : x i = none) (k : ∀ d, Fin (s d)) : (getFfts cfg).1 x k = none := by
  rw [getFfts_eq]
  simp only [Np.fftn]
  rw [if_neg]
  intro h; have := h i; simp [hi] at this

example : ∃ (c c' : FFTConfig), c.hasFftw = true ∧ c.useNumpyFft = false ∧ c'.hasFftw = false :=
  ⟨⟨true, false, 4⟩, ⟨false, false, 1⟩, rfl, rfl, rfl⟩

end C01

/-! ## C02 -/

section C02
variable {D : ℕ} {s : Fin D → ℕ} [∀ d, NeZero (s d)]

theorem rollND_eq {α : Type} (z : Fin D → ℤ) (x : (∀ d, Fin (s d)) → α) :
    Spec.rollND z x = fun i => x (i - fun d => Spec.wrap (s d) (z d)) := by
  funext i
  unfold Spec.rollND
  congr 1
  funext d
  rw [Spec.wrap_sub]; rfl

theorem shift_int_core (z : Fin D → ℤ) (x : (∀ d, Fin (s d)) → ℂ) :
    filt (fun k => shiftKernel (freqND (List.ofFn fun d => (z d : ℝ)) k) 0) x = Spec.rollND z x := by
  simp_rw [shiftKernel_zero, ex_freqND_int]
  rw [filt_conj_e, rollND_eq]

/-- C02: a whole-pixel `shiftnd` of real data in the default mode is exactly the periodic roll. -/
theorem C02_shiftnd_integer_roll (cfg : FFTConfig) (x : (∀ d, Fin (s d)) → ℝ) (z : Fin D → ℤ)
    (ra : Bool) :
    shiftnd cfg (rArr x) (List.ofFn fun d => (z d : ℝ)) 0 ra true
      = .real (realArr (Spec.rollND z x)) := by
  rw [shiftnd_eq, shiftReturn_real, denan_rArr, shift_int_core]
  congr 1

/-- C02: the same in complex mode, for complex data. -/
theorem C02_shiftnd_integer_roll_complex (cfg : FFTConfig) (x : (∀ d, Fin (s d)) → ℂ)
    (z : Fin D → ℤ) :
    shiftnd cfg (cArr x) (List.ofFn fun d => (z d : ℝ)) 0 false false
      = .cplx (cArr (Spec.rollND z x)) := by
  rw [shiftnd_eq, shiftReturn_cplx, denan_cArr, shift_int_core]

variable {ny nx : ℕ} [NeZero ny] [NeZero nx]

theorem roll2_eq {α : Type} (dy dx : ℤ) (x : Fin ny × Fin nx → α) :
    Spec.roll2 dy dx x = fun i => x (i - (Spec.wrap ny dy, Spec.wrap nx dx)) := by
  funext i
  unfold Spec.roll2
  rw [Spec.wrap_sub, Spec.wrap_sub]; rfl

theorem shift2d_int_core (dx dy : ℤ) (x : Fin ny × Fin nx → ℂ) :
    filt (fun k => shiftKernel (freq2 (dx : ℝ) (dy : ℝ) k) 0) x = Spec.roll2 dy dx x := by
  simp_rw [shiftKernel_zero, ex_freq2_int]
  rw [filt_conj_e, roll2_eq]

/-- C02 for `shift2d`: `deltax` moves columns, `deltay` rows. -/
theorem C02_shift2d_integer_roll (cfg : FFTConfig) (x : Fin ny × Fin nx → ℝ) (dx dy : ℤ)
    (ra : Bool) :
    shift2d cfg (rArr x) dx dy 0 ra true = .real (realArr (Spec.roll2 dy dx x)) := by
  rw [shift2d_eq, shiftReturn_real, denan_rArr, shift2d_int_core]
  congr 1

theorem C02_shift2d_integer_roll_complex (cfg : FFTConfig) (x : Fin ny × Fin nx → ℂ) (dx dy : ℤ) :
    shift2d cfg (cArr x) dx dy 0 false false = .cplx (cArr (Spec.roll2 dy dx x)) := by
  rw [shift2d_eq, shiftReturn_cplx, denan_cArr, shift2d_int_core]

/-- a concrete roll that is not the identity -/
example : Spec.roll2 (ny := 2) (nx := 3) 0 1 (fun i => (i.2 : ℕ)) (0, 0) = 2 := by
  decide

end C02

/-! ## C03 -/

section C03
variable {D : ℕ} {s : Fin D → ℕ} [∀ d, NeZero (s d)]

theorem shiftKernel_mul (g h p q : ℝ) :
    shiftKernel g p * shiftKernel h q = shiftKernel (g + h) (p + q) := by
  unfold shiftKernel; rw [← Complex.exp_add]; congr 1; push_cast; ring

theorem freqND_ofFn_add (a b : Fin D → ℝ) (k : ∀ d, Fin (s d)) :
    freqND (List.ofFn fun d => a d + b d) k = freqND (List.ofFn a) k + freqND (List.ofFn b) k := by
  rw [freqND_ofFn, freqND_ofFn, freqND_ofFn, ← Finset.sum_add_distrib]
  exact Finset.sum_congr rfl fun d _ => by ring

theorem freqND_ofFn_zero (k : ∀ d, Fin (s d)) :
    freqND (List.ofFn fun _ : Fin D => (0:ℝ)) k = 0 := by
  rw [freqND_ofFn]; simp

/-- C03: complex-valued shifts (with phases) compose. -/
theorem C03_compose (cfg cfg' : FFTConfig) (x : (∀ d, Fin (s d)) → ℂ) (a b : Fin D → ℝ) (p q : ℝ) :
    ∃ y, shiftnd cfg (cArr x) (List.ofFn a) p false false = .cplx (cArr y) ∧
      shiftnd cfg' (cArr y) (List.ofFn b) q false false
        = shiftnd cfg (cArr x) (List.ofFn fun d => a d + b d) (p + q) false false := by
  refine ⟨_, by rw [shiftnd_eq, shiftReturn_cplx], ?_⟩
  rw [shiftnd_eq, shiftnd_eq, denan_cArr, denan_cArr, filt_filt]
  simp_rw [shiftKernel_mul, freqND_ofFn_add]

/-- C03: shifting by `-a` undoes a complex-valued shift by `a`. -/
theorem C03_undo (cfg cfg' : FFTConfig) (x : (∀ d, Fin (s d)) → ℂ) (a : Fin D → ℝ) (p : ℝ) :
    ∃ y, shiftnd cfg (cArr x) (List.ofFn a) p false false = .cplx (cArr y) ∧
      shiftnd cfg' (cArr y) (List.ofFn fun d => -a d) (-p) false false = .cplx (cArr x) := by
  obtain ⟨y, h1, h2⟩ := C03_compose cfg cfg' x a (fun d => -a d) p (-p)
  refine ⟨y, h1, ?_⟩
  rw [h2, shiftnd_eq, shiftReturn_cplx, denan_cArr]
  simp only [add_neg_cancel, freqND_ofFn_zero]
  simp [shiftKernel_zero, filt_one]

theorem shiftKernel_herm (offset : List ℝ) (h : ∀ d, Odd (s d)) (k : ∀ d, Fin (s d)) :
    shiftKernel (freqND offset (-k)) 0 = conj (shiftKernel (freqND offset k) 0) := by
  rw [shiftKernel_zero, shiftKernel_zero, freqND_neg _ _ h, conj_ex]

/-- C03: on odd axis lengths the default (real) mode composes as well. -/
theorem C03_compose_real_odd (cfg cfg' : FFTConfig) (x : (∀ d, Fin (s d)) → ℝ)
    (hodd : ∀ d, Odd (s d)) (a b : Fin D → ℝ) (ra : Bool) :
    ∃ y, shiftnd cfg (rArr x) (List.ofFn a) 0 ra true = .real (realArr y) ∧
      shiftnd cfg' (rArr y) (List.ofFn b) 0 ra true
        = shiftnd cfg (rArr x) (List.ofFn fun d => a d + b d) 0 ra true := by
  refine ⟨_, by rw [shiftnd_eq, shiftReturn_real], ?_⟩
  rw [shiftnd_eq, shiftnd_eq, shiftReturn_real, shiftReturn_real, denan_rArr, denan_rArr]
  simp_rw [filt_real (fun k => shiftKernel (freqND (List.ofFn a) k) 0) x
    (shiftKernel_herm (List.ofFn a) hodd)]
  rw [filt_filt]
  simp_rw [shiftKernel_mul, freqND_ofFn_add, add_zero]

/-- C03: on odd axis lengths the default mode can be undone. -/
theorem C03_undo_real_odd (cfg cfg' : FFTConfig) (x : (∀ d, Fin (s d)) → ℝ)
    (hodd : ∀ d, Odd (s d)) (a : Fin D → ℝ) (ra : Bool) :
    ∃ y, shiftnd cfg (rArr x) (List.ofFn a) 0 ra true = .real (realArr y) ∧
      shiftnd cfg' (rArr y) (List.ofFn fun d => -a d) 0 ra true = .real (realArr x) := by
  obtain ⟨y, h1, h2⟩ := C03_compose_real_odd cfg cfg' x hodd a (fun d => -a d) ra
  refine ⟨y, h1, ?_⟩
  rw [h2, shiftnd_eq, shiftReturn_real, denan_rArr]
  simp only [add_neg_cancel, freqND_ofFn_zero]
  simp [shiftKernel_zero, filt_one]

theorem filt_char {ι : Type} [AddCommGroup ι] [Fintype ι] [DecidableEq ι] [FFTIndex ι]
    (K : ι → ℂ) (l : ι) : filt K (fun i => e l i) = fun i => K l * e l i := by
  apply dft_injective
  unfold filt
  rw [dft_idft]
  have h : ∀ k, dft (fun i => e l i) k = if k = l then (Fintype.card ι : ℂ) else 0 := by
    intro k
    unfold dft
    have : ∀ j, e l j * conj (e k j) = e (l - k) j := by
      intro j; rw [sub_eq_add_neg, e_add_left, e_neg_left]
    simp_rw [this, e_orth_right, sub_eq_zero, eq_comm]
  rw [dft_smul]
  funext k
  rw [h]
  by_cases hk : k = l
  · subst hk; ring
  · simp [hk]

/-- C03 (failure on even lengths): the Nyquist signal `(-1)^j` on an axis of even length `2m`
shifted by `d` in the default mode comes back multiplied by `cos(π d)`. -/
theorem C03_even_nyquist (cfg : FFTConfig) (m : ℕ) [NeZero (2 * m)] (d : ℝ) (ra : Bool) :
    shiftnd (D := 1) (s := fun _ => 2 * m) cfg (rArr fun i => (-1 : ℝ) ^ ((i 0 : Fin (2*m)) : ℕ))
        [d] 0 ra true
      = .real (realArr fun i => Real.cos (Real.pi * d) * (-1 : ℝ) ^ ((i 0 : Fin (2*m)) : ℕ)) := by
  have hm : 0 < m := by have := NeZero.ne (2 * m); omega
  rw [shiftnd_eq, shiftReturn_real, denan_rArr]
  let l : (∀ _ : Fin 1, Fin (2 * m)) := fun _ => ⟨m, by omega⟩
  have hx : (fun i : (∀ _ : Fin 1, Fin (2 * m)) => (((-1 : ℝ) ^ ((i 0 : Fin (2*m)) : ℕ) : ℝ) : ℂ))
      = fun i => e l i := by
    funext i
    rw [e_pi, Fin.prod_univ_one, e_fin]
    have : (((l 0 : Fin (2*m)) : ℕ) : ℝ) * (((i 0 : Fin (2*m)) : ℕ) : ℝ) / ((2 * m : ℕ) : ℝ)
        = (((i 0 : Fin (2*m)) : ℕ) : ℝ) * (1 / 2) := by
      have : (m : ℝ) ≠ 0 := by exact_mod_cast hm.ne'
      simp only [l]; push_cast; field_simp
    rw [this, ex_mul_nat]
    have : ex (1 / 2) = -1 := by
      unfold ex
      rw [show (2 * (Real.pi : ℂ) * I * ((1 / 2 : ℝ) : ℂ)) = Real.pi * I by push_cast; ring]
      exact Complex.exp_pi_mul_I
    rw [this]; push_cast; rfl
  rw [hx, filt_char]
  have hf : freqND (s := fun _ : Fin 1 => 2 * m) [d] l = -(d / 2) := by
    rw [freqND_eq_sum, Fin.sum_univ_one, Np.fftfreq_eq, Np.fftfreqInt_eq _ _ (Fin.isLt _)]
    have : (m : ℝ) ≠ 0 := by exact_mod_cast hm.ne'
    simp only [l]
    rw [if_neg (by simp)]
    simp
    field_simp
    ring
  rw [hf, shiftKernel_zero]
  congr 1
  funext i
  have hi : e l i = ((((-1 : ℝ) ^ ((i 0 : Fin (2*m)) : ℕ) : ℝ) : ℂ)) := (congrFun hx i).symm
  simp only [realArr]
  rw [hi, Complex.re_mul_ofReal, ex_re]
  congr 3
  ring

/-- C03 (failure on even lengths): a half-pixel real shift of `(-1)^j` is identically zero, so no
second shift can undo it. -/
theorem C03_real_even_not_invertible (cfg : FFTConfig) (m : ℕ) [NeZero (2 * m)] (ra : Bool) :
    shiftnd (D := 1) (s := fun _ => 2 * m) cfg (rArr fun i => (-1 : ℝ) ^ ((i 0 : Fin (2*m)) : ℕ))
        [1 / 2] 0 ra true
      = shiftnd (D := 1) (s := fun _ => 2 * m) cfg (rArr fun _ => 0) [1 / 2] 0 ra true := by
  have h0 : filt (ι := ∀ _ : Fin 1, Fin (2*m)) (fun k => shiftKernel (freqND (s := fun _ : Fin 1 => 2 * m) [1/2] k) 0) (fun _ => ((0:ℝ):ℂ)) = fun _ => 0 := by
    have := filt_smul (ι := ∀ _ : Fin 1, Fin (2*m)) (fun k => shiftKernel (freqND (s := fun _ : Fin 1 => 2 * m) [1/2] k) 0) (fun _ => 1) 0
    simpa using this
  rw [C03_even_nyquist, shiftnd_eq, shiftReturn_real, denan_rArr, h0]
  congr 1
  funext i
  rw [show Real.pi * (1 / 2) = Real.pi / 2 by ring, Real.cos_pi_div_two]
  simp [realArr]

example : ∀ d : Fin 2, Odd ((![3, 5] : Fin 2 → ℕ) d) := by decide

end C03

/-! ## C04 -/

section C04
variable {D : ℕ} {s : Fin D → ℕ} [∀ d, NeZero (s d)]

/-- C04: total flux is conserved for every (also fractional) offset, in the default mode. -/
theorem C04_flux (cfg : FFTConfig) (x : (∀ d, Fin (s d)) → ℝ) (offset : List ℝ) (ra : Bool) :
    ∃ y, shiftnd cfg (rArr x) offset 0 ra true = .real (realArr y) ∧ ∑ i, y i = ∑ i, x i := by
  refine ⟨_, by rw [shiftnd_eq, shiftReturn_real], ?_⟩
  rw [← Complex.re_sum, sum_filt, freqND_zero, shiftKernel_zero]
  simp

/-- C04: total flux in complex mode; a phase multiplies it by `exp(-i·phase)`. -/
theorem C04_flux_complex (cfg : FFTConfig) (x : (∀ d, Fin (s d)) → ℂ) (offset : List ℝ) (p : ℝ) :
    ∃ y, shiftnd cfg (cArr x) offset p false false = .cplx (cArr y) ∧
      ∑ i, y i = (∑ i, x i) * Complex.exp (-I * p) := by
  refine ⟨_, by rw [shiftnd_eq, shiftReturn_cplx], ?_⟩
  rw [sum_filt, freqND_zero, shiftKernel_eq]
  simp

/-- C04: energy is conserved in complex mode, for every offset and phase. -/
theorem C04_energy_complex (cfg : FFTConfig) (x : (∀ d, Fin (s d)) → ℂ) (offset : List ℝ) (p : ℝ) :
    ∃ y, shiftnd cfg (cArr x) offset p false false = .cplx (cArr y) ∧
      ∑ i, ‖y i‖ ^ 2 = ∑ i, ‖x i‖ ^ 2 := by
  refine ⟨_, by rw [shiftnd_eq, shiftReturn_cplx], ?_⟩
  rw [energy_filt _ _ fun k => norm_shiftKernel _ _, denan_cArr]

/-- C04: in the default mode energy never grows. -/
theorem C04_energy_real (cfg : FFTConfig) (x : (∀ d, Fin (s d)) → ℝ) (offset : List ℝ) (p : ℝ)
    (ra : Bool) :
    ∃ y, shiftnd cfg (rArr x) offset p ra true = .real (realArr y) ∧
      ∑ i, y i ^ 2 ≤ ∑ i, x i ^ 2 := by
  refine ⟨_, by rw [shiftnd_eq, shiftReturn_real], ?_⟩
  have h := energy_filt (fun k => shiftKernel (freqND offset k) p) (denan (rArr x))
    fun k => norm_shiftKernel _ _
  have h2 : ∑ i, ‖denan (rArr x) i‖ ^ 2 = ∑ i, x i ^ 2 := by
    refine Finset.sum_congr rfl fun i _ => ?_
    rw [denan_rArr]; simp
  rw [← h2, ← h]
  refine Finset.sum_le_sum fun i _ => ?_
  rw [← sq_abs]
  exact pow_le_pow_left₀ (abs_nonneg _) (Complex.abs_re_le_norm _) 2

/-- C04: with odd axes the default mode conserves energy exactly. -/
theorem C04_energy_real_odd (cfg : FFTConfig) (x : (∀ d, Fin (s d)) → ℝ) (offset : List ℝ)
    (ra : Bool) (hodd : ∀ d, Odd (s d)) :
    ∃ y, shiftnd cfg (rArr x) offset 0 ra true = .real (realArr y) ∧
      ∑ i, y i ^ 2 = ∑ i, x i ^ 2 := by
  refine ⟨_, by rw [shiftnd_eq, shiftReturn_real], ?_⟩
  have h := energy_filt (fun k => shiftKernel (freqND offset k) 0) (denan (rArr x))
    fun k => norm_shiftKernel _ _
  have h2 : ∑ i, ‖denan (rArr x) i‖ ^ 2 = ∑ i, x i ^ 2 := by
    refine Finset.sum_congr rfl fun i _ => ?_
    rw [denan_rArr]; simp
  rw [← h2, ← h]
  refine Finset.sum_congr rfl fun i _ => ?_
  rw [denan_rArr]
  rw [← filt_real _ x (shiftKernel_herm offset hodd) i]
  simp

end C04

/-! ## C05 -/

section C05
variable {D : ℕ} {s : Fin D → ℕ} [∀ d, NeZero (s d)]

/-- C05: linearity in the data, default mode. -/
theorem C05_linear_real (cfg : FFTConfig) (x y : (∀ d, Fin (s d)) → ℝ) (a b : ℝ)
    (offset : List ℝ) (p : ℝ) (ra : Bool) :
    ∃ u v, shiftnd cfg (rArr x) offset p ra true = .real (realArr u) ∧
      shiftnd cfg (rArr y) offset p ra true = .real (realArr v) ∧
      shiftnd cfg (rArr fun i => a * x i + b * y i) offset p ra true
        = .real (realArr fun i => a * u i + b * v i) := by
  refine ⟨_, _, by rw [shiftnd_eq, shiftReturn_real], by rw [shiftnd_eq, shiftReturn_real], ?_⟩
  rw [shiftnd_eq, shiftReturn_real]
  congr 1
  funext i
  simp only [realArr, denan_rArr]
  have h1 := filt_add (fun k => shiftKernel (freqND offset k) p)
    (fun i : (∀ d, Fin (s d)) => (a : ℂ) * (x i : ℂ)) (fun i => (b : ℂ) * (y i : ℂ))
  have h2 := filt_smul (fun k => shiftKernel (freqND offset k) p)
    (fun i : (∀ d, Fin (s d)) => (x i : ℂ)) (a : ℂ)
  have h3 := filt_smul (fun k => shiftKernel (freqND offset k) p)
    (fun i : (∀ d, Fin (s d)) => (y i : ℂ)) (b : ℂ)
  push_cast
  rw [h1, h2, h3]
  simp

/-- C05: linearity in the data, complex mode. -/
theorem C05_linear_complex (cfg : FFTConfig) (x y : (∀ d, Fin (s d)) → ℂ) (a b : ℂ)
    (offset : List ℝ) (p : ℝ) :
    ∃ u v, shiftnd cfg (cArr x) offset p false false = .cplx (cArr u) ∧
      shiftnd cfg (cArr y) offset p false false = .cplx (cArr v) ∧
      shiftnd cfg (cArr fun i => a * x i + b * y i) offset p false false
        = .cplx (cArr fun i => a * u i + b * v i) := by
  refine ⟨_, _, by rw [shiftnd_eq, shiftReturn_cplx], by rw [shiftnd_eq, shiftReturn_cplx], ?_⟩
  rw [shiftnd_eq, shiftReturn_cplx, denan_cArr, denan_cArr, denan_cArr, filt_add, filt_smul,
    filt_smul]

/-- C05: adding whole multiples of the axis lengths to the offsets changes nothing, in any mode
and for any (also NaN-containing) data. -/
theorem C05_offset_periodic (cfg : FFTConfig) (data : (∀ d, Fin (s d)) → CPix) (a : Fin D → ℝ)
    (c : Fin D → ℤ) (p : ℝ) (ra rr : Bool) :
    shiftnd cfg data (List.ofFn fun d => a d + c d * (s d : ℝ)) p ra rr
      = shiftnd cfg data (List.ofFn a) p ra rr := by
  rw [shiftnd_eq, shiftnd_eq]
  congr 2
  congr 1
  funext k
  rw [shiftKernel_eq, shiftKernel_eq]
  congr 1
  apply ex_congr
  refine ⟨-∑ d, c d * Np.fftfreqInt (s d) (k d), ?_⟩
  rw [freqND_ofFn, freqND_ofFn]
  push_cast
  rw [neg_sub_neg, ← Finset.sum_sub_distrib, ← Finset.sum_neg_distrib]
  refine Finset.sum_congr rfl fun d _ => ?_
  rw [Np.fftfreq_eq]
  have : (s d : ℝ) ≠ 0 := nR_ne_zero
  field_simp
  ring

end C05

/-! ## C06 -/

section C06

/-- view a 2-D image through the N-D index type -/
def NdOut.comp {ι κ : Type} (f : κ → ι) : NdOut ι → NdOut κ
  | .real a => .real (fun k => a (f k))
  | .cplx a => .cplx (fun k => a (f k))

theorem filt_reindex {ι κ : Type} [AddCommGroup ι] [Fintype ι] [DecidableEq ι] [FFTIndex ι]
    [AddCommGroup κ] [Fintype κ] [DecidableEq κ] [FFTIndex κ] (φ : κ ≃ ι)
    (he : ∀ k j, e (φ k) (φ j) = e k j) (K x : ι → ℂ) :
    filt (fun k => K (φ k)) (fun i => x (φ i)) = fun i => filt K x (φ i) := by
  have hd : ∀ k, dft (fun i => x (φ i)) k = dft x (φ k) := by
    intro k
    unfold dft
    rw [← Equiv.sum_comp φ]
    exact Finset.sum_congr rfl fun j _ => by rw [he]
  funext i
  unfold filt idft
  simp_rw [hd]
  rw [← Equiv.sum_comp φ (fun k => dft x k * K k * e k (φ i)), Fintype.card_congr φ]
  simp_rw [he]

variable {ny nx : ℕ} [NeZero ny] [NeZero nx]

instance instNeZeroPair : ∀ d : Fin 2, NeZero ((![ny, nx] : Fin 2 → ℕ) d) := by
  intro d
  match d with
  | 0 => exact (inferInstance : NeZero ny)
  | 1 => exact (inferInstance : NeZero nx)

/-- `(iy, ix)` as an N-D index and back -/
def pairIdx : (∀ d : Fin 2, Fin ((![ny, nx] : Fin 2 → ℕ) d)) ≃ Fin ny × Fin nx where
  toFun i := (i 0, i 1)
  invFun p := fun d => match d with
    | 0 => p.1
    | 1 => p.2
  left_inv i := by funext d; match d with
    | 0 => rfl
    | 1 => rfl
  right_inv p := rfl

/-- C06: `shift2d(data, dx, dy, …)` is `shiftnd(data, (dy, dx), …)` in every return mode, also for
images with NaNs. -/
theorem C06_shift2d_eq_shiftnd (cfg : FFTConfig) (data : Fin ny × Fin nx → CPix)
    (dx dy phase : ℝ) (ra rr : Bool) :
    shiftnd (s := ![ny, nx]) cfg (fun i => data (pairIdx i)) [dy, dx] phase ra rr
      = (shift2d cfg data dx dy phase ra rr).comp pairIdx := by
  rw [shiftnd_eq, shift2d_eq]
  have hfreq : ∀ k : (∀ d : Fin 2, Fin ((![ny, nx] : Fin 2 → ℕ) d)),
      freqND [dy, dx] k = freq2 dx dy (pairIdx k) := by
    intro k
    rw [freqND_eq_sum, Fin.sum_univ_two]
    unfold freq2 pairIdx
    simp
    ring
  have he : ∀ k j : (∀ d : Fin 2, Fin ((![ny, nx] : Fin 2 → ℕ) d)),
      e (pairIdx k) (pairIdx j) = e k j := by
    intro k j
    rw [e_pi, Fin.prod_univ_two, e_prod]; rfl
  have := filt_reindex (pairIdx (ny := ny) (nx := nx)) he
    (fun k => shiftKernel (freq2 dx dy k) phase) (denan data)
  simp_rw [hfreq]
  rw [show denan (fun i => data (pairIdx i)) = fun i : (∀ d : Fin 2, Fin ((![ny, nx] : Fin 2 → ℕ) d))
    => denan data (pairIdx i) from rfl, this]
  unfold shiftReturn
  split_ifs <;> rfl

variable {D : ℕ} {s : Fin D → ℕ} [∀ d, NeZero (s d)]

/-- C06: offsets are paired with axes in order; surplus ones are ignored and missing trailing ones
act as 0. -/
theorem C06_offset_pairing (cfg : FFTConfig) (data : (∀ d, Fin (s d)) → CPix) (offset : List ℝ)
    (phase : ℝ) (ra rr : Bool) :
    shiftnd cfg data offset phase ra rr
      = shiftnd cfg data (List.ofFn fun d : Fin D => offset.getD d 0) phase ra rr := by
  rw [shiftnd_eq, shiftnd_eq]
  simp_rw [freqND_ofFn, freqND_eq_sum]

theorem C06_surplus_ignored (cfg : FFTConfig) (data : (∀ d, Fin (s d)) → CPix) (a : Fin D → ℝ)
    (extra : List ℝ) (phase : ℝ) (ra rr : Bool) :
    shiftnd cfg data (List.ofFn a ++ extra) phase ra rr
      = shiftnd cfg data (List.ofFn a) phase ra rr := by
  rw [C06_offset_pairing]
  congr 2
  funext d
  simp [List.getElem?_append_left]

theorem C06_missing_zero (cfg : FFTConfig) (data : (∀ d, Fin (s d)) → CPix) (offset : List ℝ)
    (m : ℕ) (phase : ℝ) (ra rr : Bool) :
    shiftnd cfg data (offset ++ List.replicate m 0) phase ra rr
      = shiftnd cfg data offset phase ra rr := by
  rw [C06_offset_pairing, C06_offset_pairing cfg data offset]
  congr 2
  funext d
  simp only [List.getD]
  by_cases h : (d : ℕ) < offset.length
  · rw [List.getElem?_append_left h]
  · rw [List.getElem?_append_right (by omega), List.getElem?_eq_none (l := offset) (by omega)]
    by_cases h2 : (d : ℕ) - offset.length < m <;> simp [h2]

end C06

/-! ## C07 -/

section C07
variable {D : ℕ} {s : Fin D → ℕ} [∀ d, NeZero (s d)]

/-- C07: NaN pixels act as zeros, in every mode. -/
theorem C07_nan_as_zero (cfg : FFTConfig) (data : (∀ d, Fin (s d)) → CPix) (offset : List ℝ)
    (phase : ℝ) (ra rr : Bool) :
    shiftnd cfg data offset phase ra rr
      = shiftnd cfg (cArr fun i => match data i with | some v => v | none => 0) offset phase ra rr := by
  rw [shiftnd_eq, shiftnd_eq]
  congr 2
  congr 1
  funext i
  simp only [denan, cArr]
  cases data i <;> rfl

/-- C07: no output pixel is NaN, in the real modes. -/
theorem C07_no_nan_out (cfg : FFTConfig) (data : (∀ d, Fin (s d)) → CPix) (offset : List ℝ)
    (phase : ℝ) (ra rr : Bool) :
    (∃ y, shiftnd cfg data offset phase ra rr = .real (realArr y)) ∨
      (∃ y, shiftnd cfg data offset phase ra rr = .cplx (cArr y)) := by
  rw [shiftnd_eq]
  cases ra <;> cases rr <;> simp [shiftReturn]

theorem C07_nan_as_zero_2d {ny nx : ℕ} [NeZero ny] [NeZero nx] (cfg : FFTConfig)
    (data : Fin ny × Fin nx → CPix) (dx dy phase : ℝ) (ra rr : Bool) :
    shift2d cfg data dx dy phase ra rr
      = shift2d cfg (cArr fun i => match data i with | some v => v | none => 0) dx dy phase ra rr := by
  rw [shift2d_eq, shift2d_eq]
  congr 2
  congr 1
  funext i
  simp only [denan, cArr]
  cases data i <;> rfl

end C07

/-! ## C08 -/

section C08
variable {D : ℕ} {s : Fin D → ℕ} [∀ d, NeZero (s d)]

/-- C08: with `c` the complex-mode result, `return_real` gives `c.real` whatever `return_abs` is,
`return_abs` alone gives `|c|`. -/
theorem C08_modes (cfg : FFTConfig) (data : (∀ d, Fin (s d)) → CPix) (offset : List ℝ)
    (phase : ℝ) :
    ∃ c, shiftnd cfg data offset phase false false = .cplx (cArr c) ∧
      (∀ ra, shiftnd cfg data offset phase ra true = .real (realArr fun i => (c i).re)) ∧
      shiftnd cfg data offset phase true false = .real (realArr fun i => ‖c i‖) := by
  refine ⟨_, by rw [shiftnd_eq, shiftReturn_cplx], fun ra => ?_, ?_⟩
  · rw [shiftnd_eq, shiftReturn_real]
  · rw [shiftnd_eq, shiftReturn_abs]

theorem C08_modes_2d {ny nx : ℕ} [NeZero ny] [NeZero nx] (cfg : FFTConfig)
    (data : Fin ny × Fin nx → CPix) (dx dy phase : ℝ) :
    ∃ c, shift2d cfg data dx dy phase false false = .cplx (cArr c) ∧
      (∀ ra, shift2d cfg data dx dy phase ra true = .real (realArr fun i => (c i).re)) ∧
      shift2d cfg data dx dy phase true false = .real (realArr fun i => ‖c i‖) := by
  refine ⟨_, by rw [shift2d_eq, shiftReturn_cplx], fun ra => ?_, ?_⟩
  · rw [shift2d_eq, shiftReturn_real]
  · rw [shift2d_eq, shiftReturn_abs]

/-- C08: `phase` multiplies the complex result by `exp(-i·phase)`. -/
theorem C08_phase (cfg : FFTConfig) (data : (∀ d, Fin (s d)) → CPix) (offset : List ℝ)
    (phase : ℝ) :
    ∃ c, shiftnd cfg data offset 0 false false = .cplx (cArr c) ∧
      shiftnd cfg data offset phase false false
        = .cplx (cArr fun i => Complex.exp (-I * phase) * c i) := by
  refine ⟨_, by rw [shiftnd_eq, shiftReturn_cplx], ?_⟩
  rw [shiftnd_eq, shiftReturn_cplx, ← filt_smul_kernel]
  simp_rw [shiftKernel_eq]
  simp

/-- C08: for odd axis lengths and real data (phase 0) the complex result has no imaginary part. -/
theorem C08_odd_real (cfg : FFTConfig) (x : (∀ d, Fin (s d)) → ℝ) (offset : List ℝ)
    (hodd : ∀ d, Odd (s d)) :
    ∃ y : (∀ d, Fin (s d)) → ℝ, shiftnd cfg (rArr x) offset 0 false false = .cplx (rArr y) ∧
      shiftnd cfg (rArr x) offset 0 false true = .real (realArr y) := by
  refine ⟨_, ?_, by rw [shiftnd_eq, shiftReturn_real]⟩
  rw [shiftnd_eq, shiftReturn_cplx, denan_rArr]
  congr 1
  funext i
  simp only [rArr, cArr]
  rw [filt_real _ x (shiftKernel_herm offset hodd) i]

end C08

/-! ## C73 -/

section C73
variable {D : ℕ} {s : Fin D → ℕ} [∀ d, NeZero (s d)]

/-- C73: a sub-pixel shift is exact below the Nyquist frequency: samples of the plane wave
`exp(2πi Σ_d m_d t_d / n_d)` with `2|m_d| < n_d` become the samples of the wave displaced by the
offset, for every real offset.  (By C05 the same holds for every sum of such waves.) -/
theorem C73_bandlimited_exact (cfg : FFTConfig) (m : Fin D → ℤ) (hm : ∀ d, 2 * |m d| < s d)
    (a : Fin D → ℝ) :
    shiftnd cfg (cArr fun i : (∀ d, Fin (s d)) =>
        Complex.exp (2 * Real.pi * I * ∑ d, (m d : ℂ) * ((i d : ℕ) : ℂ) / (s d : ℂ)))
        (List.ofFn a) 0 false false
      = .cplx (cArr fun i =>
        Complex.exp (2 * Real.pi * I * ∑ d, (m d : ℂ) * (((i d : ℕ) : ℂ) - a d) / (s d : ℂ))) := by
  let l : ∀ d, Fin (s d) := fun d => Spec.wrap (s d) (m d)
  have hl : ∀ d, Np.fftfreqInt (s d) (l d) = m d := by
    intro d
    have h1 : Np.fftfreqInt (s d) (l d) ≡ m d [ZMOD s d] :=
      (Np.fftfreqInt_modEq _ _ (l d).isLt).trans (Spec.wrap_modEq (s d) (m d))
    have h2 := Np.two_fftfreqInt_lt (s d) (l d) (l d).isLt
    have h3 := Np.neg_le_two_fftfreqInt (s d) (l d) (l d).isLt
    have h4 := abs_lt.1 (show |2 * m d| < (s d : ℤ) by rw [abs_mul]; exact hm d)
    obtain ⟨c, hc⟩ := h1.symm.dvd
    have hpos : (0 : ℤ) < s d := by
      have := NeZero.ne (s d); omega
    have hc1 : c < 1 := by
      by_contra h
      have : (s d : ℤ) ≤ s d * c := by nlinarith
      omega
    have hc2 : -1 < c := by
      by_contra h
      have : (s d : ℤ) * c ≤ -(s d : ℤ) := by nlinarith
      omega
    have : c = 0 := by omega
    subst this
    omega
  have hwave : ∀ t : Fin D → ℝ,
      Complex.exp (2 * Real.pi * I * ∑ d, (m d : ℂ) * (t d : ℂ) / (s d : ℂ))
        = ex (∑ d, (m d : ℝ) * t d / s d) := by
    intro t; unfold ex; congr 1; push_cast; rfl
  have hx : (fun i : (∀ d, Fin (s d)) =>
        Complex.exp (2 * Real.pi * I * ∑ d, (m d : ℂ) * ((i d : ℕ) : ℂ) / (s d : ℂ)))
      = fun i => e l i := by
    funext i
    have := hwave (fun d => ((i d : ℕ) : ℝ))
    push_cast at this
    rw [this, ex_sum, e_pi]
    refine Finset.prod_congr rfl fun d _ => ?_
    rw [e_fin]
    have := ex_div_congr ((Spec.wrap_modEq (s d) (m d)).mul_right (((i d : ℕ) : ℤ)))
    push_cast at this
    exact this.symm
  rw [hx, shiftnd_eq, shiftReturn_cplx, denan_cArr, filt_char]
  congr 1
  congr 1
  funext i
  have hi : e l i = ex (∑ d, (m d : ℝ) * ((i d : ℕ) : ℝ) / s d) := by
    rw [← congrFun hx i]
    have := hwave (fun d => ((i d : ℕ) : ℝ))
    push_cast at this
    exact this
  have := hwave (fun d => ((i d : ℕ) : ℝ) - a d)
  push_cast at this
  rw [this, hi, shiftKernel_zero, ← ex_add, freqND_ofFn, ← Finset.sum_neg_distrib,
    ← Finset.sum_add_distrib]
  congr 1
  refine Finset.sum_congr rfl fun d _ => ?_
  rw [Np.fftfreq_eq, hl]
  ring

/-- the hypothesis is met by e.g. the frequencies (1, -2) on a 4 × 5 image -/
example : ∀ d : Fin 2, 2 * |(![1, -2] : Fin 2 → ℤ) d| < ((![4, 5] : Fin 2 → ℕ) d : ℤ) := by decide

/-- a trigonometric polynomial: the plane waves of integer frequencies `m ∈ M` (cycles per image along each axis) with coefficients `c` -/
noncomputable def Spec.trigPoly {D : ℕ} (s : Fin D → ℕ) (M : Finset (Fin D → ℤ)) (c : (Fin D → ℤ) → ℂ) (t : Fin D → ℝ) : ℂ :=
  ∑ m ∈ M, c m * Complex.exp (2 * Real.pi * I * ∑ d, (m d : ℂ) * (t d : ℂ) / (s d : ℂ))

/-- C73 for every trigonometric polynomial below the Nyquist frequency: the samples become the samples of the function displaced by the
offset. -/
theorem C73_trig_polynomial (cfg : FFTConfig) (M : Finset (Fin D → ℤ)) (c : (Fin D → ℤ) → ℂ) (hM : ∀ m ∈ M, ∀ d, 2 * |m d| < s d)
    (a : Fin D → ℝ) :
    shiftnd cfg (cArr fun i : (∀ d, Fin (s d)) => Spec.trigPoly s M c fun d => ((i d : ℕ) : ℝ)) (List.ofFn a) 0 false false
      = .cplx (cArr fun i => Spec.trigPoly s M c fun d => ((i d : ℕ) : ℝ) - a d) := by
  classical
  induction M using Finset.induction_on with
  | empty =>
    have h := C05_linear_complex (s := s) cfg (fun _ => 0) (fun _ => 0) 0 0 (List.ofFn a) 0
    obtain ⟨u, v, -, -, h⟩ := h
    simpa [Spec.trigPoly] using h
  | insert m M hm ih =>
    have ih := ih fun m' h' => hM m' (Finset.mem_insert_of_mem h')
    have h1 := C73_bandlimited_exact (s := s) cfg m (hM m (Finset.mem_insert_self _ _)) a
    obtain ⟨u, v, hu, hv, h⟩ := C05_linear_complex (s := s) cfg (fun i =>
        Complex.exp (2 * Real.pi * I * ∑ d, (m d : ℂ) * ((i d : ℕ) : ℂ) / (s d : ℂ)))
        (fun i => Spec.trigPoly s M c fun d => ((i d : ℕ) : ℝ)) (c m) 1 (List.ofFn a) 0
    have cinj : ∀ x y : (∀ d, Fin (s d)) → ℂ, (NdOut.cplx (cArr x)) = NdOut.cplx (cArr y) → x = y := by
      intro x y hxy
      funext i
      have := congrFun (NdOut.cplx.inj hxy) i
      simpa [cArr] using this
    have e1 := cinj _ _ (hu.symm.trans h1)
    have e2 := cinj _ _ (hv.symm.trans ih)
    have ex : ∀ t : Fin D → ℝ, Spec.trigPoly s (insert m M) c t
        = c m * Complex.exp (2 * Real.pi * I * ∑ d, (m d : ℂ) * (t d : ℂ) / (s d : ℂ)) + 1 * Spec.trigPoly s M c t := by
      intro t; unfold Spec.trigPoly; rw [Finset.sum_insert hm, one_mul]
    simp only [ex]
    subst e1 e2
    push_cast
    exact h

/-- C73 for real images: if the pixels are real samples of a trigonometric polynomial below the Nyquist frequency, the default real output
is the real part of the displaced function. -/
theorem C73_trig_polynomial_real (cfg : FFTConfig) (M : Finset (Fin D → ℤ)) (c : (Fin D → ℤ) → ℂ)
    (hM : ∀ m ∈ M, ∀ d, 2 * |m d| < s d) (x : (∀ d, Fin (s d)) → ℝ) (hx : ∀ i, (x i : ℂ) = Spec.trigPoly s M c fun d => ((i d : ℕ) : ℝ))
    (a : Fin D → ℝ) (ra : Bool) :
    shiftnd cfg (rArr x) (List.ofFn a) 0 ra true
      = .real (realArr fun i => (Spec.trigPoly s M c fun d => ((i d : ℕ) : ℝ) - a d).re) := by
  obtain ⟨y, h1, h2, -⟩ := C08_modes (s := s) cfg (rArr x) (List.ofFn a) 0
  have h3 := C73_trig_polynomial cfg M c hM a
  have : rArr x = cArr fun i : (∀ d, Fin (s d)) => Spec.trigPoly s M c fun d => ((i d : ℕ) : ℝ) := by
    funext i; simp [rArr, cArr, hx]
  rw [this] at h1
  rw [h2 ra]
  congr 1
  funext i
  have e := h1.symm.trans h3
  have := congrFun (NdOut.cplx.inj e) i
  simp only [cArr, Option.some.injEq] at this
  simp only [realArr, this]

/-- a real trigonometric polynomial meeting the hypotheses: the cosine wave of one period on a five-pixel row, for which the real output
is the displaced cosine at every real offset -/
example (cfg : FFTConfig) (a : ℝ) :
    shiftnd (s := fun _ : Fin 1 => 5) cfg (rArr fun i => Real.cos (2 * Real.pi * (i 0 : ℕ) / 5)) [a] 0 false true
      = .real (realArr fun i => Real.cos (2 * Real.pi * ((i 0 : ℕ) - a) / 5)) := by
  have key : ∀ t : Fin 1 → ℝ, Spec.trigPoly (fun _ : Fin 1 => 5) {fun _ => 1, fun _ => -1} (fun _ => 1 / 2) t
      = ((Real.cos (2 * Real.pi * t 0 / 5) : ℝ) : ℂ) := by
    intro t
    unfold Spec.trigPoly
    rw [Finset.sum_pair (by intro h; have := congrFun h 0; norm_num at this)]
    rw [Complex.ofReal_cos, Complex.cos]
    simp only [Fin.sum_univ_one]
    have e1 : 2 * (Real.pi : ℂ) * I * (((1 : ℤ) : ℂ) * (t 0 : ℂ) / ((5 : ℕ) : ℂ)) = ((2 * Real.pi * t 0 / 5 : ℝ) : ℂ) * I := by
      push_cast; ring
    have e2 : 2 * (Real.pi : ℂ) * I * (((-1 : ℤ) : ℂ) * (t 0 : ℂ) / ((5 : ℕ) : ℂ)) = -((2 * Real.pi * t 0 / 5 : ℝ) : ℂ) * I := by
      push_cast; ring
    rw [e1, e2]
    ring
  have h := C73_trig_polynomial_real (s := fun _ : Fin 1 => 5) cfg {fun _ => 1, fun _ => -1} (fun _ => 1 / 2)
    (by intro m hm d
        rcases Finset.mem_insert.1 hm with rfl | hm
        · norm_num
        · rw [Finset.mem_singleton.1 hm]; norm_num)
    (fun i => Real.cos (2 * Real.pi * (i 0 : ℕ) / 5)) (fun i => (key fun d => ((i d : ℕ) : ℝ)).symm) (fun _ => a) false
  simp only [key, Complex.ofReal_re] at h
  simpa using h

end C73

end ImgReg
