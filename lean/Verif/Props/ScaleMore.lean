import Verif.Lemmas.Sinc
import Verif.Props.Scale
import Mathlib.Tactic.NormNum

/-!
# Property C87 (the interpolation kernel) and further theorems for C09, C11, C13, C74
-/

open Complex Finset
open scoped ComplexConjugate

namespace ImgReg

/-! ## C87: Fourier interpolation is periodic-sinc interpolation -/

/-- C87: for every real signal and every real coordinate, the default result is
`Σ_j data[j]·psinc_n(t - j)`. -/
theorem C87_interp1d_kernel {n : ℕ} [NeZero n] (cfg : FFTConfig) (x : Fin n → ℝ) {m : ℕ}
    (t : Fin m → ℝ) :
    fourierInterp1d cfg (rArr x) (Arr.ofVec t) none true
      = .ok ⟨m, .real (realArr fun i => ∑ j : Fin n, x j * Spec.psinc n (t i - ((j : ℕ) : ℝ)))⟩ := by
  rw [rArr_eq_cArr, fourierInterp1d_vec, retReal_true]
  congr 4
  funext i
  rw [interpC_kernel, Complex.re_sum]
  refine sum_congr rfl fun j _ => ?_
  rw [Complex.re_ofReal_mul]
  simp

/-- C87, complex data and complex result: the kernel of an even-length axis carries the unpaired
Nyquist term `i sin(πu)/n`. -/
theorem C87_interp1d_kernel_complex {n : ℕ} [NeZero n] (cfg : FFTConfig) (x : Fin n → ℂ) {m : ℕ}
    (t : Fin m → ℝ) :
    fourierInterp1d cfg (cArr x) (Arr.ofVec t) none false
      = .ok ⟨m, .cplx (cArr fun i => ∑ j : Fin n, x j *
          (((Spec.psinc n (t i - ((j : ℕ) : ℝ)) : ℝ) : ℂ)
            + ((Spec.nyq n (t i - ((j : ℕ) : ℝ)) : ℝ) : ℂ) * I))⟩ := by
  rw [fourierInterp1d_vec, retReal_false]
  simp only [interpC_kernel]

theorem interp2C_kernel {ny nx : ℕ} [NeZero ny] [NeZero nx] (x : Fin ny × Fin nx → ℂ)
    (ty tx : ℝ) :
    interp2C x ty tx = ∑ p : Fin ny × Fin nx, x p *
      ((((Spec.psinc ny (ty - ((p.1 : ℕ) : ℝ)) : ℝ) : ℂ)
        + ((Spec.nyq ny (ty - ((p.1 : ℕ) : ℝ)) : ℝ) : ℂ) * I) *
      (((Spec.psinc nx (tx - ((p.2 : ℕ) : ℝ)) : ℝ) : ℂ)
        + ((Spec.nyq nx (tx - ((p.2 : ℕ) : ℝ)) : ℝ) : ℂ) * I)) := by
  rw [interp2C_sep, interpC_kernel, Fintype.sum_prod_type_right]
  refine sum_congr rfl fun j _ => ?_
  rw [interpC_kernel, sum_mul]
  refine sum_congr rfl fun i _ => ?_
  ring

/-- C87 in two dimensions, complex mode: the kernel is the product of the two axis kernels. -/
theorem C87_interp2d_kernel_complex {ny nx : ℕ} [NeZero ny] [NeZero nx] (cfg : FFTConfig)
    (x : Fin ny × Fin nx → ℂ) {m l : ℕ} (ty : Fin m → ℝ) (tx : Fin l → ℝ) :
    fourierInterp2d cfg (cArr x) (pairInds ty tx) false
      = .ok ⟨m, l, .cplx (cArr fun i => ∑ p : Fin ny × Fin nx, x p *
          ((((Spec.psinc ny (ty i.1 - ((p.1 : ℕ) : ℝ)) : ℝ) : ℂ)
            + ((Spec.nyq ny (ty i.1 - ((p.1 : ℕ) : ℝ)) : ℝ) : ℂ) * I) *
          (((Spec.psinc nx (tx i.2 - ((p.2 : ℕ) : ℝ)) : ℝ) : ℂ)
            + ((Spec.nyq nx (tx i.2 - ((p.2 : ℕ) : ℝ)) : ℝ) : ℂ) * I)))⟩ := by
  rw [fourierInterp2d_ok cfg _ _ rfl ⟨m, _⟩ ⟨l, _⟩ rfl rfl, retReal_false]
  simp only [interp2C_kernel]

/-- C87 in two dimensions, real image, default mode: `psinc·psinc` minus the product of the two
Nyquist terms, which vanishes unless both axes have even length. -/
theorem C87_interp2d_kernel {ny nx : ℕ} [NeZero ny] [NeZero nx] (cfg : FFTConfig)
    (x : Fin ny × Fin nx → ℝ) {m l : ℕ} (ty : Fin m → ℝ) (tx : Fin l → ℝ) :
    fourierInterp2d cfg (rArr x) (pairInds ty tx) true
      = .ok ⟨m, l, .real (realArr fun i => ∑ p : Fin ny × Fin nx, x p *
          (Spec.psinc ny (ty i.1 - ((p.1 : ℕ) : ℝ)) * Spec.psinc nx (tx i.2 - ((p.2 : ℕ) : ℝ))
            - Spec.nyq ny (ty i.1 - ((p.1 : ℕ) : ℝ)) * Spec.nyq nx (tx i.2 - ((p.2 : ℕ) : ℝ))))⟩ := by
  rw [rArr_eq_cArr, fourierInterp2d_ok cfg _ _ rfl ⟨m, _⟩ ⟨l, _⟩ rfl rfl, retReal_true]
  congr 3
  funext i
  unfold realArr
  congr 1
  show (interp2C (fun i => ((x i : ℝ) : ℂ)) (ty i.1) (tx i.2)).re = _
  rw [interp2C_kernel, Complex.re_sum]
  refine sum_congr rfl fun p _ => ?_
  rw [Complex.re_ofReal_mul]
  simp [Complex.mul_re]

/-- C87 for `shift2d`: a real image shifted by `(dx, dy)` (default mode) is resampled with the same
kernel, periodically. -/
theorem C87_shift2d_kernel {ny nx : ℕ} [NeZero ny] [NeZero nx] (cfg : FFTConfig)
    (x : Fin ny × Fin nx → ℝ) (dx dy : ℝ) (ra : Bool) :
    shift2d cfg (rArr x) dx dy 0 ra true
      = .real (realArr fun i => ∑ p : Fin ny × Fin nx, x p *
          (Spec.psinc ny (((i.1 : ℕ) : ℝ) - dy - ((p.1 : ℕ) : ℝ)) *
              Spec.psinc nx (((i.2 : ℕ) : ℝ) - dx - ((p.2 : ℕ) : ℝ))
            - Spec.nyq ny (((i.1 : ℕ) : ℝ) - dy - ((p.1 : ℕ) : ℝ)) *
              Spec.nyq nx (((i.2 : ℕ) : ℝ) - dx - ((p.2 : ℕ) : ℝ)))) := by
  obtain ⟨y, h1, h2⟩ := C12_interp_eq_shift_2d cfg x dx dy ra
  rw [h1]
  rw [C87_interp2d_kernel] at h2
  simp only [Except.ok.injEq, Out2.mk.injEq, heq_eq_eq, true_and, NdOut.real.injEq] at h2
  rw [← h2]

/-- C87 for a 1-D signal and `shiftnd`. -/
theorem C87_shift1d_kernel {n : ℕ} [NeZero n] (cfg : FFTConfig) (x : Fin n → ℝ) (d : ℝ)
    (ra : Bool) :
    shiftnd (D := 1) (s := fun _ => n) cfg (rArr fun i => x (i 0)) [d] 0 ra true
      = .real (realArr fun i => ∑ j : Fin n,
          x j * Spec.psinc n (((i 0 : ℕ) : ℝ) - d - ((j : ℕ) : ℝ))) := by
  obtain ⟨y, h1, h2⟩ := C12_interp_eq_shift_1d cfg x d ra
  rw [h1]
  rw [C87_interp1d_kernel] at h2
  simp only [Except.ok.injEq, Out1.mk.injEq, heq_eq_eq, true_and, NdOut.real.injEq] at h2
  congr 1
  funext i
  have := congrFun h2 (i 0)
  unfold realArr at this ⊢
  simp only [Option.some.injEq] at this
  exact congrArg some this.symm

/-- C87: the kernel is `1` at the pixel itself and `0` at every other pixel of the period (which is
why samples are reproduced). -/
theorem C87_kernel_at_integers {n : ℕ} [NeZero n] (z : ℤ) :
    Spec.psinc n (z : ℝ) = if (n : ℤ) ∣ z then 1 else 0 := by
  have hn : (n : ℝ) ≠ 0 := Nat.cast_ne_zero.2 (NeZero.ne n)
  have hsin : Real.sin (Real.pi * (z : ℝ)) = 0 := by
    rw [mul_comm]; exact Real.sin_int_mul_pi z
  unfold Spec.psinc
  by_cases h : Real.sin (Real.pi * (z : ℝ) / n) = 0
  · obtain ⟨k, hk⟩ := period_of_sin_zero h
    rw [if_pos h, if_pos]
    exact ⟨k, by rw [mul_comm]; exact_mod_cast hk⟩
  · have hnd : ¬ (n : ℤ) ∣ z := by
      rintro ⟨k, rfl⟩
      apply h
      rw [show Real.pi * (((n : ℤ) * k : ℤ) : ℝ) / n = (k : ℝ) * Real.pi by
        push_cast; field_simp]
      exact Real.sin_int_mul_pi k
    rw [if_neg h, if_neg hnd, hsin]; simp

/-- C87: the weights given to the pixels add up to one at every coordinate, so a constant signal is
reproduced everywhere. -/
theorem C87_kernel_sum {n : ℕ} [NeZero n] (t : ℝ) :
    ∑ j : Fin n, Spec.psinc n (t - ((j : ℕ) : ℝ)) = 1 := by
  have hn : 0 < n := Nat.pos_of_ne_zero (NeZero.ne n)
  have h1 := interpC_exp (n := n) 0 (by simpa using hn) t
  simp only [Int.cast_zero, zero_mul, zero_div, ex_zero] at h1
  rw [interpC_kernel] at h1
  have := congrArg Complex.re h1
  rw [Complex.re_sum] at this
  simpa using this

example : Spec.psinc 3 (1 / 2) = 2 / 3 := by
  have h6 : Real.sin (Real.pi * (1 / 2) / (3 : ℕ)) = 1 / 2 := by
    rw [show Real.pi * (1 / 2) / ((3 : ℕ) : ℝ) = Real.pi / 6 by push_cast; ring,
      Real.sin_pi_div_six]
  have h2 : Real.sin (Real.pi * (1 / 2)) = 1 := by
    rw [show Real.pi * (1 / 2) = Real.pi / 2 by ring, Real.sin_pi_div_two]
  unfold Spec.psinc
  rw [h6, h2, if_neg (by norm_num), if_neg (by norm_num)]
  norm_num

/-! ## C13: modes, NaN data, empty index cubes -/

/-- C13: for every data array (NaNs included) the default result is the real part of the complex
one, entry by entry; exceptions agree. -/
theorem C13_modes_1d {n : ℕ} [NeZero n] (cfg : FFTConfig) (data : Fin n → CPix) {m : ℕ}
    (t : Fin m → ℝ) (dx : Option (Fin n → ℝ)) :
    ∃ r : Fin m → CPix,
      fourierInterp1d cfg data (Arr.ofVec t) (dx.map Arr.ofVec) false = .ok ⟨m, .cplx r⟩ ∧
      fourierInterp1d cfg data (Arr.ofVec t) (dx.map Arr.ofVec) true
        = .ok ⟨m, .real fun i => (r i).map Complex.re⟩ := by
  cases dx with
  | none =>
    unfold fourierInterp1d
    simp only [Option.map_none, Arr.ofVec_ndim, ne_eq, not_true_eq_false, if_false,
      Bool.false_eq_true, if_true]
    exact ⟨_, rfl, rfl⟩
  | some dx =>
    have hs : (Arr.ofVec dx).shape = [n] := rfl
    unfold fourierInterp1d
    simp only [Option.map_some, Arr.ofVec_ndim, ne_eq, hs, not_true_eq_false, if_false,
      Bool.false_eq_true, if_true]
    exact ⟨_, rfl, rfl⟩

/-- C13: one NaN anywhere in the data makes every interpolated value NaN. -/
theorem C13_nan_1d {n : ℕ} [NeZero n] (cfg : FFTConfig) (data : Fin n → CPix) (i₀ : Fin n)
    (hnan : data i₀ = none) {m : ℕ} (t : Fin m → ℝ) :
    fourierInterp1d cfg data (Arr.ofVec t) none true = .ok ⟨m, .real fun _ => none⟩ ∧
    fourierInterp1d cfg data (Arr.ofVec t) none false = .ok ⟨m, .cplx fun _ => none⟩ := by
  have hall : ¬ ∀ i, (data i).isSome := fun h => by have := h i₀; rw [hnan] at this; simp at this
  have hif : Np.ifftn data = fun _ => none := by unfold Np.ifftn; rw [if_neg hall]
  have hdot : ∀ kern : Fin n × Fin m → CPix, Np.dotV (fun _ : Fin n => none) kern
      = fun _ => none := by
    intro kern; funext i; unfold Np.dotV
    rw [if_neg]
    intro h; have := (h i₀).1; simp at this
  have key : ∀ rr, fourierInterp1d cfg data (Arr.ofVec t) none rr
      = .ok (if rr then ⟨m, .real fun _ => none⟩ else ⟨m, .cplx fun _ => none⟩) := by
    intro rr
    unfold fourierInterp1d
    simp only [Arr.ofVec_ndim, ne_eq, not_true_eq_false, if_false, getFfts_eq, hif]
    have := hdot fun i => some (Complex.exp ((-I * 2 * Real.pi) * (Np.fftfreq n i.1 : ℂ)
      * (((Arr.ofVec t).val [((i.2 : Fin m) : ℕ)] : ℝ) : ℂ)))
    cases rr with
    | true =>
      simp only [if_true]
      exact congrArg (fun r : Fin m → CPix => (Except.ok ⟨m, .real (Np.real r)⟩ : Py Out1)) this
    | false =>
      simp only [Bool.false_eq_true, if_false]
      exact congrArg (fun r : Fin m → CPix => (Except.ok ⟨m, .cplx r⟩ : Py Out1)) this
  exact ⟨key true, key false⟩

/-- C13: the same for images: default mode is the real part of complex mode, with the same
exceptions, for every form of `outinds`. -/
theorem C13_modes_2d {ny nx : ℕ} [NeZero ny] [NeZero nx] (cfg : FFTConfig)
    (data : Fin ny × Fin nx → CPix) (o : OutInds) :
    (∃ err, fourierInterp2d cfg data o false = .error err ∧
      fourierInterp2d cfg data o true = .error err) ∨
    (∃ (m l : ℕ) (r : Fin m × Fin l → CPix),
      fourierInterp2d cfg data o false = .ok ⟨m, l, .cplx r⟩ ∧
      fourierInterp2d cfg data o true = .ok ⟨m, l, .real fun i => (r i).map Complex.re⟩) := by
  unfold fourierInterp2d
  cases hc : checkOutInds o with
  | error err => left; exact ⟨err, rfl, rfl⟩
  | ok u =>
    cases hy : coordY o with
    | error err => left; exact ⟨err, rfl, rfl⟩
    | ok vy =>
      cases hx : coordX o with
      | error err => left; exact ⟨err, rfl, rfl⟩
      | ok vx => right; exact ⟨_, _, _, rfl, rfl⟩

/-- C13: one NaN pixel makes the whole resampled image NaN. -/
theorem C13_nan_2d {ny nx : ℕ} [NeZero ny] [NeZero nx] (cfg : FFTConfig)
    (data : Fin ny × Fin nx → CPix) (i₀ : Fin ny × Fin nx) (hnan : data i₀ = none) {m l : ℕ}
    (ty : Fin m → ℝ) (tx : Fin l → ℝ) :
    fourierInterp2d cfg data (pairInds ty tx) true = .ok ⟨m, l, .real fun _ => none⟩ := by
  have hall : ¬ ∀ i, (data i).isSome := fun h => by have := h i₀; rw [hnan] at this; simp at this
  have hif : Np.ifftn data = fun _ => none := by unfold Np.ifftn; rw [if_neg hall]
  have hdot1 : ∀ kern : Fin m × Fin ny → CPix, Np.dot kern (fun _ : Fin ny × Fin nx => none)
      = fun _ => none := by
    intro kern; funext i; unfold Np.dot
    rw [if_neg]
    intro h; have := (h i₀.1).2; simp at this
  have hdot2 : ∀ kern : Fin nx × Fin l → CPix, Np.dot (fun _ : Fin m × Fin nx => none) kern
      = fun _ => none := by
    intro kern; funext i; unfold Np.dot
    rw [if_neg]
    intro h; have := (h i₀.2).1; simp at this
  unfold fourierInterp2d
  have hc : checkOutInds (pairInds ty tx) = .ok () := rfl
  have hy : coordY (pairInds ty tx) = .ok ⟨m, ty⟩ := rfl
  have hx : coordX (pairInds ty tx) = .ok ⟨l, tx⟩ := rfl
  simp only [hc, hy, hx, getFfts_eq, hif, hdot1, hdot2, bind, Except.bind, if_true, pure,
    Except.pure]
  rfl

/-- C13: an index cube of shape `(2, m, l)` with an empty axis is an IndexError (its first line is
read), not an empty result. -/
theorem C13_empty_cube {ny nx : ℕ} [NeZero ny] [NeZero nx] (cfg : FFTConfig)
    (data : Fin ny × Fin nx → CPix) (a : Arr) (m l : ℕ) (hs : a.shape = [2, m, l])
    (h0 : m = 0 ∨ l = 0) (rr : Bool) :
    fourierInterp2d cfg data (.nd a) rr = .error .indexError := by
  have hnd : a.ndim = 3 := by simp [Arr.ndim, hs]
  have hd0 : a.dim 0 = 2 := by simp [Arr.dim, hs]
  have hd1 : a.dim 1 = m := by simp [Arr.dim, hs]
  have hd2 : a.dim 2 = l := by simp [Arr.dim, hs]
  unfold fourierInterp2d
  by_cases hl : l = 0
  · simp [checkOutInds, coordY, hnd, hd0, hd2, hl, bind, Except.bind]
  · have hm : m = 0 := h0.resolve_right hl
    simp [checkOutInds, coordY, coordX, hnd, hd0, hd1, hd2, hl, hm, bind, Except.bind]

/-! ## C74: a general increasing table -/

/-- C74: for an arbitrary increasing table `data_x`, an abscissa between the consecutive entries
`j` and `j+1` is interpolated at the pixel coordinate
`j + (t - data_x[j])/(data_x[j+1] - data_x[j])`. -/
theorem C74_data_x_between {n : ℕ} [NeZero n] (cfg : FFTConfig) (x : Fin n → ℂ) (dx : Fin n → ℝ)
    (hdx : StrictMono dx) {m : ℕ} (t : Fin m → ℝ) (j j' : Fin m → Fin n)
    (hj : ∀ i, (j' i : ℕ) = j i + 1) (h0 : ∀ i, dx (j i) ≤ t i) (h1 : ∀ i, t i ≤ dx (j' i))
    (rr : Bool) :
    fourierInterp1d cfg (cArr x) (Arr.ofVec t) (some (Arr.ofVec dx)) rr
      = fourierInterp1d cfg (cArr x)
          (Arr.ofVec fun i => ((j i : ℕ) : ℝ) + (t i - dx (j i)) / (dx (j' i) - dx (j i))) none rr := by
  rw [fourierInterp1d_vec_some, fourierInterp1d_vec]
  congr 3
  funext i
  congr 1
  have hlt : (j i : ℕ) + 1 < n := by rw [← hj i]; exact (j' i).isLt
  have hj' : j' i = ⟨j i + 1, hlt⟩ := Fin.ext (hj i)
  have hpos : 0 < dx (j' i) - dx (j i) := by
    have : dx (j i) < dx (j' i) := hdx (by show (j i : ℕ) < j' i; rw [hj i]; omega)
    linarith
  rcases (h1 i).lt_or_eq with hlt1 | heq
  · unfold Np.interp
    rw [Np.lastLE_eq hdx (j i) (t i) (h0 i) (fun h => by rw [← hj']; exact hlt1)]
    simp only
    rw [dif_pos hlt, ← hj']
    push_cast
    ring
  · rw [heq, Np.interp_at hdx, hj i, div_self hpos.ne']
    push_cast
    ring

example : StrictMono (![0, 1, 4] : Fin 3 → ℝ) ∧ (![0, 1, 4] : Fin 3 → ℝ) 1 ≤ 2 ∧
    (2 : ℝ) ≤ (![0, 1, 4] : Fin 3 → ℝ) 2 := by
  refine ⟨?_, by norm_num, ?_⟩
  · intro a b hab
    fin_cases a <;> fin_cases b <;> simp_all
  · show (2 : ℝ) ≤ 4
    norm_num

end ImgReg
