import Verif.Model.InexactShift
import Verif.Lemmas.Inexact

/-! # Error bounds for `shift2d` and `shiftnd` in inexact arithmetic -/

open Complex Finset
open scoped ComplexConjugate

namespace ImgReg

/-- Every operation has relative error at most `δ`: the two transforms in root-mean-square, `exp(-ix)` absolutely (its modulus is 1), the
others relative to the result. -/
structure Spec.ShiftAccurate (A : ShiftArith) (δ : ℝ) : Prop where
  fft : ∀ {ι : Type} [AddCommGroup ι] [Fintype ι] [DecidableEq ι] [FFTIndex ι] (x : ι → ℂ),
    Real.sqrt (∑ k, ‖A.fft x k - dft x k‖ ^ 2) ≤ δ * Real.sqrt (∑ k, ‖dft x k‖ ^ 2)
  ifft : ∀ {ι : Type} [AddCommGroup ι] [Fintype ι] [DecidableEq ι] [FFTIndex ι] (y : ι → ℂ),
    Real.sqrt (∑ i, ‖A.ifft y i - idft y i‖ ^ 2) ≤ δ * Real.sqrt (∑ i, ‖idft y i‖ ^ 2)
  freq : ∀ (n : ℕ) (k : Fin n), |A.freq n k - Np.fftfreq n k| ≤ δ * |Np.fftfreq n k|
  mulR : ∀ x y : ℝ, |A.mulR x y - x * y| ≤ δ * |x * y|
  addR : ∀ x y : ℝ, |A.addR x y - (x + y)| ≤ δ * |x + y|
  twoPi : |A.twoPi - 2 * Real.pi| ≤ δ * (2 * Real.pi)
  expNegI : ∀ x : ℝ, ‖A.expNegI x - Complex.exp (-I * x)‖ ≤ δ
  mul : ∀ z w : ℂ, ‖A.mul z w - z * w‖ ≤ δ * ‖z * w‖
  abs : ∀ z : ℂ, |A.abs z - ‖z‖| ≤ δ * ‖z‖

theorem Spec.ShiftAccurate.nonneg {A : ShiftArith} {δ : ℝ} (h : Spec.ShiftAccurate A δ) : 0 ≤ δ := by
  have := (abs_nonneg _).trans (h.abs 1)
  simpa using this

/-- `x'` approximates `x`: sizes at most `B'` and `B`, distance at most `B' - B` -/
structure Near (x' x B' B : ℝ) : Prop where
  le' : |x'| ≤ B'
  le : |x| ≤ B
  dist : |x' - x| ≤ B' - B

namespace Near
variable {x' x B' B y' y C' C δ : ℝ}

theorem nonneg (h : Near x' x B' B) : 0 ≤ B := (abs_nonneg _).trans h.le
theorem nonneg' (h : Near x' x B' B) : 0 ≤ B' := (abs_nonneg _).trans h.le'
theorem le_bound (h : Near x' x B' B) : B ≤ B' := by have := (abs_nonneg _).trans h.dist; linarith

theorem mono (h : Near x' x B' B) (hC : B' ≤ C') : Near x' x C' B :=
  ⟨h.le'.trans hC, h.le, by have := h.dist; linarith⟩

theorem refl (x : ℝ) : Near x x |x| |x| := ⟨le_rfl, le_rfl, by simp⟩

theorem add (h : Near x' x B' B) (k : Near y' y C' C) : Near (x' + y') (x + y) (B' + C') (B + C) := by
  refine ⟨(abs_add_le _ _).trans (add_le_add h.le' k.le'), (abs_add_le _ _).trans (add_le_add h.le k.le), ?_⟩
  have e : x' + y' - (x + y) = (x' - x) + (y' - y) := by ring
  rw [e]
  have := abs_add_le (x' - x) (y' - y)
  have := h.dist; have := k.dist
  linarith

theorem mul (h : Near x' x B' B) (k : Near y' y C' C) : Near (x' * y') (x * y) (B' * C') (B * C) := by
  refine ⟨?_, ?_, ?_⟩
  · rw [abs_mul]; exact mul_le_mul h.le' k.le' (abs_nonneg _) h.nonneg'
  · rw [abs_mul]; exact mul_le_mul h.le k.le (abs_nonneg _) h.nonneg
  · have e : x' * y' - x * y = (x' - x) * y' + x * (y' - y) := by ring
    rw [e]
    have h1 := abs_add_le ((x' - x) * y') (x * (y' - y))
    rw [abs_mul, abs_mul] at h1
    have h2 := mul_le_mul h.dist k.le' (abs_nonneg _) (by have := h.le_bound; linarith)
    have h3 := mul_le_mul h.le k.dist (abs_nonneg _) h.nonneg
    nlinarith

theorem step (h0 : 0 ≤ δ) (h : Near x' x B' B) (hy : |y - x'| ≤ δ * |x'|) : Near y x ((1 + δ) * B') B := by
  have h1 := mul_le_mul_of_nonneg_left h.le' h0
  have h2 := abs_add_le (y - x') x'
  have h3 := abs_add_le (y - x') (x' - x)
  rw [sub_add_cancel] at h2
  rw [sub_add_sub_cancel] at h3
  have := h.le'; have := h.dist
  exact ⟨by linarith, h.le, by linarith⟩

end Near

section
variable {A : ShiftArith} {δ : ℝ} (hA : Spec.ShiftAccurate A δ)
include hA

theorem freq_near (n : ℕ) (k : Fin n) : Near (A.freq n k) (Np.fftfreq n k) ((1 + δ) * (1 / 2)) (1 / 2) :=
  have : NeZero n := ⟨k.pos.ne'⟩
  Near.step hA.nonneg ⟨abs_fftfreq_le n k, abs_fftfreq_le n k, by simp⟩ (hA.freq n k)

theorem offFreq_near (off : ℝ) (n : ℕ) (k : Fin n) :
    Near (A.mulR off (A.freq n k)) (off * Np.fftfreq n k) ((1 + δ) ^ 2 * (|off| / 2)) (|off| / 2) := by
  have h := Near.step hA.nonneg ((Near.refl off).mul (freq_near hA n k)) (hA.mulR _ _)
  have e1 : (1 + δ) * (|off| * ((1 + δ) * (1 / 2))) = (1 + δ) ^ 2 * (|off| / 2) := by ring
  have e2 : |off| * (1 / 2) = |off| / 2 := by ring
  rwa [e1, e2] at h

theorem grid2_near {ny nx : ℕ} (dx dy : ℝ) (i : Fin ny × Fin nx) :
    Near (A.addR (A.mulR dx (A.freq nx i.2)) (A.mulR dy (A.freq ny i.1))) (dx * Np.fftfreq nx i.2 + dy * Np.fftfreq ny i.1)
      ((1 + δ) ^ 3 * ((|dx| + |dy|) / 2)) ((|dx| + |dy|) / 2) := by
  have h := Near.step hA.nonneg ((offFreq_near hA dx nx i.2).add (offFreq_near hA dy ny i.1)) (hA.addR _ _)
  have e1 : (1 + δ) * ((1 + δ) ^ 2 * (|dx| / 2) + (1 + δ) ^ 2 * (|dy| / 2)) = (1 + δ) ^ 3 * ((|dx| + |dy|) / 2) := by ring
  have e2 : |dx| / 2 + |dy| / 2 = (|dx| + |dy|) / 2 := by ring
  rwa [e1, e2] at h

theorem gridN_near {D : ℕ} {s : Fin D → ℕ} (i : ∀ d, Fin (s d)) (ds : List (Fin D)) : ∀ (l : List ℝ) (m : ℕ) (acc' acc B : ℝ),
    2 ≤ m → Near acc' acc ((1 + δ) ^ m * B) B →
    Near ((List.zipWith (fun off d => A.mulR off (A.freq (s d) (i d))) l ds).foldl A.addR acc')
      (acc + (List.zipWith (fun off d => off * Np.fftfreq (s d) (i d)) l ds).sum)
      ((1 + δ) ^ (m + ds.length) * (B + ((l.take ds.length).map fun a => |a|).sum / 2))
      (B + ((l.take ds.length).map fun a => |a|).sum / 2) := by
  have h0 := hA.nonneg
  have h1 : 1 ≤ 1 + δ := by linarith
  induction ds with
  | nil =>
    intro l m acc' acc B _ h
    simpa using h
  | cons d ds ih =>
    intro l m acc' acc B hm h
    cases l with
    | nil =>
      simp only [List.zipWith_nil_left, List.foldl_nil, List.sum_nil, add_zero, List.take_nil, List.map_nil, zero_div]
      refine h.mono ?_
      exact mul_le_mul_of_nonneg_right (pow_le_pow_right₀ h1 (by omega)) h.nonneg
    | cons a l =>
      have hs := Near.step h0 (h.add (offFreq_near hA a (s d) (i d))) (hA.addR _ _)
      have hle : (1 + δ) * ((1 + δ) ^ m * B + (1 + δ) ^ 2 * (|a| / 2)) ≤ (1 + δ) ^ (m + 1) * (B + |a| / 2) := by
        have : (1 + δ) ^ 2 * (|a| / 2) ≤ (1 + δ) ^ m * (|a| / 2) :=
          mul_le_mul_of_nonneg_right (pow_le_pow_right₀ h1 hm) (by positivity)
        have h2 := mul_le_mul_of_nonneg_left this (by linarith : (0 : ℝ) ≤ 1 + δ)
        have e : (1 + δ) ^ (m + 1) * (B + |a| / 2) = (1 + δ) * ((1 + δ) ^ m * B) + (1 + δ) * ((1 + δ) ^ m * (|a| / 2)) := by ring
        rw [e]; linarith
      have := ih l (m + 1) _ _ _ (by omega) (hs.mono hle)
      simp only [List.zipWith_cons_cons, List.foldl_cons, List.sum_cons, List.length_cons, List.take_succ_cons, List.map_cons]
      have e1 : m + (ds.length + 1) = m + 1 + ds.length := by ring
      have e2 : B + (|a| + (List.map (fun a => |a|) (List.take ds.length l)).sum) / 2
          = B + |a| / 2 + (List.map (fun a => |a|) (List.take ds.length l)).sum / 2 := by ring
      rw [e1, e2, ← add_assoc]
      exact this

/-- the argument of the exponential -/
theorem arg_near {g' g G : ℝ} {m : ℕ} (hg : Near g' g ((1 + δ) ^ m * G) G) (phase : ℝ) :
    Near (A.addR (A.mulR A.twoPi g') phase) (2 * Real.pi * g + phase)
      ((1 + δ) ^ (m + 3) * (2 * Real.pi * G + |phase|)) (2 * Real.pi * G + |phase|) := by
  have h0 := hA.nonneg
  have hpi : (0 : ℝ) < 2 * Real.pi := by positivity
  have h1 : Near A.twoPi (2 * Real.pi) ((1 + δ) * (2 * Real.pi)) (2 * Real.pi) :=
    Near.step h0 ⟨(abs_of_pos hpi).le, (abs_of_pos hpi).le, by simp⟩ (by rw [abs_of_pos hpi]; exact hA.twoPi)
  have h2 := Near.step h0 (h1.mul hg) (hA.mulR _ _)
  have h3 := Near.step h0 (h2.add (Near.refl phase)) (hA.addR _ _)
  refine h3.mono ?_
  have h4 : |phase| ≤ (1 + δ) ^ (m + 2) * |phase| := le_mul_of_one_le_left (abs_nonneg _) (one_le_pow₀ (by linarith))
  have h5 := mul_le_mul_of_nonneg_left h4 (by linarith : (0 : ℝ) ≤ 1 + δ)
  have e : (1 + δ) ^ (m + 3) * (2 * Real.pi * G + |phase|)
      = (1 + δ) * ((1 + δ) * ((1 + δ) * (2 * Real.pi) * ((1 + δ) ^ m * G))) + (1 + δ) * ((1 + δ) ^ (m + 2) * |phase|) := by ring
  rw [e]; linarith

end

theorem norm_expI_sub_le (x y : ℝ) : ‖Complex.exp (-I * x) - Complex.exp (-I * y)‖ ≤ |x - y| := by
  have e : Complex.exp (-I * x) - Complex.exp (-I * y) = Complex.exp (-I * y) * (Complex.exp (I * ((y - x : ℝ) : ℂ)) - 1) := by
    rw [mul_sub, ← Complex.exp_add, mul_one]
    congr 2
    push_cast; ring
  rw [e, norm_mul]
  have h1 : ‖Complex.exp (-I * y)‖ = 1 := by
    rw [Complex.norm_exp]; simp
  rw [h1, one_mul]
  have := Real.norm_exp_I_mul_ofReal_sub_one_le (x := y - x)
  rwa [Real.norm_eq_abs, abs_sub_comm] at this

/-- how far a computed shift kernel can be from the exact one: `m` roundings in an argument of size at most `θ` -/
noncomputable def Spec.kernelErr (δ : ℝ) (m : ℕ) (θ : ℝ) : ℝ := δ + ((1 + δ) ^ m - 1) * θ

/-- relative root-mean-square error of a computed shift -/
noncomputable def Spec.shiftErr (δ : ℝ) (m : ℕ) (θ : ℝ) : ℝ := (1 + δ) ^ 3 * (1 + Spec.kernelErr δ m θ) - 1

section
variable {A : ShiftArith} {δ : ℝ} (hA : Spec.ShiftAccurate A δ)
include hA

theorem kernel_near {g' g G : ℝ} {m : ℕ} (hg : Near g' g ((1 + δ) ^ m * G) G) (phase : ℝ) :
    ‖A.expNegI (A.addR (A.mulR A.twoPi g') phase) - shiftKernel g phase‖
      ≤ Spec.kernelErr δ (m + 3) (2 * Real.pi * G + |phase|) := by
  have h1 := hA.expNegI (A.addR (A.mulR A.twoPi g') phase)
  have h2 := arg_near hA hg phase
  have h3 := norm_expI_sub_le (A.addR (A.mulR A.twoPi g') phase) (2 * Real.pi * g + phase)
  have e : shiftKernel g phase = Complex.exp (-I * ((2 * Real.pi * g + phase : ℝ) : ℂ)) := by
    unfold shiftKernel; congr 1; push_cast; ring
  rw [e]
  have h4 := norm_add_le (A.expNegI (A.addR (A.mulR A.twoPi g') phase) - Complex.exp (-I * (A.addR (A.mulR A.twoPi g') phase : ℝ)))
    (Complex.exp (-I * (A.addR (A.mulR A.twoPi g') phase : ℝ)) - Complex.exp (-I * ((2 * Real.pi * g + phase : ℝ) : ℂ)))
  rw [sub_add_sub_cancel] at h4
  have h5 := h2.dist
  unfold Spec.kernelErr
  have e2 : ((1 + δ) ^ (m + 3) - 1) * (2 * Real.pi * G + |phase|)
      = (1 + δ) ^ (m + 3) * (2 * Real.pi * G + |phase|) - (2 * Real.pi * G + |phase|) := by ring
  rw [e2]; linarith

variable {ι : Type} [AddCommGroup ι] [Fintype ι] [DecidableEq ι] [FFTIndex ι]

omit hA [AddCommGroup ι] [DecidableEq ι] [FFTIndex ι] in
theorem l2_mul_le (f g : ι → ℂ) {c : ℝ} (hc : 0 ≤ c) (h : ∀ k, ‖g k‖ ≤ c) : l2 (fun k => f k * g k) ≤ c * l2 f := by
  have : c * l2 f = l2 (fun k => (c : ℂ) * f k) := by
    unfold l2
    simp only [norm_mul, mul_pow]
    rw [← Finset.mul_sum, Real.sqrt_mul (by positivity), Real.sqrt_sq (norm_nonneg _), Complex.norm_real, Real.norm_of_nonneg hc]
  rw [this]
  apply l2_le_of_sq
  refine Finset.sum_le_sum fun k _ => ?_
  rw [norm_mul, norm_mul, Complex.norm_real, Real.norm_of_nonneg hc, mul_comm]
  exact pow_le_pow_left₀ (by positivity) (mul_le_mul_of_nonneg_right (h k) (norm_nonneg _)) 2

omit hA in
theorem l2_dft_eq (x : ι → ℂ) : l2 (dft x) = Real.sqrt (Fintype.card ι) * l2 x := by
  have c0 : (0 : ℝ) < (Fintype.card ι : ℝ) := by
    have : Fintype.card ι ≠ 0 := Fintype.card_ne_zero
    positivity
  unfold l2
  rw [parseval_normSq x, ← Real.sqrt_mul c0.le, ← mul_assoc, mul_one_div_cancel c0.ne', one_mul]

omit hA in
theorem l2_idft_eq (y : ι → ℂ) : Real.sqrt (Fintype.card ι) * l2 (idft y) = l2 y := by
  rw [← l2_dft_eq, dft_idft]

omit hA in
theorem idft_sub (y z : ι → ℂ) (i : ι) : idft y i - idft z i = idft (fun k => y k - z k) i := by
  have e : (fun k => y k - z k) = fun k => y k + (-1) * z k := by funext k; ring
  rw [e, idft_add, idft_smul]; ring

theorem filter_near (x K' K : ι → ℂ) {κ : ℝ} (hK : ∀ k, ‖K k‖ = 1) (hκ : ∀ k, ‖K' k - K k‖ ≤ κ) :
    l2 (fun i => shiftFilterA A x K' i - filt K x i) ≤ ((1 + δ) ^ 3 * (1 + κ) - 1) * l2 x := by
  have h0 := hA.nonneg
  have hκ0 : 0 ≤ κ := (norm_nonneg _).trans (hκ 0)
  set N := Real.sqrt (Fintype.card ι) with hN
  have hNpos : 0 < N := by
    rw [hN]; apply Real.sqrt_pos.2
    have : Fintype.card ι ≠ 0 := Fintype.card_ne_zero
    positivity
  have hK' : ∀ k, ‖K' k‖ ≤ 1 + κ := by
    intro k
    have := norm_add_le (K' k - K k) (K k)
    rw [sub_add_cancel, hK k] at this
    have := hκ k
    linarith
  -- the computed spectrum
  have f1 : l2 (fun k => A.fft x k - dft x k) ≤ δ * (N * l2 x) := by
    rw [hN, ← l2_dft_eq]; exact hA.fft x
  have f2 : l2 (A.fft x) ≤ (1 + δ) * (N * l2 x) := by
    have := l2_add (fun k => A.fft x k - dft x k) (dft x)
    simp only [sub_add_cancel] at this
    rw [l2_dft_eq, ← hN] at this
    have e : l2 (A.fft x) = l2 (fun k => A.fft x k) := rfl
    rw [e]; linarith
  -- the product
  set P : ι → ℂ := fun k => A.mul (A.fft x k) (K' k) with hP
  have p0 : l2 (fun k => A.fft x k * K' k) ≤ (1 + κ) * ((1 + δ) * (N * l2 x)) :=
    (l2_mul_le _ _ (by linarith) hK').trans (mul_le_mul_of_nonneg_left f2 (by linarith))
  have p1 : l2 (fun k => P k - A.fft x k * K' k) ≤ δ * ((1 + κ) * ((1 + δ) * (N * l2 x))) := by
    refine le_trans ?_ (mul_le_mul_of_nonneg_left p0 h0)
    have : δ * l2 (fun k => A.fft x k * K' k) = l2 (fun k => (δ : ℂ) * (A.fft x k * K' k)) := by
      unfold l2
      simp only [norm_mul (δ : ℂ), mul_pow]
      rw [← Finset.mul_sum, Real.sqrt_mul (by positivity), Real.sqrt_sq (norm_nonneg _), Complex.norm_real, Real.norm_of_nonneg h0]
    rw [this]
    apply l2_le_of_sq
    refine Finset.sum_le_sum fun k _ => pow_le_pow_left₀ (norm_nonneg _) ?_ 2
    rw [norm_mul (δ : ℂ), Complex.norm_real, Real.norm_of_nonneg h0]
    exact hA.mul _ _
  have p2 : l2 (fun k => A.fft x k * K' k - dft x k * K k)
      ≤ (1 + κ) * (δ * (N * l2 x)) + κ * (N * l2 x) := by
    have e : (fun k => A.fft x k * K' k - dft x k * K k)
        = fun k => (A.fft x k - dft x k) * K' k + dft x k * (K' k - K k) := by funext k; ring
    rw [e]
    refine (l2_add _ _).trans (add_le_add ?_ ?_)
    · exact (l2_mul_le _ _ (by linarith) hK').trans (mul_le_mul_of_nonneg_left f1 (by linarith))
    · rw [hN, ← l2_dft_eq]; exact l2_mul_le _ _ hκ0 hκ
  have p3 : l2 (fun k => P k - dft x k * K k) ≤ ((1 + δ) ^ 2 * (1 + κ) - 1) * (N * l2 x) := by
    have := l2_sub_le P (fun k => A.fft x k * K' k) (fun k => dft x k * K k)
    have e : ((1 + δ) ^ 2 * (1 + κ) - 1) * (N * l2 x)
        = δ * ((1 + κ) * ((1 + δ) * (N * l2 x))) + ((1 + κ) * (δ * (N * l2 x)) + κ * (N * l2 x)) := by ring
    rw [e]; linarith
  have p4 : l2 P ≤ (1 + δ) ^ 2 * (1 + κ) * (N * l2 x) := by
    have := l2_add (fun k => P k - A.fft x k * K' k) (fun k => A.fft x k * K' k)
    simp only [sub_add_cancel] at this
    have e : (1 + δ) ^ 2 * (1 + κ) * (N * l2 x)
        = δ * ((1 + κ) * ((1 + δ) * (N * l2 x))) + (1 + κ) * ((1 + δ) * (N * l2 x)) := by ring
    have e' : l2 P = l2 (fun k => P k) := rfl
    rw [e, e']; linarith
  -- the inverse transform
  have q1 : l2 (fun i => A.ifft P i - idft P i) ≤ δ * l2 (idft P) := hA.ifft P
  have q2 := l2_sub_le (A.ifft P) (idft P) (filt K x)
  have q3 : l2 (fun i => idft P i - filt K x i) = l2 (idft fun k => P k - dft x k * K k) := by
    congr 1; funext i
    unfold filt
    rw [idft_sub]
  rw [q3] at q2
  have q4 := l2_idft_eq (fun k => P k - dft x k * K k)
  have q5 := l2_idft_eq P
  rw [← hN] at q4 q5
  have q6 : l2 (idft P) ≤ (1 + δ) ^ 2 * (1 + κ) * l2 x := by
    refine le_of_mul_le_mul_left ?_ hNpos
    rw [q5]
    calc l2 P ≤ _ := p4
      _ = _ := by ring
  have q7 : l2 (idft fun k => P k - dft x k * K k) ≤ ((1 + δ) ^ 2 * (1 + κ) - 1) * l2 x := by
    refine le_of_mul_le_mul_left ?_ hNpos
    rw [q4]
    calc _ ≤ _ := p3
      _ = _ := by ring
  have q8 := mul_le_mul_of_nonneg_left q6 h0
  have e : ((1 + δ) ^ 3 * (1 + κ) - 1) * l2 x
      = δ * ((1 + δ) ^ 2 * (1 + κ) * l2 x) + ((1 + δ) ^ 2 * (1 + κ) - 1) * l2 x := by ring
  rw [e]
  change l2 (fun i => A.ifft P i - filt K x i) ≤ _
  linarith

end

end ImgReg
