import Verif.Lemmas.InexactShift
import Verif.Props.Shift

/-! # C112: `shift2d` and `shiftnd` in inexact arithmetic -/

open Complex Finset

namespace ImgReg

/-- the pixel values, NaN counting as 0 -/
noncomputable def Spec.vals {ι : Type} (data : ι → CPix) : ι → ℂ := fun i => match data i with | some v => v | none => 0

/-- root of the sum of squares -/
noncomputable def Spec.norm2 {ι : Type} [Fintype ι] (x : ι → ℂ) : ℝ := Real.sqrt (∑ i, ‖x i‖ ^ 2)

/-- error bound for `shift2d`, relative to the norm of the image -/
noncomputable def Spec.shift2dErr (δ dx dy phase : ℝ) : ℝ := Spec.shiftErr δ 6 (Real.pi * (|dx| + |dy|) + |phase|)

/-- error bound for `shiftnd` in `D` dimensions, relative to the norm of the array -/
noncomputable def Spec.shiftndErr (δ : ℝ) (D : ℕ) (offset : List ℝ) (phase : ℝ) : ℝ :=
  Spec.shiftErr δ (D + 5) (Real.pi * ((offset.take D).map fun a => |a|).sum + |phase|)

theorem vals_eq {ι : Type} (data : ι → CPix) : Spec.vals data = denan data := by
  funext i; unfold Spec.vals denan; cases data i <;> rfl

section
variable {ny nx : ℕ} [NeZero ny] [NeZero nx]

theorem shift2dA_core {A : ShiftArith} {δ : ℝ} (hA : Spec.ShiftAccurate A δ) (data : Fin ny × Fin nx → CPix) (dx dy phase : ℝ) :
    ∃ r' r : Fin ny × Fin nx → ℂ,
      (∀ ra rr, shift2dA A data dx dy phase ra rr = shiftReturnA A ra rr r') ∧
      (∀ cfg ra rr, shift2d cfg data dx dy phase ra rr = shiftReturn ra rr (cArr r)) ∧
      l2 r = l2 (denan data) ∧
      l2 (fun i => r' i - r i) ≤ Spec.shift2dErr δ dx dy phase * l2 (denan data) := by
  refine ⟨_, _, fun ra rr => rfl, fun cfg ra rr => shift2d_eq cfg data dx dy phase ra rr, ?_, ?_⟩
  · unfold l2; rw [energy_filt _ _ fun k => norm_shiftKernel _ _]
  · have h := filter_near hA (denan data) (shiftKernelA A (fun i : Fin ny × Fin nx =>
        A.addR (A.mulR dx (A.freq nx i.2)) (A.mulR dy (A.freq ny i.1))) phase)
      (fun k => shiftKernel (freq2 dx dy k) phase) (fun k => norm_shiftKernel _ _)
      (fun k => kernel_near hA (grid2_near hA dx dy k) phase)
    have e : 2 * Real.pi * ((|dx| + |dy|) / 2) = Real.pi * (|dx| + |dy|) := by ring
    rw [e] at h
    exact h

end

section
variable {D : ℕ} {s : Fin D → ℕ} [∀ d, NeZero (s d)]

theorem shiftndA_core {A : ShiftArith} {δ : ℝ} (hA : Spec.ShiftAccurate A δ) (data : (∀ d, Fin (s d)) → CPix) (offset : List ℝ)
    (phase : ℝ) :
    ∃ r' r : (∀ d, Fin (s d)) → ℂ,
      (∀ ra rr, shiftndA A data offset phase ra rr = shiftReturnA A ra rr r') ∧
      (∀ cfg ra rr, shiftnd cfg data offset phase ra rr = shiftReturn ra rr (cArr r)) ∧
      l2 r = l2 (denan data) ∧
      l2 (fun i => r' i - r i) ≤ Spec.shiftndErr δ D offset phase * l2 (denan data) := by
  refine ⟨_, _, fun ra rr => rfl, fun cfg ra rr => shiftnd_eq cfg data offset phase ra rr, ?_, ?_⟩
  · unfold l2; rw [energy_filt _ _ fun k => norm_shiftKernel _ _]
  · have hg : ∀ k : (∀ d, Fin (s d)), Near
        ((List.zipWith (fun off d => A.mulR off (A.freq (s d) (k d))) offset (List.finRange D)).foldl A.addR 0) (freqND offset k)
        ((1 + δ) ^ (D + 2) * (((offset.take D).map fun a => |a|).sum / 2)) (((offset.take D).map fun a => |a|).sum / 2) := by
      intro k
      have := gridN_near hA k (List.finRange D) offset 2 0 0 0 le_rfl ⟨by simp, by simp, by simp⟩
      simp only [zero_add, List.length_finRange] at this
      rw [add_comm 2 D] at this
      exact this
    have h := filter_near hA (denan data) (shiftKernelA A (fun i : (∀ d, Fin (s d)) =>
        (List.zipWith (fun off d => A.mulR off (A.freq (s d) (i d))) offset (List.finRange D)).foldl A.addR 0) phase)
      (fun k => shiftKernel (freqND offset k) phase) (fun k => norm_shiftKernel _ _)
      (fun k => kernel_near hA (hg k) phase)
    have e : 2 * Real.pi * (((offset.take D).map fun a => |a|).sum / 2) = Real.pi * ((offset.take D).map fun a => |a|).sum := by ring
    rw [e] at h
    exact h

end

/-! ### from the complex result to the three return modes -/

section
variable {ι : Type} [Fintype ι]

theorem l2_re_le (r' r : ι → ℂ) : Real.sqrt (∑ i, ((r' i).re - (r i).re) ^ 2) ≤ l2 (fun i => r' i - r i) := by
  apply Real.sqrt_le_sqrt
  refine Finset.sum_le_sum fun i _ => ?_
  rw [← Complex.sub_re, ← sq_abs]
  exact pow_le_pow_left₀ (abs_nonneg _) (Complex.abs_re_le_norm _) 2

theorem l2_abs_le {A : ShiftArith} {δ : ℝ} (hA : Spec.ShiftAccurate A δ) (r' r : ι → ℂ) {ε B : ℝ} (hr : l2 r = B)
    (h : l2 (fun i => r' i - r i) ≤ ε * B) :
    Real.sqrt (∑ i, (A.abs (r' i) - ‖r i‖) ^ 2) ≤ ((1 + δ) * (1 + ε) - 1) * B := by
  have h0 := hA.nonneg
  have h1 : l2 r' ≤ (1 + ε) * B := by
    have := l2_add (fun i => r' i - r i) r
    simp only [sub_add_cancel] at this
    have e : l2 r' = l2 (fun i => r' i) := rfl
    rw [e]; linarith
  have h2 : Real.sqrt (∑ i, (A.abs (r' i) - ‖r i‖) ^ 2) = l2 (fun i => ((A.abs (r' i) - ‖r i‖ : ℝ) : ℂ)) := by
    unfold l2; simp only [Complex.norm_real, Real.norm_eq_abs, sq_abs]
  have h3 : l2 (fun i => ((A.abs (r' i) - ‖r i‖ : ℝ) : ℂ))
      ≤ l2 (fun i => ((δ * ‖r' i‖ : ℝ) : ℂ) + ((‖r' i - r i‖ : ℝ) : ℂ)) := by
    apply l2_le_of_sq
    refine Finset.sum_le_sum fun i _ => pow_le_pow_left₀ (norm_nonneg _) ?_ 2
    rw [← Complex.ofReal_add, Complex.norm_real, Complex.norm_real, Real.norm_eq_abs, Real.norm_of_nonneg (by positivity)]
    have a1 := hA.abs (r' i)
    have a2 := abs_norm_sub_norm_le (r' i) (r i)
    have a3 := abs_add_le (A.abs (r' i) - ‖r' i‖) (‖r' i‖ - ‖r i‖)
    rw [sub_add_sub_cancel] at a3
    linarith
  have h4 := l2_add (fun i => ((δ * ‖r' i‖ : ℝ) : ℂ)) (fun i => ((‖r' i - r i‖ : ℝ) : ℂ))
  have h5 : l2 (fun i => ((‖r' i - r i‖ : ℝ) : ℂ)) = l2 (fun i => r' i - r i) := by
    unfold l2; simp
  have h6 : l2 (fun i => ((δ * ‖r' i‖ : ℝ) : ℂ)) = δ * l2 r' := by
    unfold l2
    simp only [Complex.norm_real, Real.norm_eq_abs, sq_abs, mul_pow]
    rw [← Finset.mul_sum, Real.sqrt_mul (by positivity), Real.sqrt_sq h0]
  have h7 := mul_le_mul_of_nonneg_left h1 h0
  rw [h2]
  have e : ((1 + δ) * (1 + ε) - 1) * B = δ * ((1 + ε) * B) + ε * B := by ring
  rw [e]; linarith

theorem abs_le_sqrt_sum (f : ι → ℝ) (i : ι) : |f i| ≤ Real.sqrt (∑ j, f j ^ 2) := by
  rw [← Real.sqrt_sq_eq_abs]
  exact Real.sqrt_le_sqrt (Finset.single_le_sum (f := fun j => f j ^ 2) (fun _ _ => by positivity) (Finset.mem_univ i))

end

/-! ### the error of every result -/

/-- C112: every result of `shift2d` computed in floating point (complex mode) is as close to the exact result as `Spec.shift2dErr` says,
relative to the image, for every image (NaNs included), shift and phase. -/
theorem C112_shift2d_complex {ny nx : ℕ} [NeZero ny] [NeZero nx] (A : ShiftArith) (δ : ℝ) (hA : Spec.ShiftAccurate A δ) (cfg : FFTConfig)
    (data : Fin ny × Fin nx → CPix) (dx dy phase : ℝ) :
    ∃ r' r : Fin ny × Fin nx → ℂ, shift2dA A data dx dy phase false false = .cplx (cArr r') ∧
      shift2d cfg data dx dy phase false false = .cplx (cArr r) ∧
      Spec.norm2 (fun i => r' i - r i) ≤ Spec.shift2dErr δ dx dy phase * Spec.norm2 (Spec.vals data) := by
  obtain ⟨r', r, h1, h2, -, h4⟩ := shift2dA_core hA data dx dy phase
  refine ⟨r', r, h1 _ _, (h2 cfg _ _).trans (shiftReturn_cplx r), ?_⟩
  rw [vals_eq]; exact h4

/-- C112: the same in the default mode -/
theorem C112_shift2d_real {ny nx : ℕ} [NeZero ny] [NeZero nx] (A : ShiftArith) (δ : ℝ) (hA : Spec.ShiftAccurate A δ) (cfg : FFTConfig)
    (data : Fin ny × Fin nx → CPix) (dx dy phase : ℝ) (ra : Bool) :
    ∃ r' r : Fin ny × Fin nx → ℝ, shift2dA A data dx dy phase ra true = .real (realArr r') ∧
      shift2d cfg data dx dy phase ra true = .real (realArr r) ∧
      Real.sqrt (∑ i, (r' i - r i) ^ 2) ≤ Spec.shift2dErr δ dx dy phase * Spec.norm2 (Spec.vals data) := by
  obtain ⟨r', r, h1, h2, -, h4⟩ := shift2dA_core hA data dx dy phase
  refine ⟨fun i => (r' i).re, fun i => (r i).re, h1 _ _, (h2 cfg _ _).trans (shiftReturn_real ra r), ?_⟩
  rw [vals_eq]; exact (l2_re_le r' r).trans h4

/-- C112: the same with `return_abs` -/
theorem C112_shift2d_abs {ny nx : ℕ} [NeZero ny] [NeZero nx] (A : ShiftArith) (δ : ℝ) (hA : Spec.ShiftAccurate A δ) (cfg : FFTConfig)
    (data : Fin ny × Fin nx → CPix) (dx dy phase : ℝ) :
    ∃ r' r : Fin ny × Fin nx → ℝ, shift2dA A data dx dy phase true false = .real (realArr r') ∧
      shift2d cfg data dx dy phase true false = .real (realArr r) ∧
      Real.sqrt (∑ i, (r' i - r i) ^ 2)
        ≤ ((1 + δ) * (1 + Spec.shift2dErr δ dx dy phase) - 1) * Spec.norm2 (Spec.vals data) := by
  obtain ⟨r', r, h1, h2, h3, h4⟩ := shift2dA_core hA data dx dy phase
  refine ⟨fun i => A.abs (r' i), fun i => ‖r i‖, h1 _ _, (h2 cfg _ _).trans (shiftReturn_abs r), ?_⟩
  rw [vals_eq]; exact l2_abs_le hA r' r h3 h4

section
variable {D : ℕ} {s : Fin D → ℕ} [∀ d, NeZero (s d)]

/-- C112: `shiftnd` in any number of dimensions, complex mode -/
theorem C112_shiftnd_complex (A : ShiftArith) (δ : ℝ) (hA : Spec.ShiftAccurate A δ) (cfg : FFTConfig)
    (data : (∀ d, Fin (s d)) → CPix) (offset : List ℝ) (phase : ℝ) :
    ∃ r' r : (∀ d, Fin (s d)) → ℂ, shiftndA A data offset phase false false = .cplx (cArr r') ∧
      shiftnd cfg data offset phase false false = .cplx (cArr r) ∧
      Spec.norm2 (fun i => r' i - r i) ≤ Spec.shiftndErr δ D offset phase * Spec.norm2 (Spec.vals data) := by
  obtain ⟨r', r, h1, h2, -, h4⟩ := shiftndA_core hA data offset phase
  refine ⟨r', r, h1 _ _, (h2 cfg _ _).trans (shiftReturn_cplx r), ?_⟩
  rw [vals_eq]; exact h4

/-- C112: `shiftnd` in the default mode -/
theorem C112_shiftnd_real (A : ShiftArith) (δ : ℝ) (hA : Spec.ShiftAccurate A δ) (cfg : FFTConfig)
    (data : (∀ d, Fin (s d)) → CPix) (offset : List ℝ) (phase : ℝ) (ra : Bool) :
    ∃ r' r : (∀ d, Fin (s d)) → ℝ, shiftndA A data offset phase ra true = .real (realArr r') ∧
      shiftnd cfg data offset phase ra true = .real (realArr r) ∧
      Real.sqrt (∑ i, (r' i - r i) ^ 2) ≤ Spec.shiftndErr δ D offset phase * Spec.norm2 (Spec.vals data) := by
  obtain ⟨r', r, h1, h2, -, h4⟩ := shiftndA_core hA data offset phase
  refine ⟨fun i => (r' i).re, fun i => (r i).re, h1 _ _, (h2 cfg _ _).trans (shiftReturn_real ra r), ?_⟩
  rw [vals_eq]; exact (l2_re_le r' r).trans h4

/-- C112: `shiftnd` with `return_abs` -/
theorem C112_shiftnd_abs (A : ShiftArith) (δ : ℝ) (hA : Spec.ShiftAccurate A δ) (cfg : FFTConfig)
    (data : (∀ d, Fin (s d)) → CPix) (offset : List ℝ) (phase : ℝ) :
    ∃ r' r : (∀ d, Fin (s d)) → ℝ, shiftndA A data offset phase true false = .real (realArr r') ∧
      shiftnd cfg data offset phase true false = .real (realArr r) ∧
      Real.sqrt (∑ i, (r' i - r i) ^ 2)
        ≤ ((1 + δ) * (1 + Spec.shiftndErr δ D offset phase) - 1) * Spec.norm2 (Spec.vals data) := by
  obtain ⟨r', r, h1, h2, h3, h4⟩ := shiftndA_core hA data offset phase
  refine ⟨fun i => A.abs (r' i), fun i => ‖r i‖, h1 _ _, (h2 cfg _ _).trans (shiftReturn_abs r), ?_⟩
  rw [vals_eq]; exact l2_abs_le hA r' r h3 h4

theorem norm2_real {ι : Type} [Fintype ι] (x : ι → ℝ) : Spec.norm2 (Spec.vals (rArr x)) = Real.sqrt (∑ i, x i ^ 2) := by
  rw [vals_eq, denan_rArr]; unfold Spec.norm2; simp

/-- C112: a whole-pixel shift computed in floating point differs from the periodic roll by at most the error bound times the norm of the
array, in every pixel. -/
theorem C112_roll (A : ShiftArith) (δ : ℝ) (hA : Spec.ShiftAccurate A δ) (x : (∀ d, Fin (s d)) → ℝ) (z : Fin D → ℤ) (ra : Bool) :
    ∃ r : (∀ d, Fin (s d)) → ℝ, shiftndA A (rArr x) (List.ofFn fun d => (z d : ℝ)) 0 ra true = .real (realArr r) ∧
      ∀ i, |r i - Spec.rollND z x i| ≤ Spec.shiftndErr δ D (List.ofFn fun d => (z d : ℝ)) 0 * Real.sqrt (∑ i, x i ^ 2) := by
  obtain ⟨r', r, h1, h2, h3⟩ := C112_shiftnd_real A δ hA ⟨false, false, 1⟩ (rArr x) (List.ofFn fun d => (z d : ℝ)) 0 ra
  rw [C02_shiftnd_integer_roll] at h2
  have e : r = Spec.rollND z x := by
    funext i
    have := congrFun (NdOut.real.inj h2) i
    exact (Option.some.inj this).symm
  subst e
  rw [norm2_real] at h3
  exact ⟨r', h1, fun i => (abs_le_sqrt_sum (fun i => r' i - Spec.rollND z x i) i).trans h3⟩

/-- C112: whole-number images survive whole-pixel shifts exactly. If the error bound times the norm of the image is below one half, rounding
the pixels of the floating-point result to the nearest whole number gives exactly the periodic roll. -/
theorem C112_integer_image (A : ShiftArith) (δ : ℝ) (hA : Spec.ShiftAccurate A δ) (x : (∀ d, Fin (s d)) → ℤ) (z : Fin D → ℤ) (ra : Bool)
    (hε : Spec.shiftndErr δ D (List.ofFn fun d => (z d : ℝ)) 0 * Real.sqrt (∑ i, (x i : ℝ) ^ 2) < 1 / 2) :
    ∃ r : (∀ d, Fin (s d)) → ℝ, shiftndA A (rArr fun i => (x i : ℝ)) (List.ofFn fun d => (z d : ℝ)) 0 ra true = .real (realArr r) ∧
      ∀ i, round (r i) = Spec.rollND z x i := by
  obtain ⟨r, h1, h2⟩ := C112_roll A δ hA (fun i => (x i : ℝ)) z ra
  refine ⟨r, h1, fun i => ?_⟩
  have h3 := (h2 i).trans_lt hε
  have e : Spec.rollND z (fun i => (x i : ℝ)) i = ((Spec.rollND z x i : ℤ) : ℝ) := rfl
  rw [e, abs_lt] at h3
  rw [round_eq, Int.floor_eq_iff]
  constructor <;> linarith


theorem filt_l2 {ι : Type} [AddCommGroup ι] [Fintype ι] [DecidableEq ι] [FFTIndex ι] (K x : ι → ℂ) (hK : ∀ k, ‖K k‖ = 1) :
    l2 (filt K x) = l2 x := by
  unfold l2; rw [energy_filt _ _ hK]

theorem filt_sub {ι : Type} [AddCommGroup ι] [Fintype ι] [DecidableEq ι] [FFTIndex ι] (K x y : ι → ℂ) (i : ι) :
    filt K x i - filt K y i = filt K (fun i => x i - y i) i := by
  have e : (fun i => x i - y i) = fun i => x i + (-1) * y i := by funext k; ring
  rw [e, filt_add, filt_smul]; ring

theorem filt_undo (x : (∀ d, Fin (s d)) → ℂ) (a : Fin D → ℝ) (p : ℝ) :
    filt (fun k => shiftKernel (freqND (List.ofFn fun d => -a d) k) (-p)) (filt (fun k => shiftKernel (freqND (List.ofFn a) k) p) x) = x := by
  obtain ⟨y, h1, h2⟩ := C03_undo ⟨false, false, 1⟩ ⟨false, false, 1⟩ x a p
  rw [shiftnd_eq, shiftReturn_cplx, denan_cArr] at h1 h2
  have e1 : filt (fun k => shiftKernel (freqND (List.ofFn a) k) p) x = y := by
    funext i; exact Option.some.inj (congrFun (NdOut.cplx.inj h1) i)
  rw [e1]
  funext i; exact Option.some.inj (congrFun (NdOut.cplx.inj h2) i)

theorem shiftndErr_neg (δ : ℝ) (a : Fin D → ℝ) (p : ℝ) :
    Spec.shiftndErr δ D (List.ofFn fun d => -a d) (-p) = Spec.shiftndErr δ D (List.ofFn a) p := by
  unfold Spec.shiftndErr
  have e : (List.ofFn fun d => -a d) = (List.ofFn a).map Neg.neg := by rw [List.map_ofFn]; rfl
  rw [e, ← List.map_take, List.map_map, abs_neg]
  congr 4
  refine List.map_congr_left fun b _ => ?_
  simp

/-- going there and back, each time with relative error `ε` -/
theorem undo_near {A : ShiftArith} {δ : ℝ} (hA : Spec.ShiftAccurate A δ) (x y : (∀ d, Fin (s d)) → ℂ) (a : Fin D → ℝ) (p : ℝ)
    (hy : l2 (fun i => y i - filt (fun k => shiftKernel (freqND (List.ofFn a) k) p) x i)
      ≤ Spec.shiftndErr δ D (List.ofFn a) p * l2 x) :
    ∃ r : (∀ d, Fin (s d)) → ℂ,
      (∀ ra rr, shiftndA A (cArr y) (List.ofFn fun d => -a d) (-p) ra rr = shiftReturnA A ra rr r) ∧
      l2 (fun i => r i - x i) ≤ ((1 + Spec.shiftndErr δ D (List.ofFn a) p) ^ 2 - 1) * l2 x := by
  set ε := Spec.shiftndErr δ D (List.ofFn a) p with hε
  obtain ⟨r', r, h1, h2, -, h4⟩ := shiftndA_core hA (cArr y) (List.ofFn fun d => -a d) (-p)
  refine ⟨r', h1, ?_⟩
  have er : r = filt (fun k => shiftKernel (freqND (List.ofFn fun d => -a d) k) (-p)) y := by
    have := h2 ⟨false, false, 1⟩ false false
    rw [shiftnd_eq, shiftReturn_cplx, shiftReturn_cplx, denan_cArr] at this
    funext i; exact (Option.some.inj (congrFun (NdOut.cplx.inj this) i)).symm
  rw [shiftndErr_neg, ← hε, denan_cArr] at h4
  have h5 : l2 (fun i => r i - x i) ≤ ε * l2 x := by
    refine le_trans (le_of_eq ?_) hy
    rw [← filt_l2 (fun k => shiftKernel (freqND (List.ofFn fun d => -a d) k) (-p)) (fun i => y i - _) fun k => norm_shiftKernel _ _]
    congr 1
    funext i
    rw [← filt_sub, ← er, filt_undo]
  have h6 : l2 y ≤ (1 + ε) * l2 x := by
    have := l2_add (fun i => y i - filt (fun k => shiftKernel (freqND (List.ofFn a) k) p) x i)
      (filt (fun k => shiftKernel (freqND (List.ofFn a) k) p) x)
    simp only [sub_add_cancel] at this
    rw [filt_l2 _ _ fun k => norm_shiftKernel _ _] at this
    have e : l2 y = l2 (fun i => y i) := rfl
    rw [e]; linarith
  have hx := l2_nonneg x
  have h0 := hA.nonneg
  have hε0 : 0 ≤ ε := by
    rw [hε]; unfold Spec.shiftndErr Spec.shiftErr Spec.kernelErr
    have a1 : 1 ≤ (1 + δ) ^ 3 := one_le_pow₀ (by linarith)
    have a2 : 1 ≤ (1 + δ) ^ (D + 5) := one_le_pow₀ (by linarith)
    have a3 : 0 ≤ (((List.ofFn a).take D).map fun a => |a|).sum := by
      apply List.sum_nonneg
      intro b hb
      obtain ⟨c, -, rfl⟩ := List.mem_map.1 hb
      exact abs_nonneg c
    have a4 : 0 ≤ ((1 + δ) ^ (D + 5) - 1) * (Real.pi * (((List.ofFn a).take D).map fun a => |a|).sum + |p|) := by
      have := Real.pi_pos
      apply mul_nonneg (by linarith)
      positivity
    nlinarith
  have h7 := l2_sub_le r' r x
  have h8 := mul_le_mul_of_nonneg_left h6 hε0
  have e : ((1 + ε) ^ 2 - 1) * l2 x = ε * ((1 + ε) * l2 x) + ε * l2 x := by ring
  rw [e]; linarith

/-- C112: shifting by `a` and back by `-a` in floating point (complex mode) returns the array up to twice the error bound (plus its square). -/
theorem C112_undo (A : ShiftArith) (δ : ℝ) (hA : Spec.ShiftAccurate A δ) (x : (∀ d, Fin (s d)) → ℂ) (a : Fin D → ℝ) (p : ℝ) :
    ∃ y r : (∀ d, Fin (s d)) → ℂ, shiftndA A (cArr x) (List.ofFn a) p false false = .cplx (cArr y) ∧
      shiftndA A (cArr y) (List.ofFn fun d => -a d) (-p) false false = .cplx (cArr r) ∧
      Spec.norm2 (fun i => r i - x i) ≤ ((1 + Spec.shiftndErr δ D (List.ofFn a) p) ^ 2 - 1) * Spec.norm2 x := by
  obtain ⟨y, y0, h1, h2, -, h4⟩ := shiftndA_core hA (cArr x) (List.ofFn a) p
  have e : y0 = filt (fun k => shiftKernel (freqND (List.ofFn a) k) p) x := by
    have := h2 ⟨false, false, 1⟩ false false
    rw [shiftnd_eq, shiftReturn_cplx, shiftReturn_cplx, denan_cArr] at this
    funext i; exact (Option.some.inj (congrFun (NdOut.cplx.inj this) i)).symm
  subst e
  obtain ⟨r, h5, h6⟩ := undo_near hA x y a p h4
  exact ⟨y, r, h1 _ _, h5 _ _, h6⟩

/-- C112: with odd axis lengths the same holds for real arrays in the default mode. -/
theorem C112_undo_real_odd (A : ShiftArith) (δ : ℝ) (hA : Spec.ShiftAccurate A δ) (x : (∀ d, Fin (s d)) → ℝ) (hodd : ∀ d, Odd (s d))
    (a : Fin D → ℝ) (ra : Bool) :
    ∃ y r : (∀ d, Fin (s d)) → ℝ, shiftndA A (rArr x) (List.ofFn a) 0 ra true = .real (realArr y) ∧
      shiftndA A (rArr y) (List.ofFn fun d => -a d) 0 ra true = .real (realArr r) ∧
      Real.sqrt (∑ i, (r i - x i) ^ 2) ≤ ((1 + Spec.shiftndErr δ D (List.ofFn a) 0) ^ 2 - 1) * Real.sqrt (∑ i, x i ^ 2) := by
  obtain ⟨y', y0, h1, h2, -, h4⟩ := shiftndA_core hA (rArr x) (List.ofFn a) 0
  obtain ⟨w, hw, -⟩ := C08_odd_real ⟨false, false, 1⟩ x (List.ofFn a) hodd
  have hw' := h2 ⟨false, false, 1⟩ false false
  rw [hw, shiftReturn_cplx] at hw'
  have ew : ∀ i, (w i : ℂ) = y0 i := fun i => Option.some.inj (congrFun (NdOut.cplx.inj hw') i)
  have e : y0 = filt (fun k => shiftKernel (freqND (List.ofFn a) k) 0) (fun i => (x i : ℂ)) := by
    have := h2 ⟨false, false, 1⟩ false false
    rw [shiftnd_eq, shiftReturn_cplx, shiftReturn_cplx, denan_rArr] at this
    funext i; exact (Option.some.inj (congrFun (NdOut.cplx.inj this) i)).symm
  rw [denan_rArr] at h4
  have h5 : l2 (fun i => ((y' i).re : ℂ) - filt (fun k => shiftKernel (freqND (List.ofFn a) k) 0) (fun i => (x i : ℂ)) i)
      ≤ Spec.shiftndErr δ D (List.ofFn a) 0 * l2 (fun i => (x i : ℂ)) := by
    refine le_trans ?_ h4
    rw [← e]
    apply l2_le_of_sq
    refine Finset.sum_le_sum fun i _ => pow_le_pow_left₀ (norm_nonneg _) ?_ 2
    rw [← ew i, ← Complex.ofReal_sub, Complex.norm_real, Real.norm_eq_abs]
    have := Complex.abs_re_le_norm (y' i - (w i : ℂ))
    simpa using this
  obtain ⟨r, h6, h7⟩ := undo_near hA (fun i => (x i : ℂ)) (fun i => ((y' i).re : ℂ)) a 0 h5
  refine ⟨fun i => (y' i).re, fun i => (r i).re, h1 _ _, ?_, ?_⟩
  · have := h6 ra true
    rw [neg_zero] at this
    exact this
  · have e2 : l2 (fun i => (x i : ℂ)) = Real.sqrt (∑ i, x i ^ 2) := by unfold l2; simp
    rw [e2] at h7
    refine le_trans ?_ h7
    have := l2_re_le r (fun i => (x i : ℂ))
    simpa using this

/-- C112: the total flux of a floating-point shift is right up to the error bound times `√N·‖x‖`, `N` the number of pixels. -/
theorem C112_flux (A : ShiftArith) (δ : ℝ) (hA : Spec.ShiftAccurate A δ) (x : (∀ d, Fin (s d)) → ℝ) (offset : List ℝ) (ra : Bool) :
    ∃ r : (∀ d, Fin (s d)) → ℝ, shiftndA A (rArr x) offset 0 ra true = .real (realArr r) ∧
      |∑ i, r i - ∑ i, x i| ≤ Real.sqrt (∏ d, (s d : ℝ)) * (Spec.shiftndErr δ D offset 0 * Real.sqrt (∑ i, x i ^ 2)) := by
  obtain ⟨r', r, h1, h2, h3⟩ := C112_shiftnd_real A δ hA ⟨false, false, 1⟩ (rArr x) offset 0 ra
  obtain ⟨y, hy, hsum⟩ := C04_flux ⟨false, false, 1⟩ x offset ra
  rw [hy] at h2
  have e : y = r := by
    funext i; exact Option.some.inj (congrFun (NdOut.real.inj h2) i)
  subst e
  refine ⟨r', h1, ?_⟩
  rw [norm2_real] at h3
  rw [← hsum, ← Finset.sum_sub_distrib]
  have hc := sq_sum_le_card_mul_sum_sq (s := (Finset.univ : Finset (∀ d, Fin (s d)))) (f := fun i => r' i - y i)
  have hcard : ((Finset.univ : Finset (∀ d, Fin (s d))).card : ℝ) = ∏ d, (s d : ℝ) := by
    rw [Finset.card_univ, Fintype.card_pi]; push_cast; simp
  rw [hcard] at hc
  have h4 := Real.sqrt_le_sqrt hc
  rw [Real.sqrt_sq_eq_abs, Real.sqrt_mul (by positivity)] at h4
  exact h4.trans (mul_le_mul_of_nonneg_left h3 (Real.sqrt_nonneg _))

/-- C112: with error-free operations the result is the exact one, in every mode and for every array (NaNs included). -/
theorem C112_exact_arithmetic (A : ShiftArith) (hA : Spec.ShiftAccurate A 0) (cfg : FFTConfig) (data : (∀ d, Fin (s d)) → CPix)
    (offset : List ℝ) (phase : ℝ) (ra rr : Bool) :
    shiftndA A data offset phase ra rr = shiftnd cfg data offset phase ra rr := by
  obtain ⟨r', r, h1, h2, -, h4⟩ := shiftndA_core hA data offset phase
  have e0 : Spec.shiftndErr 0 D offset phase = 0 := by
    unfold Spec.shiftndErr Spec.shiftErr Spec.kernelErr; simp
  rw [e0, zero_mul] at h4
  have e : r' = r := by
    have h5 : ∑ i, ‖r' i - r i‖ ^ 2 = 0 := by
      have := le_antisymm h4 (l2_nonneg _)
      unfold l2 at this
      rwa [Real.sqrt_eq_zero (by positivity)] at this
    rw [Finset.sum_eq_zero_iff_of_nonneg (fun _ _ => by positivity)] at h5
    funext i
    have := h5 i (Finset.mem_univ i)
    rw [sq_eq_zero_iff, norm_eq_zero] at this
    exact sub_eq_zero.1 this
  subst e
  rw [h1, h2 cfg]
  have ha : ∀ z, A.abs z = ‖z‖ := by
    intro z
    have := hA.abs z
    rw [zero_mul] at this
    have := abs_nonpos_iff.1 this
    linarith
  cases rr <;> cases ra <;> simp [shiftReturnA, shiftReturn_real, shiftReturn_abs, shiftReturn_cplx, ha] <;> rfl

end

/-- C112: the same for `shift2d` -/
theorem C112_exact_arithmetic_2d {ny nx : ℕ} [NeZero ny] [NeZero nx] (A : ShiftArith) (hA : Spec.ShiftAccurate A 0) (cfg : FFTConfig)
    (data : Fin ny × Fin nx → CPix) (dx dy phase : ℝ) (ra rr : Bool) :
    shift2dA A data dx dy phase ra rr = shift2d cfg data dx dy phase ra rr := by
  obtain ⟨r', r, h1, h2, -, h4⟩ := shift2dA_core hA data dx dy phase
  have e0 : Spec.shift2dErr 0 dx dy phase = 0 := by
    unfold Spec.shift2dErr Spec.shiftErr Spec.kernelErr; simp
  rw [e0, zero_mul] at h4
  have e : r' = r := by
    have h5 : ∑ i, ‖r' i - r i‖ ^ 2 = 0 := by
      have := le_antisymm h4 (l2_nonneg _)
      unfold l2 at this
      rwa [Real.sqrt_eq_zero (by positivity)] at this
    rw [Finset.sum_eq_zero_iff_of_nonneg (fun _ _ => by positivity)] at h5
    funext i
    have := h5 i (Finset.mem_univ i)
    rw [sq_eq_zero_iff, norm_eq_zero] at this
    exact sub_eq_zero.1 this
  subst e
  rw [h1, h2 cfg]
  have ha : ∀ z, A.abs z = ‖z‖ := by
    intro z
    have := hA.abs z
    rw [zero_mul] at this
    have := abs_nonpos_iff.1 this
    linarith
  cases rr <;> cases ra <;> simp [shiftReturnA, shiftReturn_real, shiftReturn_abs, shiftReturn_cplx, ha] <;> rfl

/-- C112: a whole-pixel `shift2d` computed in floating point differs from the periodic roll by at most the error bound times the norm of the
image, in every pixel. -/
theorem C112_roll_2d {ny nx : ℕ} [NeZero ny] [NeZero nx] (A : ShiftArith) (δ : ℝ) (hA : Spec.ShiftAccurate A δ)
    (x : Fin ny × Fin nx → ℝ) (dx dy : ℤ) (ra : Bool) :
    ∃ r : Fin ny × Fin nx → ℝ, shift2dA A (rArr x) dx dy 0 ra true = .real (realArr r) ∧
      ∀ i, |r i - Spec.roll2 dy dx x i| ≤ Spec.shift2dErr δ dx dy 0 * Real.sqrt (∑ i, x i ^ 2) := by
  obtain ⟨r', r, h1, h2, h3⟩ := C112_shift2d_real A δ hA ⟨false, false, 1⟩ (rArr x) dx dy 0 ra
  rw [C02_shift2d_integer_roll] at h2
  have e : r = Spec.roll2 dy dx x := by
    funext i
    exact (Option.some.inj (congrFun (NdOut.real.inj h2) i)).symm
  subst e
  rw [norm2_real] at h3
  exact ⟨r', h1, fun i => (abs_le_sqrt_sum (fun i => r' i - Spec.roll2 dy dx x i) i).trans h3⟩

/-! ### operations that meet the hypotheses -/

/-- exact operations -/
noncomputable def ShiftArith.exact : ShiftArith where
  fft := fun x => dft x
  ifft := fun y => idft y
  freq := fun n k => Np.fftfreq n k
  mulR := fun x y => x * y
  addR := fun x y => x + y
  twoPi := 2 * Real.pi
  expNegI := fun x => Complex.exp (-I * x)
  mul := fun z w => z * w
  abs := fun z => ‖z‖

theorem ShiftArith.exact_accurate : Spec.ShiftAccurate ShiftArith.exact 0 where
  fft := fun x => by simp [ShiftArith.exact]
  ifft := fun y => by simp [ShiftArith.exact]
  freq := fun n k => by simp [ShiftArith.exact]
  mulR := fun x y => by simp [ShiftArith.exact]
  addR := fun x y => by simp [ShiftArith.exact]
  twoPi := by simp [ShiftArith.exact]
  expNegI := fun x => by simp [ShiftArith.exact]
  mul := fun z w => by simp [ShiftArith.exact]
  abs := fun z => by simp [ShiftArith.exact]

/-- operations that are all wrong by a relative error `δ` -/
noncomputable def ShiftArith.biased (δ : ℝ) : ShiftArith where
  fft := fun x k => (1 + δ : ℝ) * dft x k
  ifft := fun y i => (1 + δ : ℝ) * idft y i
  freq := fun n k => (1 - δ) * Np.fftfreq n k
  mulR := fun x y => (1 + δ) * (x * y)
  addR := fun x y => (1 - δ) * (x + y)
  twoPi := (1 + δ) * (2 * Real.pi)
  expNegI := fun x => (1 - δ : ℝ) * Complex.exp (-I * x)
  mul := fun z w => (1 + δ : ℝ) * (z * w)
  abs := fun z => (1 - δ) * ‖z‖

theorem ShiftArith.biased_accurate (δ : ℝ) (h0 : 0 ≤ δ) : Spec.ShiftAccurate (ShiftArith.biased δ) δ := by
  have hR : ∀ x : ℝ, |(1 + δ) * x - x| ≤ δ * |x| := fun x => by
    have e : (1 + δ) * x - x = δ * x := by ring
    rw [e, abs_mul, abs_of_nonneg h0]
  have hR' : ∀ x : ℝ, |(1 - δ) * x - x| ≤ δ * |x| := fun x => by
    have e : (1 - δ) * x - x = -(δ * x) := by ring
    rw [e, abs_neg, abs_mul, abs_of_nonneg h0]
  have hC : ∀ z : ℂ, ‖((1 + δ : ℝ) : ℂ) * z - z‖ = δ * ‖z‖ := fun z => by
    have e : ((1 + δ : ℝ) : ℂ) * z - z = (δ : ℂ) * z := by push_cast; ring
    rw [e, norm_mul, Complex.norm_real, Real.norm_of_nonneg h0]
  refine ⟨?_, ?_, fun n k => hR' _, fun x y => hR _, fun x y => hR' _, ?_, ?_, fun z w => (hC _).le, ?_⟩
  · intro ι _ _ _ _ x
    simp only [ShiftArith.biased, hC, mul_pow]
    rw [← Finset.mul_sum, Real.sqrt_mul (by positivity), Real.sqrt_sq h0]
  · intro ι _ _ _ _ y
    simp only [ShiftArith.biased, hC, mul_pow]
    rw [← Finset.mul_sum, Real.sqrt_mul (by positivity), Real.sqrt_sq h0]
  · have := hR (2 * Real.pi)
    rwa [abs_of_pos (by positivity : (0 : ℝ) < 2 * Real.pi)] at this
  · intro x
    have e : (ShiftArith.biased δ).expNegI x - Complex.exp (-I * x) = -((δ : ℂ) * Complex.exp (-I * x)) := by
      simp only [ShiftArith.biased]; push_cast; ring
    have hn : ‖Complex.exp (-I * x)‖ = 1 := by rw [Complex.norm_exp]; simp
    rw [e, norm_neg, norm_mul, hn, Complex.norm_real, Real.norm_of_nonneg h0, mul_one]
  · intro z
    have := hR' ‖z‖
    rwa [abs_of_nonneg (norm_nonneg z)] at this

/-- the bound is small: a shift by up to 100 pixels (sum of both directions) in arithmetic with relative errors of 10⁻¹² keeps nine digits -/
theorem shift2dErr_small (dx dy : ℝ) (h : |dx| + |dy| ≤ 100) : Spec.shift2dErr (1 / 10 ^ 12) dx dy 0 ≤ 1 / 10 ^ 8 := by
  unfold Spec.shift2dErr Spec.shiftErr Spec.kernelErr
  have hpi := Real.pi_le_four
  have h1 : Real.pi * (|dx| + |dy|) + |(0 : ℝ)| ≤ 400 := by
    rw [abs_zero, add_zero]
    have := Real.pi_pos
    have := abs_nonneg dx
    have := abs_nonneg dy
    nlinarith
  have h2 : ((1 + 1 / 10 ^ 12 : ℝ) ^ 6 - 1) * (Real.pi * (|dx| + |dy|) + |(0 : ℝ)|) ≤ ((1 + 1 / 10 ^ 12 : ℝ) ^ 6 - 1) * 400 :=
    mul_le_mul_of_nonneg_left h1 (by norm_num)
  have h3 : (1 + 1 / 10 ^ 12 : ℝ) ^ 3 * (1 + (1 / 10 ^ 12 + ((1 + 1 / 10 ^ 12 : ℝ) ^ 6 - 1) * (Real.pi * (|dx| + |dy|) + |(0 : ℝ)|)))
      ≤ (1 + 1 / 10 ^ 12 : ℝ) ^ 3 * (1 + (1 / 10 ^ 12 + ((1 + 1 / 10 ^ 12 : ℝ) ^ 6 - 1) * 400)) :=
    mul_le_mul_of_nonneg_left (by linarith) (by positivity)
  refine le_trans (sub_le_sub_right h3 1) ?_
  norm_num

/-- hypotheses met: a 5×5 image of values 0, 1, 2 rolled by (1, -2) in arithmetic with relative errors of 10⁻⁶ -/
example (A : ShiftArith) (hA : Spec.ShiftAccurate A (1 / 10 ^ 6)) :
    ∃ r : (∀ _ : Fin 2, Fin 5) → ℝ,
      shiftndA A (rArr fun i : (∀ _ : Fin 2, Fin 5) => ((((i 0 : Fin 5) : ℕ) % 3 : ℤ) : ℝ)) (List.ofFn fun d : Fin 2 => ((![1, -2] d : ℤ) : ℝ)) 0
        false true = .real (realArr r) ∧
      ∀ i, round (r i) = Spec.rollND ![1, -2] (fun i : (∀ _ : Fin 2, Fin 5) => (((i 0 : Fin 5) : ℕ) % 3 : ℤ)) i := by
  refine C112_integer_image A _ hA _ _ _ ?_
  have h1 : ∑ i : (∀ _ : Fin 2, Fin 5), (((((i 0 : Fin 5) : ℕ) % 3 : ℤ)) : ℝ) ^ 2 ≤ 10 ^ 2 := by
    have h2 : ∀ i : (∀ _ : Fin 2, Fin 5), (((((i 0 : Fin 5) : ℕ) % 3 : ℤ)) : ℝ) ^ 2 ≤ 4 := by
      intro i
      have h3 : (((i 0 : Fin 5) : ℕ) % 3 : ℤ) ≤ 2 := by omega
      have h4 : (0 : ℤ) ≤ (((i 0 : Fin 5) : ℕ) % 3 : ℤ) := by omega
      have h5 : ((((i 0 : Fin 5) : ℕ) % 3 : ℤ) : ℝ) ≤ 2 := by exact_mod_cast h3
      have h6 : (0 : ℝ) ≤ ((((i 0 : Fin 5) : ℕ) % 3 : ℤ) : ℝ) := by exact_mod_cast h4
      nlinarith
    refine (Finset.sum_le_sum fun i _ => h2 i).trans ?_
    simp
    norm_num
  have h2 := Real.sqrt_le_sqrt h1
  rw [Real.sqrt_sq (by norm_num)] at h2
  have h3 : Spec.shiftndErr (1 / 10 ^ 6) 2 (List.ofFn fun d : Fin 2 => ((![1, -2] d : ℤ) : ℝ)) 0 ≤ 1 / 1000 := by
    unfold Spec.shiftndErr Spec.shiftErr Spec.kernelErr
    have e : (((List.ofFn fun d : Fin 2 => ((![1, -2] d : ℤ) : ℝ)).take 2).map fun a => |a|).sum = 3 := by
      simp [List.ofFn_succ]; norm_num
    rw [e, abs_zero, add_zero]
    have hpi := Real.pi_le_four
    nlinarith [Real.pi_pos]
  have h4 : (0 : ℝ) ≤ Real.sqrt (∑ i : (∀ _ : Fin 2, Fin 5), (((((i 0 : Fin 5) : ℕ) % 3 : ℤ)) : ℝ) ^ 2) := Real.sqrt_nonneg _
  nlinarith

end ImgReg
