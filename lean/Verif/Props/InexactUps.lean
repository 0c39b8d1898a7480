import Verif.Lemmas.InexactUps
import Verif.Props.InexactZoomCases
import Verif.Props.Upsample

/-!
# `dftups`, `odddftups`, `dftups1d` and `upsample_image` in floating point (C116)

The matrix-multiply DFT made of elementary operations with relative error `δ`.  The bound of an output value grows with the distance of the
output point from the origin, in input pixels: the argument of the complex exponential is rounded relative to its size.
-/

open Complex Finset

namespace ImgReg

/-- The elementary operations that `dftups` of an `nr × nc` array uses have relative error at most `δ`: real products, sums and quotients, the
constant `2*pi`, `exp(-ix)`, and sums of `nr` or `nc` products, these relative to the sum of the moduli. -/
structure Spec.UpsAccurate (Z : ZoomArith) (δ : ℝ) (nr nc : ℕ) : Prop where
  mulR : ∀ x y : ℝ, |Z.mulR x y - x * y| ≤ δ * |x * y|
  addR : ∀ x y : ℝ, |Z.addR x y - (x + y)| ≤ δ * |x + y|
  divR : ∀ x y : ℝ, y ≠ 0 → |Z.divR x y - x / y| ≤ δ * |x / y|
  twoPi : |Z.twoPi - 2 * Real.pi| ≤ δ * (2 * Real.pi)
  expNegI : ∀ x : ℝ, ‖Z.expNegI x - Complex.exp (-I * x)‖ ≤ δ
  dot : ∀ {m k n : ℕ} (a : Fin m × Fin k → ℂ) (b : Fin k × Fin n → ℂ) (i : Fin m × Fin n), k = nr ∨ k = nc →
    ‖Z.dot a b i - ∑ l, a (i.1, l) * b (l, i.2)‖ ≤ δ * ∑ l, ‖a (i.1, l)‖ * ‖b (l, i.2)‖

/-- relative error of `dftups` at the output point `(a, b)`, in input pixels -/
noncomputable def Spec.upsErr (δ a b : ℝ) : ℝ :=
  (1 + δ) ^ 2 * (1 + Spec.kernelErr δ 7 (Real.pi * |a|)) * (1 + Spec.kernelErr δ 7 (Real.pi * |b|)) - 1

/-- `Z` with the operations `dftups` does not use replaced by exact ones -/
noncomputable def clampZ (Z : ZoomArith) (nr nc : ℕ) : ZoomArith where
  fft := fun x => dft x
  ifft := fun y => idft y
  freq := fun n k => Np.fftfreq n k
  mulR := Z.mulR
  addR := Z.addR
  twoPi := Z.twoPi
  expNegI := Z.expNegI
  mul := fun z w => z * w
  abs := fun z => ‖z‖
  divR := Z.divR
  dot := fun {_ k _} a b i => if k = nr ∨ k = nc then Z.dot a b i else ∑ l, a (i.1, l) * b (l, i.2)
  linspace := fun a b n i => Np.linspace a b n i

theorem Spec.UpsAccurate.nonneg {Z : ZoomArith} {δ : ℝ} {nr nc : ℕ} (h : Spec.UpsAccurate Z δ nr nc) : 0 ≤ δ :=
  (norm_nonneg _).trans (h.expNegI 0)

theorem clampZ_accurate {Z : ZoomArith} {δ : ℝ} {nr nc : ℕ} (h : Spec.UpsAccurate Z δ nr nc) : Spec.ZoomAccurate (clampZ Z nr nc) δ where
  base :=
    { fft := fun x => by simp only [clampZ, sub_self, norm_zero]; simp; exact mul_nonneg h.nonneg (Real.sqrt_nonneg _)
      ifft := fun x => by simp only [clampZ, sub_self, norm_zero]; simp; exact mul_nonneg h.nonneg (Real.sqrt_nonneg _)
      freq := fun n k => by simp only [clampZ, sub_self, abs_zero]; exact mul_nonneg h.nonneg (abs_nonneg _)
      mulR := h.mulR
      addR := h.addR
      twoPi := h.twoPi
      expNegI := h.expNegI
      mul := fun z w => by simp only [clampZ, sub_self, norm_zero]; exact mul_nonneg h.nonneg (norm_nonneg _)
      abs := fun z => by simp only [clampZ, sub_self, abs_zero]; exact mul_nonneg h.nonneg (norm_nonneg _) }
  divR := h.divR
  dot := fun {m k n} a b i => by
    simp only [clampZ]
    split_ifs with hk
    · exact h.dot a b i hk
    · rw [sub_self, norm_zero]
      exact mul_nonneg h.nonneg (Finset.sum_nonneg fun l _ => by positivity)
  linspace := fun a b n i => by
    simp only [clampZ, sub_self, abs_zero]; exact mul_nonneg h.nonneg (le_max_of_le_left (abs_nonneg _))

theorem Spec.ZoomAccurate.ups {Z : ZoomArith} {δ : ℝ} (h : Spec.ZoomAccurate Z δ) (nr nc : ℕ) : Spec.UpsAccurate Z δ nr nc :=
  ⟨h.base.mulR, h.base.addR, h.divR, h.base.twoPi, h.base.expNegI, fun a b i _ => h.dot a b i⟩

section
variable {nr nc : ℕ} [NeZero nr] [NeZero nc]

theorem dftupsA_clamp (Z : ZoomArith) (y : Fin nr × Fin nc → ℂ) (nor noc : ℕ) (us roff coff : ℝ) :
    dftupsA (clampZ Z nr nc) y nor noc us roff coff = dftupsA Z y nor noc us roff coff := by
  unfold dftupsA clampZ upsKernA
  funext i
  simp only [true_or, or_true, if_true]

theorem odddftupsA_clamp (Z : ZoomArith) (y : Fin nr × Fin nc → ℂ) (nor noc : ℕ) (us roff coff : ℝ) :
    odddftupsA (clampZ Z nr nc) y nor noc us roff coff = odddftupsA Z y nor noc us roff coff := by
  unfold odddftupsA clampZ upsKernA
  funext i
  simp only [true_or, or_true, if_true]

/-- C116: every value `dftups` computes is within `upsErr · Σ|y|` of the exact one, for every input, output size, upsampling factor and offset. -/
theorem C116_dftups (Z : ZoomArith) (δ : ℝ) (hZ : Spec.UpsAccurate Z δ nr nc) (hδ : δ ≤ 1 / 2) (y : Fin nr × Fin nc → ℂ) (nor noc : ℕ)
    (us roff coff : ℝ) (hus : us ≠ 0) :
    ∃ o : Fin nor × Fin noc → ℂ, dftups (cArr y) (some nor) (some noc) us roff coff = .ok ⟨nor, noc, cArr o⟩ ∧
      ∀ i, ‖dftupsA Z y nor noc us roff coff i - o i‖
        ≤ Spec.upsErr δ ((((i.1 : ℕ) : ℝ) - roff) / us) ((((i.2 : ℕ) : ℝ) - coff) / us) * ∑ k, ‖y k‖ := by
  refine ⟨fun i => dftupsVal y us roff coff (i.1 : ℕ) (i.2 : ℕ), dftups_eq y (some nor) (some noc) us roff coff hus, fun i => ?_⟩
  have h := dftupsA_near (clampZ_accurate hZ) hδ (NearC.refl y) nor noc hus roff coff i
  rw [dftupsA_clamp] at h
  refine h.trans (le_of_eq ?_)
  unfold Spec.upsErr
  ring

/-- C116: the same for `odddftups`. -/
theorem C116_odddftups (Z : ZoomArith) (δ : ℝ) (hZ : Spec.UpsAccurate Z δ nr nc) (hδ : δ ≤ 1 / 2) (y : Fin nr × Fin nc → ℂ) (nor noc : ℕ)
    (us roff coff : ℝ) (hus : us ≠ 0) :
    ∃ o : Fin nor × Fin noc → ℂ, odddftups (cArr y) (some nor) (some noc) us roff coff = .ok ⟨nor, noc, cArr o⟩ ∧
      ∀ i, ‖odddftupsA Z y nor noc us roff coff i - o i‖
        ≤ Spec.upsErr δ ((((i.1 : ℕ) : ℝ) - roff) / us) ((((i.2 : ℕ) : ℝ) - coff) / us) * ∑ k, ‖y k‖ := by
  refine ⟨fun i => dftupsVal y us roff coff (i.1 : ℕ) (i.2 : ℕ), odddftups_eq y (some nor) (some noc) us roff coff hus, fun i => ?_⟩
  have h := odddftupsA_near (clampZ_accurate hZ) hδ (NearC.refl y) nor noc hus roff coff i
  rw [odddftupsA_clamp] at h
  refine h.trans (le_of_eq ?_)
  unfold Spec.upsErr
  ring

/-- C116: with error-free operations `dftups` and `odddftups` are the exact ones. -/
theorem C116_exact_arithmetic (Z : ZoomArith) (hZ : Spec.UpsAccurate Z 0 nr nc) (y : Fin nr × Fin nc → ℂ) (nor noc : ℕ)
    (us roff coff : ℝ) (hus : us ≠ 0) :
    dftups (cArr y) (some nor) (some noc) us roff coff = .ok ⟨nor, noc, cArr (dftupsA Z y nor noc us roff coff)⟩ ∧
    odddftups (cArr y) (some nor) (some noc) us roff coff = .ok ⟨nor, noc, cArr (odddftupsA Z y nor noc us roff coff)⟩ := by
  have e : ∀ a b : ℝ, Spec.upsErr 0 a b = 0 := by intro a b; simp [Spec.upsErr, Spec.kernelErr]
  obtain ⟨o, h1, h2⟩ := C116_dftups Z 0 hZ (by norm_num) y nor noc us roff coff hus
  obtain ⟨o', h3, h4⟩ := C116_odddftups Z 0 hZ (by norm_num) y nor noc us roff coff hus
  have eo : dftupsA Z y nor noc us roff coff = o := by
    funext i
    have := h2 i
    rw [e, zero_mul] at this
    exact sub_eq_zero.1 (norm_le_zero_iff.1 this)
  have eo' : odddftupsA Z y nor noc us roff coff = o' := by
    funext i
    have := h4 i
    rw [e, zero_mul] at this
    exact sub_eq_zero.1 (norm_le_zero_iff.1 this)
  rw [eo, eo']
  exact ⟨h1, h3⟩

/-- C116: `upsample_image`: every value is within `((1+δ)(1+upsErr) - 1)·‖image‖` of the exact one, `‖image‖` the root of the sum of squares. -/
theorem C116_upsample_image (Z : ZoomArith) (δ : ℝ) (hZ : Spec.ZoomAccurate Z δ) (hδ : δ ≤ 1 / 2) (cfg : FFTConfig)
    (image : Fin nr × Fin nc → ℂ) (us : ℕ) (hus : 0 < us) (size : OutSize) (xs ys : ℝ) :
    ∃ (s1 s2 : ℕ) (o' o : Fin s1 × Fin s2 → ℂ), upsampleImage cfg (cArr image) us size xs ys = .ok ⟨s1, s2, cArr o⟩ ∧
      upsampleImageA Z image us size xs ys = ⟨s1, s2, cArr o'⟩ ∧
      ∀ i, ‖o' i - o i‖ ≤ ((1 + δ) * (1 + Spec.upsErr δ ((((i.1 : ℕ) : ℝ) - ys) / us) ((((i.2 : ℕ) : ℝ) - xs) / us)) - 1)
        * Real.sqrt (∑ p, ‖image p‖ ^ 2) := by
  have hus' : (us : ℝ) ≠ 0 := by exact_mod_cast hus.ne'
  refine ⟨(Spec.outSize nr nc us size).1, (Spec.outSize nr nc us size).2,
    fun i => dftupsA Z (Z.ifft image) (Spec.outSize nr nc us size).1 (Spec.outSize nr nc us size).2 us ys xs i, _,
    upsampleImage_eq cfg image us hus size xs ys, ?_, ?_⟩
  · unfold upsampleImageA
    cases size <;> rfl
  · intro i
    have n1 := ifft_nearC hZ (le_refl (l2 image)) (le_refl (l2 image)) (by unfold l2; simp)
    have h := dftupsA_near hZ hδ n1 (Spec.outSize nr nc us size).1 (Spec.outSize nr nc us size).2 hus' ys xs i
    refine h.trans (le_of_eq ?_)
    unfold Spec.upsErr l2
    ring

end

section
variable {n : ℕ} [NeZero n]

/-- C116: `dftups1d`: the coordinates are right up to two roundings, the values up to the error of the kernel and of the sum. -/
theorem C116_dftups1d (Z : ZoomArith) (δ : ℝ) (hZ : Spec.ZoomAccurate Z δ) (y : Fin n → ℂ) (us : ℝ) (hus : us ≠ 0) (size : ℕ) (off : ℝ) :
    ∃ (x : Fin size → ℝ) (o : Fin size → ℂ), dftups1d (cArr y) us (some size) off true = ⟨size, some x, cArr o⟩ ∧
      ∀ i, |(dftups1dA Z y us size off).1 i - x i| ≤ ((1 + δ) ^ 2 - 1) * |x i| ∧
        ‖(dftups1dA Z y us size off).2 i - o i‖ ≤ ((1 + δ) * (1 + Spec.kernelErr δ 6 (Real.pi * |x i|)) - 1) * ∑ k, ‖y k‖ := by
  refine ⟨fun i => (((i : ℕ) : ℝ) + off) / us, fun i => ∑ k, y k * ex (-(Np.fftfreq n k * ((((i : ℕ) : ℝ) + off) / us))), ?_, fun i => ⟨?_, ?_⟩⟩
  · unfold dftups1d
    simp only [kern_eq, Option.getD_some, if_true]
    rw [show (fun i : Fin n × Fin size => some (ex (-(Np.fftfreq n i.1 * ((((i.2 : ℕ) : ℝ) + off) / us)))))
      = cArr (fun i : Fin n × Fin size => ex (-(Np.fftfreq n i.1 * ((((i.2 : ℕ) : ℝ) + off) / us)))) from rfl, Np.dotV_cArr]
  · have := (upsCoord_near hZ hus ((i : ℕ) : ℝ) off).dist
    refine this.trans (le_of_eq ?_)
    ring
  · have n2 := dot_entry hZ (a' := fun k : Fin 1 × Fin n => y k.2)
      (b' := fun k : Fin n × Fin size => Z.expNegI (Z.mulR (Z.mulR Z.twoPi (Z.freq n k.1)) (Z.divR (Z.addR ((k.2 : ℕ) : ℝ) off) us)))
      (u := fun k => ex (-(Np.fftfreq n k * ((((i : ℕ) : ℝ) + off) / us)))) ((0 : Fin 1), i) (NearC.refl y)
      (fun k => kern1_near hZ (upsCoord_near hZ hus ((i : ℕ) : ℝ) off) n k) (fun k => norm_ex _)
    refine (le_of_eq ?_).trans (n2.trans (le_of_eq (by ring)))
    rfl

end

/-- the hypotheses are met by operations that are all wrong by one part in a million -/
example : Spec.UpsAccurate (ZoomArith.biased (1 / 10 ^ 6)) (1 / 10 ^ 6) 5 7 ∧ Spec.ZoomAccurate (ZoomArith.biased (1 / 10 ^ 6)) (1 / 10 ^ 6) :=
  ⟨(ZoomArith.biased_accurate _ (by norm_num)).ups 5 7, ZoomArith.biased_accurate _ (by norm_num)⟩

/-- and the bound is small: at most `10⁻³` within ten input pixels of the origin -/
theorem upsErr_small (a b : ℝ) (ha : |a| ≤ 10) (hb : |b| ≤ 10) : Spec.upsErr (1 / 10 ^ 6) a b ≤ 1 / 1000 := by
  unfold Spec.upsErr Spec.kernelErr
  have hp := Real.pi_le_four
  have hp0 := Real.pi_pos
  have ka : (1 : ℝ) + (1 / 10 ^ 6 + ((1 + 1 / 10 ^ 6) ^ 7 - 1) * (Real.pi * |a|)) ≤ 1 + 0.00029 := by
    have : Real.pi * |a| ≤ 40 := by nlinarith [abs_nonneg a]
    norm_num at *; nlinarith
  have kb : (1 : ℝ) + (1 / 10 ^ 6 + ((1 + 1 / 10 ^ 6) ^ 7 - 1) * (Real.pi * |b|)) ≤ 1 + 0.00029 := by
    have : Real.pi * |b| ≤ 40 := by nlinarith [abs_nonneg b]
    norm_num at *; nlinarith
  have k0 : (0 : ℝ) ≤ 1 + (1 / 10 ^ 6 + ((1 + 1 / 10 ^ 6) ^ 7 - 1) * (Real.pi * |b|)) := by
    have : 0 ≤ Real.pi * |b| := by positivity
    have : (0 : ℝ) ≤ (1 + 1 / 10 ^ 6) ^ 7 - 1 := by norm_num
    positivity
  have := mul_le_mul ka kb k0 (by norm_num)
  have := mul_le_mul_of_nonneg_left this (by norm_num : (0 : ℝ) ≤ (1 + 1 / 10 ^ 6) ^ 2)
  rw [← mul_assoc] at this
  norm_num at *
  linarith

end ImgReg
