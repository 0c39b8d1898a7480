import Verif.Model.InexactUps
import Verif.Lemmas.InexactZoom
import Verif.Lemmas.Upsample

/-! # Error bounds for the matrix-multiply DFT in inexact arithmetic -/

open Complex Finset

namespace ImgReg

theorem upsFreq_eq {n : ℕ} [NeZero n] (k : Fin n) : upsFreq k = Np.fftfreqInt n k := by
  have h := ifftshift_freq k
  rw [floor_half] at h
  have : ((upsFreq k : ℤ) : ℝ) = (Np.fftfreqInt n k : ℝ) := by
    rw [← h]; unfold upsFreq; push_cast; rfl
  exact_mod_cast this

theorem abs_upsFreq_le {n : ℕ} [NeZero n] (k : Fin n) : |(upsFreq k : ℝ)| ≤ (n : ℝ) / 2 := by
  have hn : (0 : ℝ) < n := by exact_mod_cast Nat.pos_of_ne_zero (NeZero.ne n)
  have h := abs_fftfreq_le n k
  rw [Np.fftfreq_eq, ← upsFreq_eq, abs_div, abs_of_pos hn, div_le_iff₀ hn] at h
  linarith

section
variable {Z : ZoomArith} {δ : ℝ} (hZ : Spec.ZoomAccurate Z δ)
include hZ

/-- `np.exp(-1j*x)` for an approximate argument -/
theorem exp_near' {g' g B C : ℝ} (hg : Near g' (2 * Real.pi * g) C B) : ‖Z.expNegI g' - ex (-g)‖ ≤ δ + (C - B) := by
  have h1 := hZ.base.expNegI g'
  have h3 := norm_expI_sub_le g' (2 * Real.pi * g)
  have e : ex (-g) = Complex.exp (-I * ((2 * Real.pi * g : ℝ) : ℂ)) := by
    unfold ex; congr 1; push_cast; ring
  rw [e]
  have h4 := norm_add_le (Z.expNegI g' - Complex.exp (-I * (g' : ℂ))) (Complex.exp (-I * (g' : ℂ)) - Complex.exp (-I * ((2 * Real.pi * g : ℝ) : ℂ)))
  rw [sub_add_sub_cancel] at h4
  have h5 := hg.dist
  linarith

theorem twoPi_near : Near Z.twoPi (2 * Real.pi) ((1 + δ) * (2 * Real.pi)) (2 * Real.pi) := by
  have hpi : (0 : ℝ) < 2 * Real.pi := by positivity
  exact Near.step hZ.nonneg ⟨(abs_of_pos hpi).le, (abs_of_pos hpi).le, by simp⟩ (by rw [abs_of_pos hpi]; exact hZ.base.twoPi)

/-- `2*pi/(n*usfac)` -/
theorem factor_near (hδ : δ ≤ 1 / 2) {d : ℝ} (hd : d ≠ 0) {d' : ℝ} (h : |d' - d| ≤ δ * |d|) :
    Near (Z.divR Z.twoPi d') (2 * Real.pi / d) ((1 + δ) ^ 4 * (2 * Real.pi / |d|)) (2 * Real.pi / |d|) := by
  have h0 := hZ.nonneg
  have hpi : (0 : ℝ) < 2 * Real.pi := by positivity
  have hdp : 0 < |d| := abs_pos.2 hd
  have hlow : (1 - δ) * |d| ≤ |d'| := by
    have := abs_sub_abs_le_abs_sub d d'
    rw [abs_sub_comm] at this
    linarith
  have hd'p : 0 < |d'| := lt_of_lt_of_le (mul_pos (by linarith) hdp) hlow
  have hd' : d' ≠ 0 := abs_pos.1 hd'p
  have hk : 1 ≤ (1 + δ) ^ 2 * (1 - δ) := by nlinarith [mul_nonneg h0 (by nlinarith : 0 ≤ 1 - δ - δ ^ 2)]
  have t := twoPi_near hZ
  -- `1/|d'| ≤ (1+δ)^2/|d|`
  have hinv : 1 / |d'| ≤ (1 + δ) ^ 2 / |d| := by
    rw [div_le_div_iff₀ hd'p hdp]
    have := mul_le_mul_of_nonneg_left hlow (by positivity : (0 : ℝ) ≤ (1 + δ) ^ 2)
    nlinarith [mul_le_mul_of_nonneg_right hk hdp.le]
  have n1 : Near (Z.twoPi / d') (2 * Real.pi / d) ((1 + δ) ^ 3 * (2 * Real.pi / |d|)) (2 * Real.pi / |d|) := by
    refine ⟨?_, ?_, ?_⟩
    · rw [abs_div, div_eq_mul_one_div]
      refine (mul_le_mul t.le' hinv (by positivity) (by positivity)).trans (le_of_eq ?_)
      ring
    · rw [abs_div, abs_of_pos hpi]
    · have e : Z.twoPi / d' - 2 * Real.pi / d = (Z.twoPi - 2 * Real.pi) * (1 / d') + 2 * Real.pi * (1 / d') * ((d - d') / d) := by
        field_simp; ring
      rw [e]
      have a1 : |(Z.twoPi - 2 * Real.pi) * (1 / d')| ≤ δ * (2 * Real.pi) * ((1 + δ) ^ 2 / |d|) := by
        rw [abs_mul, abs_div, abs_one]
        exact mul_le_mul hZ.base.twoPi hinv (by positivity) (by positivity)
      have key : |(d - d') / d / d'| ≤ ((1 + δ) ^ 2 - 1) * (1 / |d|) := by
        have b1 : |(d - d') / d| ≤ δ := by
          rw [abs_div, abs_sub_comm, div_le_iff₀ hdp]; exact h
        rw [abs_div]
        -- |(d-d')/d| / |d'| ≤ δ/((1-δ)|d|) ≤ ((1+δ)^2 - 1)/|d|
        have b2 : |(d - d') / d| / |d'| ≤ δ / ((1 - δ) * |d|) := by
          apply div_le_div₀ h0 b1 (mul_pos (by linarith) hdp) hlow
        refine b2.trans ?_
        rw [mul_one_div, div_le_div_iff₀ (mul_pos (by linarith) hdp) hdp]
        have : δ ≤ ((1 + δ) ^ 2 - 1) * (1 - δ) := by nlinarith
        nlinarith [mul_le_mul_of_nonneg_right this hdp.le]
      have a2 : |2 * Real.pi * (1 / d') * ((d - d') / d)| ≤ 2 * Real.pi * (((1 + δ) ^ 2 - 1) * (1 / |d|)) := by
        have e2 : 2 * Real.pi * (1 / d') * ((d - d') / d) = 2 * Real.pi * ((d - d') / d / d') := by field_simp
        rw [e2, abs_mul, abs_of_pos hpi]
        exact mul_le_mul_of_nonneg_left key hpi.le
      refine (abs_add_le _ _).trans ((add_le_add a1 a2).trans (le_of_eq ?_))
      field_simp
      ring
  have n2 := n1.step h0 (hZ.divR _ _ hd')
  have e : (1 + δ) * ((1 + δ) ^ 3 * (2 * Real.pi / |d|)) = (1 + δ) ^ 4 * (2 * Real.pi / |d|) := by ring
  rwa [e] at n2

/-- `exp((-1j*2*pi/(n*usfac))*t*f)` -/
theorem upsKern_near (hδ : δ ≤ 1 / 2) {n : ℕ} [NeZero n] {us : ℝ} (hus : us ≠ 0) (k : Fin n) {t' t : ℝ} (ht : |t' - t| ≤ δ * |t|) :
    ‖upsKernA Z n us t' (upsFreq k : ℝ) - ex (-(Np.fftfreq n k * (t / us)))‖ ≤ Spec.kernelErr δ 7 (Real.pi * |t / us|) ∧
    ‖upsKernA Z n us (upsFreq k : ℝ) t' - ex (-(Np.fftfreq n k * (t / us)))‖ ≤ Spec.kernelErr δ 7 (Real.pi * |t / us|) := by
  have h0 := hZ.nonneg
  have hn : (0 : ℝ) < n := by exact_mod_cast Nat.pos_of_ne_zero (NeZero.ne n)
  have hd : (n : ℝ) * us ≠ 0 := mul_ne_zero hn.ne' hus
  have h1 := factor_near hZ hδ hd (hZ.base.mulR (n : ℝ) us)
  have h2 : Near t' t ((1 + δ) * |t|) |t| := (Near.refl t).step h0 ht
  have hf : Near (upsFreq k : ℝ) (upsFreq k : ℝ) ((n : ℝ) / 2) ((n : ℝ) / 2) := ⟨abs_upsFreq_le k, abs_upsFreq_le k, by simp⟩
  have e2 : 2 * Real.pi / |(n : ℝ) * us| * |t| * ((n : ℝ) / 2) = Real.pi * |t / us| := by
    rw [abs_mul, abs_of_pos hn, abs_div]
    have : |us| ≠ 0 := abs_ne_zero.2 hus
    field_simp
  have e2' : 2 * Real.pi / |(n : ℝ) * us| * ((n : ℝ) / 2) * |t| = Real.pi * |t / us| := by rw [← e2]; ring
  constructor
  · have h3 := (h1.mul h2).step h0 (hZ.base.mulR _ _)
    have h4 := (h3.mul hf).step h0 (hZ.base.mulR _ _)
    have e1 : (1 + δ) * ((1 + δ) * ((1 + δ) ^ 4 * (2 * Real.pi / |(n : ℝ) * us|) * ((1 + δ) * |t|)) * ((n : ℝ) / 2))
        = (1 + δ) ^ 7 * (Real.pi * |t / us|) := by rw [← e2]; ring
    have e3 : 2 * Real.pi / ((n : ℝ) * us) * t * (upsFreq k : ℝ) = 2 * Real.pi * (Np.fftfreq n k * (t / us)) := by
      rw [Np.fftfreq_eq, ← upsFreq_eq]; field_simp
    rw [e1, e2, e3] at h4
    exact exp_near hZ h4
  · have h3 := (h1.mul hf).step h0 (hZ.base.mulR _ _)
    have h4 := (h3.mul h2).step h0 (hZ.base.mulR _ _)
    have e1 : (1 + δ) * ((1 + δ) * ((1 + δ) ^ 4 * (2 * Real.pi / |(n : ℝ) * us|) * ((n : ℝ) / 2)) * ((1 + δ) * |t|))
        = (1 + δ) ^ 7 * (Real.pi * |t / us|) := by rw [← e2]; ring
    have e3 : 2 * Real.pi / ((n : ℝ) * us) * (upsFreq k : ℝ) * t = 2 * Real.pi * (Np.fftfreq n k * (t / us)) := by
      rw [Np.fftfreq_eq, ← upsFreq_eq]; field_simp
    rw [e1, e2', e3] at h4
    exact exp_near hZ h4

/-- an output coordinate `(b - off)/usfac` -/
theorem upsCoord_near {us : ℝ} (hus : us ≠ 0) (b off : ℝ) :
    Near (Z.divR (Z.addR b off) us) ((b + off) / us) ((1 + δ) ^ 2 * |(b + off) / us|) |(b + off) / us| := by
  have h0 := hZ.nonneg
  have h1 : Near (Z.addR b off) (b + off) ((1 + δ) * |b + off|) |b + off| := (Near.refl _).step h0 (hZ.base.addR _ _)
  have hi : Near us⁻¹ us⁻¹ |us⁻¹| |us⁻¹| := Near.refl _
  have h2 := h1.mul hi
  simp only [← div_eq_mul_inv] at h2
  have h3 := h2.step h0 (hZ.divR _ _ hus)
  have e1 : (1 + δ) * ((1 + δ) * |b + off| * |us⁻¹|) = (1 + δ) ^ 2 * |(b + off) / us| := by
    rw [div_eq_mul_inv, abs_mul]; ring
  have e2 : |b + off| * |us⁻¹| = |(b + off) / us| := by rw [div_eq_mul_inv, abs_mul]
  rwa [e1, e2] at h3

/-- the column kernel of `dftups` -/
theorem kernc_near {n : ℕ} [NeZero n] {us : ℝ} (hus : us ≠ 0) (k : Fin n) (b coff : ℝ) :
    ‖Z.expNegI (Z.mulR (Z.mulR Z.twoPi (Z.divR (upsFreq k : ℝ) (n : ℝ))) (Z.divR (Z.addR b (-coff)) us))
      - ex (-(Np.fftfreq n k * ((b - coff) / us)))‖ ≤ Spec.kernelErr δ 6 (Real.pi * |(b - coff) / us|) := by
  have h0 := hZ.nonneg
  have hn : (n : ℝ) ≠ 0 := by exact_mod_cast NeZero.ne n
  have hq : (upsFreq k : ℝ) / (n : ℝ) = Np.fftfreq n k := by rw [Np.fftfreq_eq, ← upsFreq_eq]
  have hfq := abs_fftfreq_le n k
  have h1 : Near (Z.divR (upsFreq k : ℝ) (n : ℝ)) (Np.fftfreq n k) ((1 + δ) * (1 / 2)) (1 / 2) :=
    Near.step h0 ⟨hfq, hfq, by simp⟩ (by rw [← hq]; exact hZ.divR _ _ hn)
  have h2 := upsCoord_near hZ hus b (-coff)
  rw [← sub_eq_add_neg] at h2
  have h3 := ((twoPi_near hZ).mul h1).step h0 (hZ.base.mulR _ _)
  have h4 := (h3.mul h2).step h0 (hZ.base.mulR _ _)
  have e1 : (1 + δ) * ((1 + δ) * ((1 + δ) * (2 * Real.pi) * ((1 + δ) * (1 / 2))) * ((1 + δ) ^ 2 * |(b - coff) / us|))
      = (1 + δ) ^ 6 * (Real.pi * |(b - coff) / us|) := by ring
  have e2 : 2 * Real.pi * (1 / 2) * |(b - coff) / us| = Real.pi * |(b - coff) / us| := by ring
  have e3 : 2 * Real.pi * Np.fftfreq n k * ((b - coff) / us) = 2 * Real.pi * (Np.fftfreq n k * ((b - coff) / us)) := by ring
  rw [e1, e2, e3] at h4
  exact exp_near hZ h4

theorem kernelErr_mono {m : ℕ} {B : ℝ} (hB : 0 ≤ B) : Spec.kernelErr δ m B ≤ Spec.kernelErr δ (m + 1) B := by
  have h0 := hZ.nonneg
  unfold Spec.kernelErr
  have : (1 + δ) ^ m ≤ (1 + δ) ^ (m + 1) := pow_le_pow_right₀ (by linarith) (by omega)
  have := mul_le_mul_of_nonneg_right (by linarith : (1 + δ) ^ m - 1 ≤ (1 + δ) ^ (m + 1) - 1) hB
  linarith

variable {nr nc : ℕ} [NeZero nr] [NeZero nc]

omit hZ [NeZero nr] [NeZero nc] in
theorem dftupsVal_rows (y : Fin nr × Fin nc → ℂ) (us roff coff a b : ℝ) :
    dftupsVal y us roff coff a b = ∑ k2, (∑ k1, ex (-(Np.fftfreq nr k1 * ((a - roff) / us))) * y (k1, k2)) * ex (-(Np.fftfreq nc k2 * ((b - coff) / us))) := by
  unfold dftupsVal
  rw [Fintype.sum_prod_type_right]
  refine Finset.sum_congr rfl fun k2 _ => ?_
  rw [Finset.sum_mul]
  exact Finset.sum_congr rfl fun k1 _ => by ring

/-- `dftups` of approximate coefficients -/
theorem dftupsA_near (hδ : δ ≤ 1 / 2) {y' y : Fin nr × Fin nc → ℂ} {S' S : ℝ} (hy : NearC y' y S' S) (nor noc : ℕ) {us : ℝ} (hus : us ≠ 0) (roff coff : ℝ)
    (i : Fin nor × Fin noc) :
    ‖dftupsA Z y' nor noc us roff coff i - dftupsVal y us roff coff (i.1 : ℕ) (i.2 : ℕ)‖
      ≤ (1 + δ) ^ 2 * (1 + Spec.kernelErr δ 7 (Real.pi * |(((i.1 : ℕ) : ℝ) - roff) / us|))
        * (1 + Spec.kernelErr δ 7 (Real.pi * |(((i.2 : ℕ) : ℝ) - coff) / us|)) * S' - S := by
  have n2 := dot_row hZ (a' := fun k : Fin nor × Fin nr => upsKernA Z nr us (Z.addR ((k.1 : ℕ) : ℝ) (-roff)) (upsFreq k.2 : ℝ))
    (u := fun k => ex (-(Np.fftfreq nr k * ((((i.1 : ℕ) : ℝ) - roff) / us)))) i.1 hy
    (fun k => (upsKern_near hZ hδ hus k (by have := hZ.base.addR ((i.1 : ℕ) : ℝ) (-roff); rwa [← sub_eq_add_neg] at this)).1) (fun k => norm_ex _)
  have n3 := dot_entry hZ (m := nor) (b' := fun k : Fin nc × Fin noc =>
      Z.expNegI (Z.mulR (Z.mulR Z.twoPi (Z.divR (upsFreq k.1 : ℝ) (nc : ℝ))) (Z.divR (Z.addR ((k.2 : ℕ) : ℝ) (-coff)) us)))
    (u := fun k => ex (-(Np.fftfreq nc k * ((((i.2 : ℕ) : ℝ) - coff) / us)))) (κ := Spec.kernelErr δ 7 (Real.pi * |(((i.2 : ℕ) : ℝ) - coff) / us|)) i n2
    (fun k => (kernc_near hZ hus k _ coff).trans (kernelErr_mono hZ (mul_nonneg Real.pi_pos.le (abs_nonneg _)))) (fun k => norm_ex _)
  refine (le_of_eq ?_).trans (n3.trans (le_of_eq (by ring)))
  rw [dftupsVal_rows]
  rfl

/-- `odddftups` of approximate coefficients -/
theorem odddftupsA_near (hδ : δ ≤ 1 / 2) {y' y : Fin nr × Fin nc → ℂ} {S' S : ℝ} (hy : NearC y' y S' S) (nor noc : ℕ) {us : ℝ} (hus : us ≠ 0) (roff coff : ℝ)
    (i : Fin nor × Fin noc) :
    ‖odddftupsA Z y' nor noc us roff coff i - dftupsVal y us roff coff (i.1 : ℕ) (i.2 : ℕ)‖
      ≤ (1 + δ) ^ 2 * (1 + Spec.kernelErr δ 7 (Real.pi * |(((i.1 : ℕ) : ℝ) - roff) / us|))
        * (1 + Spec.kernelErr δ 7 (Real.pi * |(((i.2 : ℕ) : ℝ) - coff) / us|)) * S' - S := by
  have n2 := dot_row hZ (a' := fun k : Fin nor × Fin nr => upsKernA Z nr us (Z.addR ((k.1 : ℕ) : ℝ) (-roff)) (upsFreq k.2 : ℝ))
    (u := fun k => ex (-(Np.fftfreq nr k * ((((i.1 : ℕ) : ℝ) - roff) / us)))) i.1 hy
    (fun k => (upsKern_near hZ hδ hus k (by have := hZ.base.addR ((i.1 : ℕ) : ℝ) (-roff); rwa [← sub_eq_add_neg] at this)).1) (fun k => norm_ex _)
  have n3 := dot_entry hZ (m := nor) (b' := fun k : Fin nc × Fin noc => upsKernA Z nc us (upsFreq k.1 : ℝ) (Z.addR ((k.2 : ℕ) : ℝ) (-coff)))
    (u := fun k => ex (-(Np.fftfreq nc k * ((((i.2 : ℕ) : ℝ) - coff) / us)))) i n2
    (fun k => (upsKern_near hZ hδ hus k (by have := hZ.base.addR ((i.2 : ℕ) : ℝ) (-coff); rwa [← sub_eq_add_neg] at this)).2) (fun k => norm_ex _)
  refine (le_of_eq ?_).trans (n3.trans (le_of_eq (by ring)))
  rw [dftupsVal_rows]
  rfl

end

theorem NearC.refl {ι : Type} [Fintype ι] (y : ι → ℂ) : NearC y y (∑ k, ‖y k‖) (∑ k, ‖y k‖) := ⟨le_rfl, le_rfl, by simp⟩

end ImgReg
