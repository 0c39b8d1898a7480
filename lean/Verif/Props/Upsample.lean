import Verif.Lemmas.Upsample
import Verif.Props.Scale

/-!
# Properties C18–C20, C75: matrix-multiply DFT upsampling
-/

open Complex Finset
open scoped ComplexConjugate

namespace ImgReg

namespace Spec

/-- the signed frequency of spectrum index `k` of an axis of length `n` (centred convention:
`-n/2 ≤ f < n/2`) -/
def signedFreq (n : ℕ) (k : Fin n) : ℤ := if 2 * (k : ℕ) < n then (k : ℤ) else (k : ℤ) - n

/-- a spectrum zero-padded to `us` times the size: every coefficient keeps its signed frequency,
all other frequencies are 0 -/
noncomputable def padSpectrum {nr nc : ℕ} (us : ℕ) [NeZero (us * nr)] [NeZero (us * nc)]
    (X : Fin nr × Fin nc → ℂ) : Fin (us * nr) × Fin (us * nc) → ℂ := fun K =>
  ∑ k, if wrap (us * nr) (signedFreq nr k.1) = K.1 ∧ wrap (us * nc) (signedFreq nc k.2) = K.2
    then X k else 0

end Spec

theorem signedFreq_eq (n : ℕ) (k : Fin n) : Spec.signedFreq n k = Np.fftfreqInt n k := by
  rw [Np.fftfreqInt_eq n k k.isLt]; rfl

section
variable {nr nc : ℕ} [NeZero nr] [NeZero nc]

/-! ## C18 -/

/-- C18: for integer offsets and upsampling factor, `dftups(inp, nor, noc, usfac, roff, coff)[a,b]`
is element `(a-roff, b-coff)` (periodically) of the FFT of the zero-padded array. -/
theorem C18_dftups_is_padded_fft (inp : Fin nr × Fin nc → ℂ) (nor noc : Option ℕ) (us : ℕ)
    [NeZero (us * nr)] [NeZero (us * nc)] (roff coff : ℤ) :
    dftups (cArr inp) nor noc us roff coff
      = .ok ⟨nor.getD nr, noc.getD nc, cArr fun i =>
          dft (Spec.padSpectrum us inp)
            (Spec.wrap (us * nr) (((i.1 : ℕ) : ℤ) - roff), Spec.wrap (us * nc) (((i.2 : ℕ) : ℤ) - coff))⟩ := by
  have hus : us ≠ 0 := by
    rintro rfl
    have := NeZero.ne (0 * nr); simp at this
  rw [dftups_eq _ _ _ _ _ _ (by exact_mod_cast hus)]
  congr 2
  funext i
  simp only [cArr]
  congr 1
  unfold dftupsVal dft Spec.padSpectrum
  simp_rw [Finset.sum_mul]
  rw [Finset.sum_comm]
  refine Finset.sum_congr rfl fun k _ => ?_
  rw [Finset.sum_eq_single (Spec.wrap (us * nr) (Spec.signedFreq nr k.1),
    Spec.wrap (us * nc) (Spec.signedFreq nc k.2))]
  · rw [if_pos ⟨rfl, rfl⟩, mul_assoc]
    congr 1
    have key : ∀ (n : ℕ) [NeZero n] [NeZero (us * n)] (k : Fin n) (z : ℤ),
        e (Spec.wrap (us * n) z) (Spec.wrap (us * n) (Spec.signedFreq n k))
          = ex (Np.fftfreq n k * ((z : ℝ) / us)) := by
      intro n _ _ k z
      rw [e_wrap_fin, Np.fftfreq_eq]
      have h1 := ex_div_congr (n := us * n)
        ((Spec.wrap_modEq (us * n) (Spec.signedFreq n k)).mul_left z)
      push_cast at h1
      push_cast
      rw [h1, signedFreq_eq]
      congr 1
      have hn : (n : ℝ) ≠ 0 := nR_ne_zero
      have hu : (us : ℝ) ≠ 0 := by exact_mod_cast hus
      field_simp
    rw [e_prod, map_mul, key nr k.1, key nc k.2, conj_ex, conj_ex]
    push_cast
    rfl
  · intro K _ hK
    rw [if_neg, zero_mul]
    rintro ⟨h1, h2⟩
    exact hK (Prod.ext h1.symm h2.symm)
  · simp

/-- C18: default output size is the input size; `usfac = 1` without offset is the plain FFT. -/
theorem C18_dftups_us1 (inp : Fin nr × Fin nc → ℂ) :
    dftups (cArr inp) none none 1 0 0 = .ok ⟨nr, nc, Np.fftn (cArr inp)⟩ := by
  rw [dftups_eq _ _ _ _ _ _ one_ne_zero, Np.fftn_cArr]
  have h : ∀ (n : ℕ) [NeZero n] (k j : Fin n), ex (-(Np.fftfreq n k * ((((j : ℕ) : ℝ) - 0) / 1)))
      = conj (e j k) := by
    intro n _ k j
    have := Np.ex_int_mul_fftfreq ((j : ℕ) : ℤ) k j rfl
    rw [FFTIndex.e_symm, ← this, conj_ex]
    congr 1; push_cast; ring
  have key : (fun i : Fin nr × Fin nc => dftupsVal inp 1 0 0 (i.1 : ℕ) (i.2 : ℕ)) = dft inp := by
    funext i
    unfold dftupsVal dft
    refine Finset.sum_congr rfl fun k _ => ?_
    rw [mul_assoc]
    congr 1
    rw [h nr k.1 i.1, h nc k.2 i.2, e_prod, map_mul]
  show Except.ok (COut2.mk nr nc (cArr fun i : Fin nr × Fin nc =>
    dftupsVal inp 1 0 0 (i.1 : ℕ) (i.2 : ℕ))) = _
  rw [key]

/-! ## C20 -/

/-- C20: `odddftups` returns the same as `dftups` for all arguments, NaN values and errors included. -/
theorem C20_odddftups_eq (inp : Fin nr × Fin nc → CPix) (nor noc : Option ℕ) (us roff coff : ℝ) :
    odddftups inp nor noc us roff coff = dftups inp nor noc us roff coff := by
  by_cases h : us = 0
  · simp [odddftups, dftups, h]
  · have hus : (us : ℂ) ≠ 0 := by exact_mod_cast h
    have hnc : (nc : ℂ) ≠ 0 := by exact_mod_cast NeZero.ne nc
    have key : ∀ a b : ℝ, Complex.exp ((-I * 2 * Real.pi / ((nc : ℂ) * (us : ℂ))) * (a : ℂ) * (b : ℂ))
        = Complex.exp ((-I * 2 * Real.pi) * ((a / (nc : ℝ) : ℝ) : ℂ) * ((b / us : ℝ) : ℂ)) := by
      intro a b
      congr 1
      push_cast
      field_simp
    unfold odddftups dftups
    simp only [if_neg h, key]

end

/-! ## C19 -/

section
variable {ny nx : ℕ} [NeZero ny] [NeZero nx]

/-- the output size requested from `upsample_image` -/
def Spec.outSize (ny nx us : ℕ) : OutSize → ℕ × ℕ
  | .none => (ny * us, nx * us)
  | .pair a b => (a, b)
  | .scalar a => (a, a)

theorem upsampleImage_eq (cfg : FFTConfig) (x : Fin ny × Fin nx → ℂ) (us : ℕ) (hus : 0 < us)
    (o : OutSize) (xs ys : ℝ) :
    upsampleImage cfg (cArr x) us o xs ys
      = .ok ⟨(Spec.outSize ny nx us o).1, (Spec.outSize ny nx us o).2, cArr fun i =>
          interp2C x ((((i.1 : ℕ) : ℝ) - ys) / us) ((((i.2 : ℕ) : ℝ) - xs) / us)⟩ := by
  unfold upsampleImage
  simp only [getFfts_eq, Np.ifftn_cArr]
  have h0 : (us : ℝ) ≠ 0 := by exact_mod_cast hus.ne'
  cases o <;> simp only [] <;> rw [dftups_eq _ _ _ _ _ _ h0] <;> rfl

/-- C19: `upsample_image` is 2-D Fourier interpolation (complex mode) at the coordinates
`((a-yshift)/usfac, (b-xshift)/usfac)`, on the requested output size. -/
theorem C19_is_interpolation (cfg : FFTConfig) (x : Fin ny × Fin nx → ℂ) (us : ℕ) (hus : 0 < us)
    (o : OutSize) (xs ys : ℝ) :
    ∃ y, upsampleImage cfg (cArr x) us o xs ys
        = .ok ⟨(Spec.outSize ny nx us o).1, (Spec.outSize ny nx us o).2, cArr y⟩ ∧
      fourierInterp2d cfg (cArr x)
        (pairInds (fun a : Fin (Spec.outSize ny nx us o).1 => (((a : ℕ) : ℝ) - ys) / us)
          (fun b : Fin (Spec.outSize ny nx us o).2 => (((b : ℕ) : ℝ) - xs) / us)) false
        = .ok ⟨(Spec.outSize ny nx us o).1, (Spec.outSize ny nx us o).2, .cplx (cArr y)⟩ := by
  refine ⟨_, upsampleImage_eq cfg x us hus o xs ys, ?_⟩
  rw [fourierInterp2d_ok cfg x (pairInds _ _) rfl ⟨_, _⟩ ⟨_, _⟩ rfl rfl, retReal_false]

/-- C19: wherever the sampling position is a whole pixel, the output is that pixel
(periodically). -/
theorem C19_reproduces (cfg : FFTConfig) (x : Fin ny × Fin nx → ℂ) (us : ℕ) (hus : 0 < us)
    (o : OutSize) (xs ys : ℝ) :
    ∃ y, upsampleImage cfg (cArr x) us o xs ys
        = .ok ⟨(Spec.outSize ny nx us o).1, (Spec.outSize ny nx us o).2, cArr y⟩ ∧
      ∀ (i : Fin (Spec.outSize ny nx us o).1 × Fin (Spec.outSize ny nx us o).2) (p q : ℤ),
        ((i.1 : ℕ) : ℝ) - ys = us * p → ((i.2 : ℕ) : ℝ) - xs = us * q →
        y i = x (Spec.wrap ny p, Spec.wrap nx q) := by
  refine ⟨_, upsampleImage_eq cfg x us hus o xs ys, ?_⟩
  intro i p q hp hq
  have h0 : (us : ℝ) ≠ 0 := by exact_mod_cast hus.ne'
  simp only [hp, hq]
  rw [mul_div_cancel_left₀ _ h0, mul_div_cancel_left₀ _ h0, interp2C_int]

/-- C19: with `upsample_factor = 1` and no shift the image itself is returned. -/
theorem C19_us1 (cfg : FFTConfig) (x : Fin ny × Fin nx → ℂ) :
    upsampleImage cfg (cArr x) 1 (.pair ny nx) 0 0 = .ok ⟨ny, nx, cArr x⟩ := by
  rw [upsampleImage_eq cfg x 1 one_pos]
  have : ∀ t : ℕ, ((t : ℝ) - 0) / ((1 : ℕ) : ℝ) = (((t : ℕ) : ℤ) : ℝ) := by
    intro t; push_cast; ring
  show Except.ok (COut2.mk ny nx (cArr fun i : Fin ny × Fin nx =>
    interp2C x ((((i.1 : ℕ) : ℝ) - 0) / ((1 : ℕ) : ℝ)) ((((i.2 : ℕ) : ℝ) - 0) / ((1 : ℕ) : ℝ)))) = _
  simp only [this, interp2C_int, Spec.wrap_val]

/-- C19: `upsample_factor = 0` raises ZeroDivisionError. -/
theorem C19_us0 (cfg : FFTConfig) (x : Fin ny × Fin nx → CPix) (o : OutSize) (xs ys : ℝ) :
    upsampleImage cfg x 0 o xs ys = .error .zeroDivisionError := by
  simp [upsampleImage, dftups]

/-- a sampling position as in `C19_reproduces`: output pixel 6 at `usfac 3`, shift 0 is pixel 2 -/
example : ((6 : ℕ) : ℝ) - 0 = (3 : ℕ) * ((2 : ℤ) : ℝ) := by norm_num

end

/-! ## C75 -/

section
variable {n : ℕ} [NeZero n]

/-- C75: `dftups1d` of the inverse FFT of `x` is the Fourier interpolant of `x` at
`(i + offset)/usfac` (note the sign of `offset`, opposite to `dftups`), and those are the
coordinates returned with `return_xouts`. -/
theorem C75_dftups1d (cfg : FFTConfig) (x : Fin n → ℂ) (us : ℝ) (outsize : Option ℕ) (off : ℝ)
    (rx : Bool) :
    ∃ y : Fin (outsize.getD n) → ℂ,
      dftups1d ((getFfts cfg).2 (cArr x)) us outsize off rx
        = ⟨outsize.getD n, if rx then some fun i => (((i : ℕ) : ℝ) + off) / us else none, cArr y⟩ ∧
      fourierInterp1d cfg (cArr x)
        (Arr.ofVec fun i : Fin (outsize.getD n) => (((i : ℕ) : ℝ) + off) / us) none false
        = .ok ⟨outsize.getD n, .cplx (cArr y)⟩ := by
  refine ⟨fun i => interpC x ((((i : ℕ) : ℝ) + off) / us), ?_, ?_⟩
  · unfold dftups1d
    simp only [getFfts_eq, Np.ifftn_cArr, kern_eq]
    rw [show (fun i : Fin n × Fin (outsize.getD n) => some (ex (-(Np.fftfreq n i.1 * ((((i.2 : ℕ) : ℝ) + off) / us)))))
      = cArr (fun i : Fin n × Fin (outsize.getD n) => ex (-(Np.fftfreq n i.1 * ((((i.2 : ℕ) : ℝ) + off) / us)))) from rfl,
      Np.dotV_cArr]
    rfl
  · rw [fourierInterp1d_vec, retReal_false]

end

end ImgReg
