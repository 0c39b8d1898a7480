import Verif.Props.Zoom
import Verif.Props.Upsample
import Verif.Props.ScaleMore

/-!
# Further theorems for C14, C17 (zoom) and C18, C19 (upsampling)
-/

open Complex Finset

namespace ImgReg

/-! ## C17: exceptional arguments of the zoom functions -/

/-- C17: a zero zoom factor is a ZeroDivisionError in `zoom1d`, and in `zoom_on_pixel` whenever at
least one coordinate is given; `zoomnd` checks the offsets first. -/
theorem C17_usfac_zero {n ny nx : ℕ} [NeZero n] [NeZero ny] [NeZero nx] (cfg : FFTConfig)
    (x1 : Fin n → CPix) (x2 : Fin ny × Fin nx → CPix) (o1 : Option ℕ) (o2 : Option (ℕ × ℕ))
    (off c : ℝ) (cs offs : List ℝ) (mc : ℝ → ℝ) (rr rx : Bool) :
    zoom1d cfg x1 0 o1 off rx rr = .error .zeroDivisionError ∧
    zoomOnPixel1 cfg x1 (c :: cs) 0 o1 rr rx = .error .zeroDivisionError ∧
    zoomOnPixel2 cfg x2 (c :: cs) 0 o2 rr rx = .error .zeroDivisionError ∧
    zoomnd1 cfg x1 offs mc 0 o1 rr rx
      = .error (if offs.length = 0 ∨ offs.length = 1 then .zeroDivisionError else .valueError) ∧
    zoomnd2 cfg x2 offs mc 0 o2 rr rx
      = .error (if offs.length = 0 ∨ offs.length = 2 then .zeroDivisionError else .valueError) := by
  refine ⟨by simp [zoom1d], by simp [zoomOnPixel1], by simp [zoomOnPixel2], ?_, ?_⟩
  · match offs with
    | [] => simp [zoomnd1, zoomMiddle, zoomOnPixel1, bind, Except.bind]
    | [a] => simp [zoomnd1, zoomMiddle, zoomOnPixel1, bind, Except.bind]
    | a :: b :: r => simp [zoomnd1, zoomMiddle, bind, Except.bind]
  · match offs with
    | [] => simp [zoomnd2, zoomMiddle, zoomOnPixel2, bind, Except.bind, List.replicate]
    | [a] => simp [zoomnd2, zoomMiddle, bind, Except.bind]
    | [a, b] => simp [zoomnd2, zoomMiddle, zoomOnPixel2, bind, Except.bind]
    | a :: b :: c :: r => simp [zoomnd2, zoomMiddle, bind, Except.bind]

/-- C17: coordinates beyond the number of axes are ignored. -/
theorem C17_surplus_coordinates {n ny nx : ℕ} [NeZero n] [NeZero ny] [NeZero nx] (cfg : FFTConfig)
    (x1 : Fin n → CPix) (x2 : Fin ny × Fin nx → CPix) (o1 : Option ℕ) (o2 : Option (ℕ × ℕ))
    (a b us : ℝ) (rest : List ℝ) (rr rx : Bool) :
    zoomOnPixel1 cfg x1 (a :: rest) us o1 rr rx = zoomOnPixel1 cfg x1 [a] us o1 rr rx ∧
    zoomOnPixel2 cfg x2 (a :: b :: rest) us o2 rr rx = zoomOnPixel2 cfg x2 [a, b] us o2 rr rx := by
  constructor
  · simp [zoomOnPixel1]
  · simp [zoomOnPixel2]

/-- C17 for a 1-D array: a nonempty offsets tuple must have exactly one entry (else ValueError);
otherwise the zoom returns normally for every output size but 1. -/
theorem C17_zoomnd_offsets_1d {n : ℕ} [NeZero n] (cfg : FFTConfig) (x : Fin n → ℂ)
    (offs : List ℝ) (mc : ℝ → ℝ) (us : ℝ) (hus : us ≠ 0) (outshape : Option ℕ)
    (h1 : outshape.getD n ≠ 1) (rr rx : Bool) :
    (zoomnd1 cfg (cArr x) offs mc us outshape rr rx = .error .valueError ↔
      offs ≠ [] ∧ offs.length ≠ 1) ∧
    (¬ (offs ≠ [] ∧ offs.length ≠ 1) →
      ∃ r, zoomnd1 cfg (cArr x) offs mc us outshape rr rx = .ok r) := by
  have hok : ¬ (offs ≠ [] ∧ offs.length ≠ 1) →
      ∃ r, zoomnd1 cfg (cArr x) offs mc us outshape rr rx = .ok r := by
    intro h
    have : ∃ l, zoomMiddle [n] offs mc = .ok l := by
      unfold zoomMiddle
      rw [if_neg (by
        rintro ⟨h1, h2⟩
        exact h ⟨by rintro rfl; simp at h1, by simpa using h2⟩)]
      exact ⟨_, rfl⟩
    obtain ⟨l, hl⟩ := this
    obtain ⟨cube, _, _, he⟩ := zoomOnPixel1_eq cfg x l us hus outshape h1 rr rx
    exact ⟨_, by simp only [zoomnd1, hl, bind, Except.bind]; exact he⟩
  refine ⟨⟨?_, ?_⟩, hok⟩
  · intro he
    by_contra h
    obtain ⟨r, hr⟩ := hok h
    rw [hr] at he; simp at he
  · rintro ⟨h1, h2⟩
    have : 0 < offs.length := List.length_pos_iff.2 h1
    have h2' : ¬ offs.length = 1 := h2
    simp [zoomnd1, zoomMiddle, this, h2', bind, Except.bind]

/-- C17: an image zoom to an empty output (a zero dimension) is an IndexError. -/
theorem C17_empty_output {ny nx : ℕ} [NeZero ny] [NeZero nx] (cfg : FFTConfig)
    (x : Fin ny × Fin nx → CPix) (cs : List ℝ) (us : ℝ) (hus : us ≠ 0) (m l : ℕ)
    (h0 : m = 0 ∨ l = 0) (rr rx : Bool) :
    zoomOnPixel2 cfg x cs us (some (m, l)) rr rx = .error .indexError := by
  unfold zoomOnPixel2
  simp only [hus, false_and, if_false, Option.getD_some]
  rw [C13_empty_cube cfg x _ m l rfl h0]
  rfl

/-! ## C18: `dftups` for arbitrary real arguments -/

/-- C18: for every nonzero real `usfac` and real offsets, `dftups` of the inverse FFT of an image is
the Fourier interpolant of the image at `((a-roff)/usfac, (b-coff)/usfac)`. -/
theorem C18_dftups_is_interpolation {ny nx : ℕ} [NeZero ny] [NeZero nx] (cfg : FFTConfig)
    (x : Fin ny × Fin nx → ℂ) (nor noc : Option ℕ) (us roff coff : ℝ) (hus : us ≠ 0) :
    ∃ y, dftups ((getFfts cfg).2 (cArr x)) nor noc us roff coff
        = .ok ⟨nor.getD ny, noc.getD nx, cArr y⟩ ∧
      fourierInterp2d cfg (cArr x)
        (pairInds (fun a : Fin (nor.getD ny) => (((a : ℕ) : ℝ) - roff) / us)
          (fun b : Fin (noc.getD nx) => (((b : ℕ) : ℝ) - coff) / us)) false
        = .ok ⟨nor.getD ny, noc.getD nx, .cplx (cArr y)⟩ := by
  refine ⟨fun i => interp2C x ((((i.1 : ℕ) : ℝ) - roff) / us) ((((i.2 : ℕ) : ℝ) - coff) / us),
    ?_, ?_⟩
  · simp only [getFfts_eq, Np.ifftn_cArr]
    rw [dftups_eq _ _ _ _ _ _ hus]
    simp only [dftupsVal_idft]
  · rw [fourierInterp2d_ok cfg x (pairInds _ _) rfl ⟨_, _⟩ ⟨_, _⟩ rfl rfl, retReal_false]

/-- C18: `dftups` written out: a double sum over the signed frequencies. -/
theorem C18_dftups_formula {nr nc : ℕ} [NeZero nr] [NeZero nc] (inp : Fin nr × Fin nc → ℂ)
    (nor noc : Option ℕ) (us roff coff : ℝ) (hus : us ≠ 0) :
    dftups (cArr inp) nor noc us roff coff
      = .ok ⟨nor.getD nr, noc.getD nc, cArr fun i => ∑ k : Fin nr × Fin nc, inp k *
          Complex.exp (-2 * Real.pi * I *
            (((Spec.signedFreq nr k.1 : ℝ) / nr * ((((i.1 : ℕ) : ℝ) - roff) / us)
              + (Spec.signedFreq nc k.2 : ℝ) / nc * ((((i.2 : ℕ) : ℝ) - coff) / us) : ℝ) : ℂ))⟩ := by
  rw [dftups_eq _ _ _ _ _ _ hus]
  congr 2
  funext i
  simp only [cArr]
  congr 1
  unfold dftupsVal
  refine Finset.sum_congr rfl fun k _ => ?_
  rw [mul_assoc, ← ex_add, Np.fftfreq_eq, Np.fftfreq_eq, signedFreq_eq, signedFreq_eq]
  congr 1
  unfold ex
  congr 1
  push_cast
  ring

/-- C18: `usfac = 0` is a ZeroDivisionError. -/
theorem C18_dftups_us0 {nr nc : ℕ} [NeZero nr] [NeZero nc] (inp : Fin nr × Fin nc → CPix)
    (nor noc : Option ℕ) (roff coff : ℝ) :
    dftups inp nor noc 0 roff coff = .error .zeroDivisionError := by
  simp [dftups]

/-- C18: one NaN in the input makes the whole output NaN. -/
theorem C18_dftups_nan {nr nc : ℕ} [NeZero nr] [NeZero nc] (inp : Fin nr × Fin nc → CPix)
    (i₀ : Fin nr × Fin nc) (hnan : inp i₀ = none) (nor noc : Option ℕ) (us roff coff : ℝ)
    (hus : us ≠ 0) :
    dftups inp nor noc us roff coff = .ok ⟨nor.getD nr, noc.getD nc, fun _ => none⟩ := by
  unfold dftups
  simp only [hus, if_false]
  congr 2
  funext i
  unfold Np.dot
  rw [if_neg]
  intro h
  have := (h i₀.2).1
  simp only [Option.isSome_iff_ne_none, ne_eq] at this
  apply this
  rw [if_neg]
  intro h2
  have := (h2 i₀.1).2
  rw [hnan] at this
  simp at this

/-- C19: one NaN pixel makes the whole upsampled image NaN. -/
theorem C19_nan {ny nx : ℕ} [NeZero ny] [NeZero nx] (cfg : FFTConfig)
    (x : Fin ny × Fin nx → CPix) (i₀ : Fin ny × Fin nx) (hnan : x i₀ = none) (us : ℕ)
    (hus : 0 < us) (o : OutSize) (xs ys : ℝ) :
    upsampleImage cfg x us o xs ys
      = .ok ⟨(Spec.outSize ny nx us o).1, (Spec.outSize ny nx us o).2, fun _ => none⟩ := by
  have hall : ¬ ∀ i, (x i).isSome := fun h => by have := h i₀; rw [hnan] at this; simp at this
  have hif : Np.ifftn x = fun _ => none := by unfold Np.ifftn; rw [if_neg hall]
  have h0 : (us : ℝ) ≠ 0 := by exact_mod_cast hus.ne'
  unfold upsampleImage
  simp only [getFfts_eq, hif]
  cases o <;> simp only [] <;> rw [C18_dftups_nan _ i₀ rfl _ _ _ _ _ h0] <;> rfl

end ImgReg
