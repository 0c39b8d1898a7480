import Verif.Props.Convolve
import Mathlib.Tactic.IntervalCases
import Mathlib.Algebra.Order.BigOperators.Ring.Finset

/-!
# Further theorems for C61, C81: the uncropped convolution, normalisation by a function, a NaN `fill_value`
-/

open Finset

namespace ImgReg

variable {D : ℕ} {s t : Fin D → ℕ} [∀ d, NeZero (s d)]

/-- the image padded to the shape `N`: pixel `s//2` of the image is moved to pixel `N//2`, `c` outside -/
noncomputable def Spec.padded {α : Type} {N : Fin D → ℕ} (x : Idx s → α) (c : α) (u : Idx N) : α :=
  Spec.extend x c fun d => ((u d : ℕ) : ℤ) - (((N d / 2 : ℕ) : ℤ) - ((s d / 2 : ℕ) : ℤ))

omit [∀ d, NeZero (s d)] in
theorem putSlices_padded {α : Type} {N : Fin D → ℕ} (hN : ∀ d, s d ≤ N d)
    (hsl : Np.SlicesFit N s fun d => convSlice (N d) (s d)) (c : α) (x : Idx s → α) (u : Idx N) :
    Np.putSlices (fun d => convSlice (N d) (s d)) hsl (fun _ => c) x u = Spec.padded x c u := by
  unfold Np.putSlices Spec.padded Spec.extend
  have hs : ∀ d, (convSlice (N d) (s d)).1 = ((N d / 2 : ℕ) : ℤ) - ((s d / 2 : ℕ) : ℤ) ∧
      (convSlice (N d) (s d)).2 = ((N d / 2 : ℕ) : ℤ) - ((s d / 2 : ℕ) : ℤ) + s d := by
    intro d
    rw [convSlice_eq _ _ (hN d)]
    have := hN d
    constructor <;> simp only <;> omega
  by_cases h : ∀ d, (convSlice (N d) (s d)).1 ≤ (u d : ℕ) ∧ ((u d : ℕ) : ℤ) < (convSlice (N d) (s d)).2
  · have h' : ∀ d, 0 ≤ ((u d : ℕ) : ℤ) - (((N d / 2 : ℕ) : ℤ) - ((s d / 2 : ℕ) : ℤ)) ∧
        ((u d : ℕ) : ℤ) - (((N d / 2 : ℕ) : ℤ) - ((s d / 2 : ℕ) : ℤ)) < s d := by
      intro d
      have h1 := h d
      rw [(hs d).1, (hs d).2] at h1
      omega
    rw [dif_pos h, dif_pos h']
    congr 1
    funext d
    apply Fin.ext
    simp only
    rw [(hs d).1]
  · rw [dif_neg h, dif_neg]
    intro h'
    apply h
    intro d
    have h1 := h' d
    beta_reduce at h1
    rw [(hs d).1, (hs d).2]
    omega

/-- C81: the uncropped convolution (`crop=False`, no NaN weighting, kernel as it is), for every boundary that is
implemented and all padding flags: an array of the padded shape `N`, the circular convolution - on the padded grid, kernel
centred at its pixel `t//2` - of the padded image. -/
theorem C81_uncropped (cfg : FFTConfig) (o : ConvArgs (Idx t)) (hb : o.boundary ≠ .extend) (hcrop : o.crop = false)
    (hret : o.returnFft = false) (hint : o.interpolateNan = false) (hig : o.ignoreEdgeZeros = false)
    (hnk : o.normalizeKernel = .falsy) (c : ℝ) (hc : o.fillValue = some (c : ℂ)) (x : Idx s → Pix) (κ : Idx t → Pix) :
    ∃ (p f : Bool) (N : Fin D → ℕ) (_ : ∀ d, NeZero (N d)), Spec.PaddedShape s t N p f ∧
      (o.boundary = .fill ∨ o.boundary = .none → p = true ∧ f = o.fftPad) ∧
      (o.boundary = .wrap → p = false ∧ f = false) ∧ (o.boundary = .other → p = o.psfPad ∧ f = o.fftPad) ∧
      convolvend cfg o (toC x) (toC κ) = .ok (.real N fun u => some (∑ q : Idx t,
        Spec.padded (Spec.nan0 x) (if o.boundary = .wrap then 0 else c)
          (fun d => Spec.wrap (N d) (((u d : ℕ) : ℤ) + ((t d / 2 : ℕ) : ℤ) - ((q d : ℕ) : ℤ))) * Spec.nan0 κ q)) := by
  obtain ⟨p, f, hp, h1, h2, h3⟩ : ∃ p f, convPads o.boundary o.psfPad o.fftPad = some (p, f) ∧
      (o.boundary = .fill ∨ o.boundary = .none → p = true ∧ f = o.fftPad) ∧
      (o.boundary = .wrap → p = false ∧ f = false) ∧ (o.boundary = .other → p = o.psfPad ∧ f = o.fftPad) := by
    cases h : o.boundary <;> simp_all [convPads]
  have hfill : convFill o.boundary o.fillValue = some (((if o.boundary = .wrap then 0 else c : ℝ)) : ℂ) := by
    rw [hc]; cases h : o.boundary <;> simp [convFill]
  obtain ⟨b, hbn⟩ := falsy_normalize κ
  have hsa := slicesFit (convNewShape s t p f) s fun d => (newShape_ge s t p f d).1
  have hsk := slicesFit (convNewShape s t p f) t fun d => (newShape_ge s t p f d).2
  have hu := convolvend_unfold cfg o (toC x) (toC κ) _ b (by rw [hnk]; exact hbn) p f hp _ hfill hret hsa hsk
  refine ⟨p, f, convNewShape s t p f, inferInstance, newShape_spec p f, h1, h2, h3, ?_⟩
  rw [hu]
  simp only [hint, hig, hcrop, Bool.or_false, Bool.false_and, Bool.false_eq_true, if_false]
  congr 2
  funext u
  rw [Np.real_cArr]
  simp only [realArr]
  rw [conv_core (fun d => (newShape_ge s t p f d).2) hsk]
  congr 1
  have : ∀ v, Np.putSlices (fun d => convSlice (convNewShape s t p f d) (s d)) hsa
      (fun _ => (((if o.boundary = .wrap then 0 else c : ℝ)) : ℂ)) (Spec.nan0C (toC x)) v
      = ((Spec.padded (Spec.nan0 x) (if o.boundary = .wrap then 0 else c) v : ℝ) : ℂ) := by
    intro v
    rw [putSlices_padded (fun d => (newShape_ge s t p f d).1), nan0C_toC]
    unfold Spec.padded Spec.extend
    split_ifs <;> rfl
  simp only [this]
  rw [← Complex.ofReal_re (∑ q : Idx t, Spec.padded (Spec.nan0 x) (if o.boundary = .wrap then 0 else c)
          (fun d => Spec.wrap (convNewShape s t p f d) (((u d : ℕ) : ℤ) + ((t d / 2 : ℕ) : ℤ) - ((q d : ℕ) : ℤ)))
          * Spec.nan0 κ q)]
  push_cast
  rfl

/-- C81: whatever the other flags, the cropped result is the part of the uncropped one whose pixel `N//2` is pixel `s//2`
of the array. -/
theorem C81_crop (cfg : FFTConfig) (o : ConvArgs (Idx t)) (hret : o.returnFft = false) (array : Idx s → CPix)
    (kernel : Idx t → CPix) (N : Fin D → ℕ) (big : Idx N → Pix)
    (h : convolvend cfg { o with crop := false } array kernel = .ok (.real N big)) :
    (∀ d, s d ≤ N d) ∧ ∃ out : Idx s → Pix, convolvend cfg { o with crop := true } array kernel = .ok (.real s out) ∧
      ∀ (i : Idx s) (u : Idx N), (∀ d, (u d : ℕ) + s d / 2 = N d / 2 + i d) → out i = big u := by
  unfold convolvend at h ⊢
  simp only at h ⊢
  cases hk : convNormalize o.normalizeKernel (Np.nanToNum kernel) with
  | error e => simp [hk, bind, Except.bind] at h
  | ok r =>
    obtain ⟨k1, nrm⟩ := r
    simp only [hk, bind, Except.bind] at h ⊢
    cases hp : convPads o.boundary o.psfPad o.fftPad with
    | none => simp [hp] at h
    | some pf =>
      obtain ⟨p, f⟩ := pf
      simp only [hp] at h ⊢
      have hsa := slicesFit (convNewShape s t p f) s fun d => (newShape_ge s t p f d).1
      have hsk := slicesFit (convNewShape s t p f) t fun d => (newShape_ge s t p f d).2
      rw [dif_pos ⟨hsa, hsk⟩] at h ⊢
      by_cases hnan : Np.anyNaN (Np.mul
          ((convFfts cfg).1 (Np.putSlices (fun d => convSlice (convNewShape s t p f d) (s d)) hsa
            (fun _ => convFill o.boundary o.fillValue) (Np.nanToNum array)))
          ((convFfts cfg).1 (Np.ifftshiftN (Np.putSlices (fun d => convSlice (convNewShape s t p f d) (t d)) hsk
            (fun _ => some 0) k1))))
      · rw [if_pos hnan] at h
        simp at h
      · rw [if_neg hnan] at h ⊢
        simp only [hret, if_true, Bool.false_eq_true, if_false, Except.ok.injEq, ConvOut.real.injEq] at h ⊢
        obtain ⟨rfl, h⟩ := h
        rw [← eq_of_heq h]
        refine ⟨fun d => (newShape_ge s t p f d).1, _, ⟨trivial, HEq.rfl⟩, fun i u hu => ?_⟩
        simp only [Np.real, getSlices_eq]
        have e : emb (fun d => convSlice (convNewShape s t p f d) (s d)) hsa i = u := by
          funext d
          apply Fin.ext
          have h1 := emb_val (fun d => convSlice (convNewShape s t p f d) (s d)) hsa i d
          rw [convSlice_eq _ _ (newShape_ge s t p f d).1] at h1
          have h2 := hu d
          have h3 := (newShape_ge s t p f d).1
          simp only at h1
          omega
        rw [e]

/-- C61: a function passed as `normalize_kernel` divides the kernel (NaNs replaced by 0) by what it returns; the result is
the plain convolution with that kernel. -/
theorem C61_normalize_function (cfg : FFTConfig) (o : ConvArgs (Idx t)) (g : (Idx t → CPix) → CPix)
    (hnk : o.normalizeKernel = .fn g) (hw : o.interpolateNan = false) (hig : o.ignoreEdgeZeros = false) (array : Idx s → CPix)
    (kernel : Idx t → CPix) (z : ℂ) (hz : z ≠ 0) (hg : g (fun q => some ((kernel q).getD 0)) = some z) :
    convolvend cfg o array kernel
      = convolvend cfg { o with normalizeKernel := .falsy } array (fun q => some ((kernel q).getD 0 / z)) := by
  have e1 : convNormalize (.fn g) (Np.nanToNum kernel) = .ok (cArr fun q => (kernel q).getD 0 / z, true) := by
    unfold convNormalize
    simp only
    have : g (Np.nanToNum kernel) = some z := hg
    rw [this]
    congr 2
    funext q
    simp only [Np.divC, Np.nanToNum, hz, if_false, cArr]
  obtain ⟨b, e2⟩ : ∃ b, convNormalize .falsy (Np.nanToNum fun q => (some ((kernel q).getD 0 / z) : CPix))
      = .ok (cArr fun q => (kernel q).getD 0 / z, b) := by
    unfold convNormalize
    simp only
    exact ⟨_, rfl⟩
  unfold convolvend
  simp only [hnk, e1, e2, bind, Except.bind, hw, hig, Bool.or_false, Bool.false_and]

/-- C61: a NaN `fill_value` is a ValueError with the boundaries `'fill'` and `None`, and is not used with `'wrap'`. -/
theorem C61_nan_fill (cfg : FFTConfig) [∀ d, NeZero (t d)] (hD : 0 < D) (o : ConvArgs (Idx t)) (array : Idx s → CPix)
    (kernel : Idx t → CPix) (hnk : o.normalizeKernel = .falsy ∨ o.normalizeKernel = .isTrue) :
    (o.boundary = .fill ∨ o.boundary = .none → o.fillValue = Option.none →
      convolvend cfg o array kernel = .error .valueError) ∧
    (o.boundary = .wrap → ∀ v, convolvend cfg { o with fillValue := v } array kernel = convolvend cfg o array kernel) := by
  constructor
  · intro hb hv
    obtain ⟨k1, nrm, hk⟩ : ∃ k1 nrm, convNormalize o.normalizeKernel (Np.nanToNum kernel) = .ok (k1, nrm) := by
      rcases hnk with h | h <;> rw [h] <;> exact ⟨_, _, rfl⟩
    have hp : convPads o.boundary o.psfPad o.fftPad = some (true, o.fftPad) := by
      rcases hb with h | h <;> rw [h] <;> rfl
    have hf : convFill o.boundary o.fillValue = Option.none := by
      rw [hv]; rcases hb with h | h <;> rw [h] <;> rfl
    have hge := fun d => newShape_psf_ge s t o.fftPad d
    have hsa := slicesFit (convNewShape s t true o.fftPad) s fun d => (newShape_ge s t true o.fftPad d).1
    have hsk := slicesFit (convNewShape s t true o.fftPad) t fun d => (newShape_ge s t true o.fftPad d).2
    unfold convolvend
    simp only [hk, bind, Except.bind, hp, hf]
    rw [dif_pos ⟨hsa, hsk⟩, if_pos]
    have hnone : Np.fftn (Np.putSlices (fun d => convSlice (convNewShape s t true o.fftPad d) (s d)) hsa
        (fun _ => (Option.none : CPix)) (Np.nanToNum array)) = fun _ => Option.none := by
      unfold Np.fftn
      rw [if_neg]
      intro hall
      have hlt : ∀ d, s d < convNewShape s t true o.fftPad d := fun d => by
        have := hge d; have := NeZero.pos (t d); omega
      -- a pixel of the padded array outside of the image: the first or the last one
      obtain ⟨u, hu⟩ : ∃ u : Idx (convNewShape s t true o.fftPad), ∀ q, emb _ hsa q ≠ u := by
        by_contra hcon
        push Not at hcon
        have hc := Fintype.card_le_of_surjective (emb _ hsa) hcon
        have hc2 : Fintype.card (Idx s) < Fintype.card (Idx (convNewShape s t true o.fftPad)) := by
          simp only [Fintype.card_pi, Fintype.card_fin]
          exact Finset.prod_lt_prod_of_nonempty (fun d _ => NeZero.pos (s d)) (fun d _ => hlt d)
            ⟨⟨0, hD⟩, mem_univ _⟩
        omega
      have := hall u
      rw [putSlices_not_emb _ hsa _ _ u hu] at this
      simp at this
    refine ⟨fun _ => 0, ?_⟩
    rw [convFfts_eq]
    simp only [Np.mul, hf, hnone]
    exact Option.map₂_none_left _ _
  · intro hb v
    have e : convFill o.boundary v = convFill o.boundary o.fillValue := by rw [hb]; rfl
    unfold convolvend
    simp only
    rw [e]

/-! ## Concrete cases -/

/-- C81: `convolvend([1,2],[1], crop=False)`: two pixels padded to `2^2 = 4`, put at pixels 1 and 2. -/
example (cfg : FFTConfig) : ∃ out : Idx (fun _ : Fin 1 => 4) → Pix,
    convolvend (s := fun _ : Fin 1 => 2) (t := fun _ : Fin 1 => 1) cfg { crop := false }
      (toC fun i => some (![1, 2] (i 0))) (toC fun _ => some 1) = .ok (.real _ out) ∧
    out (fun _ => 0) = some 0 ∧ out (fun _ => 1) = some 1 ∧ out (fun _ => 2) = some 2 ∧ out (fun _ => 3) = some 0 := by
  obtain ⟨p, f, N, hN0, hN, h1, -, -, h⟩ := C81_uncropped (s := fun _ : Fin 1 => 2) (t := fun _ : Fin 1 => 1) cfg
    { crop := false } (by simp) rfl rfl rfl rfl rfl 0 (by simp) (fun i => some (![1, 2] (i 0))) (fun _ => some 1)
  obtain ⟨rfl, rfl⟩ := h1 (Or.inl rfl)
  have hN4 : N = fun _ : Fin 1 => 4 := by
    funext d
    simp only [Spec.PaddedShape, if_true] at hN
    obtain ⟨M, hM, top, ⟨⟨m, rfl⟩, h3, h4⟩, h5, h6⟩ := hN
    have ht := h5 0
    obtain ⟨-, e⟩ := h6 (by omega)
    have e3 : top = 3 := e
    subst e3
    have := h4 2 (by norm_num)
    have hm : m = 2 := by
      have : m ≤ 2 := (Nat.pow_le_pow_iff_right (by norm_num)).1 this
      interval_cases m <;> omega
    rw [hM, hm]; norm_num
  subst hN4
  refine ⟨_, h, ?_, ?_, ?_, ?_⟩
  all_goals
    congr 1
    rw [← Equiv.sum_comp (Equiv.funUnique (Fin 1) (Fin 1)).symm]
    simp [Spec.padded, Spec.extend, Spec.nan0, Spec.wrap]

end ImgReg
