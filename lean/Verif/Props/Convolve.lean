import Verif.Lemmas.Convolve
import Mathlib.Algebra.BigOperators.Field
import Mathlib.Tactic.NormNum
import Mathlib.Tactic.Positivity
import Mathlib.Tactic.FieldSimp

/-!
# Properties C61–C63, C80, C81: `convolvend`
-/

open Finset

namespace ImgReg

variable {D : ℕ} {s t : Fin D → ℕ} [∀ d, NeZero (s d)]

/-! ## Specification -/

/-- the pixel values with NaN replaced by 0 -/
noncomputable def Spec.nan0C {ι : Type} (x : ι → CPix) : ι → ℂ := fun i => (x i).getD 0

/-- The value of the array that kernel pixel `q` meets when the kernel, centred at its pixel `t//2` and flipped,
is placed at output pixel `i`: pixel `i + t//2 - q` of the array, continued periodically … -/
def Spec.seenWrap {α : Type} (a : Idx s → α) (i : Idx s) (q : Idx t) : α :=
  a fun d => Spec.wrap (s d) (((i d : ℕ) : ℤ) + ((t d / 2 : ℕ) : ℤ) - ((q d : ℕ) : ℤ))

/-- … or continued by the constant `c` -/
noncomputable def Spec.seenFill {α : Type} (a : Idx s → α) (c : α) (i : Idx s) (q : Idx t) : α :=
  Spec.extend a c fun d => ((i d : ℕ) : ℤ) + ((t d / 2 : ℕ) : ℤ) - ((q d : ℕ) : ℤ)

/-- the two supported kinds of boundary: `'wrap'` with a kernel that is not larger than the array, and
`'fill'` (or `None`) -/
inductive Spec.Edge where
  | wrap
  | fill

/-- which arguments select them -/
def Spec.Edge.Selected (e : Spec.Edge) (s t : Fin D → ℕ) (b : Boundary) : Prop :=
  match e with
  | .wrap => b = .wrap ∧ ∀ d, t d ≤ s d
  | .fill => b = .fill ∨ b = .none

/-- what is seen -/
noncomputable def Spec.Edge.seen {α : Type} (e : Spec.Edge) (a : Idx s → α) (c : α) (i : Idx s) (q : Idx t) : α :=
  match e with
  | .wrap => Spec.seenWrap a i q
  | .fill => Spec.seenFill a c i q

/-! ## The returned values -/

/-- the size of the padded array -/
def Spec.Edge.Padded (e : Spec.Edge) (s t n : Fin D → ℕ) : Prop :=
  match e with
  | .wrap => ∀ d, n d = s d
  | .fill => ∀ d, s d + t d ≤ n d

theorem fill_eq (e : Spec.Edge) (b : Boundary) (hb : e.Selected s t b) (c : ℂ) :
    ∃ c', convFill b (some c) = some c' ∧
      ∀ (a : Idx s → ℂ) (i : Idx s) (q : Idx t), e.seen a c' i q = e.seen a c i q := by
  cases e with
  | wrap =>
    obtain ⟨rfl, _⟩ := hb
    exact ⟨0, rfl, fun _ _ _ => rfl⟩
  | fill =>
    rcases hb with rfl | rfl
    · exact ⟨c, rfl, fun _ _ _ => rfl⟩
    · exact ⟨c, rfl, fun _ _ _ => rfl⟩

omit [∀ d, NeZero (s d)] in
theorem pads_eq (e : Spec.Edge) (b : Boundary) (hb : e.Selected s t b) (p0 f0 : Bool) :
    ∃ p f, convPads b p0 f0 = some (p, f) ∧
      e.Padded s t (convNewShape s t p f) := by
  cases e with
  | wrap =>
    obtain ⟨rfl, ht⟩ := hb
    refine ⟨false, false, rfl, fun d => ?_⟩
    simp only [convNewShape, Bool.false_eq_true, if_false]
    exact max_eq_left (ht d)
  | fill =>
    refine ⟨true, f0, ?_, fun d => newShape_psf_ge s t f0 d⟩
    rcases hb with rfl | rfl <;> rfl

/-- `big[slices] = a` seen from the array, whatever the padding -/
theorem put_seen {n : Fin D → ℕ} [∀ d, NeZero (n d)] (e : Spec.Edge)
    (hn : e.Padded s t n)
    (hsl : Np.SlicesFit n s fun d => convSlice (n d) (s d)) (a : Idx s → ℂ) (c : ℂ) (i : Idx s) (q : Idx t) :
    Np.putSlices (fun d => convSlice (n d) (s d)) hsl (fun _ => c) a
      (fun d => Spec.wrap (n d) (((emb (fun d => convSlice (n d) (s d)) hsl i d : Fin (n d)) : ℕ) + ((t d / 2 : ℕ) : ℤ)
        - ((q d : ℕ) : ℤ))) = e.seen a c i q := by
  cases e with
  | wrap => exact put_wrap_wrap hn hsl a c i q
  | fill => exact put_wrap_fill hn hsl a c i q

/-- everything `convolvend` computes when nothing goes wrong -/
theorem convolvend_unfold (cfg : FFTConfig) (o : ConvArgs (Idx t)) (array : Idx s → CPix) (kernel : Idx t → CPix)
    (k : Idx t → ℂ) (nrm : Bool) (hk : convNormalize o.normalizeKernel (Np.nanToNum kernel) = .ok (cArr k, nrm))
    (p f : Bool) (hp : convPads o.boundary o.psfPad o.fftPad = some (p, f)) (c : ℂ)
    (hc : convFill o.boundary o.fillValue = some c) (hret : o.returnFft = false)
    (hsa : Np.SlicesFit (convNewShape s t p f) s fun d => convSlice (convNewShape s t p f d) (s d))
    (hsk : Np.SlicesFit (convNewShape s t p f) t fun d => convSlice (convNewShape s t p f d) (t d)) :
    convolvend cfg o array kernel =
      (let n := convNewShape s t p f
       let big := Np.putSlices (fun d => convSlice (n d) (s d)) hsa (fun _ => c) (Spec.nan0C array)
       let kf := dft (Np.ifftshiftN (Np.putSlices (fun d => convSlice (n d) (t d)) hsk (fun _ => (0 : ℂ)) k))
       let conv := idft fun u => dft big u * kf u
       let rifft : Idx n → CPix := if (o.interpolateNan || o.ignoreEdgeZeros) && nrm then
           convDivide (cArr conv) (convWeights cfg (fun d => convSlice (n d) (s d)) hsa o.interpolateNan
             o.ignoreEdgeZeros array (cArr kf) (some (∑ q, k q))) o.minWt
         else cArr conv
       if o.crop then .ok (.real s (Np.real (Np.getSlices (fun d => convSlice (n d) (s d)) hsa rifft)))
       else .ok (.real n (Np.real rifft))) := by
  unfold convolvend
  simp only [hk, bind, Except.bind, hp]
  rw [dif_pos ⟨hsa, hsk⟩]
  have h1 : Np.nanToNum array = cArr (Spec.nan0C array) := Np.nanToNum_cArr array
  have h2 : Np.ifftshiftN (cArr (Np.putSlices (fun d => convSlice (convNewShape s t p f d) (t d)) hsk (fun _ => (0 : ℂ)) k))
      = cArr (Np.ifftshiftN (Np.putSlices (fun d => convSlice (convNewShape s t p f d) (t d)) hsk (fun _ => (0 : ℂ)) k)) := rfl
  have h3 : Np.sumC (cArr k) = some (∑ q, k q) := by simp [Np.sumC, cArr]
  have hA : Np.putSlices (fun d => convSlice (convNewShape s t p f d) (s d)) hsa
      (fun _ => convFill o.boundary o.fillValue) (Np.nanToNum array)
      = cArr (Np.putSlices (fun d => convSlice (convNewShape s t p f d) (s d)) hsa (fun _ => c) (Spec.nan0C array)) := by
    rw [h1, hc, putSlices_cArr]
  have hK : Np.putSlices (fun d => convSlice (convNewShape s t p f d) (t d)) hsk
      (fun _ => (some 0 : CPix)) (cArr k)
      = cArr (Np.putSlices (fun d => convSlice (convNewShape s t p f d) (t d)) hsk (fun _ => (0 : ℂ)) k) :=
    putSlices_cArr _ hsk 0 k
  rw [hA, hK, h2, convFfts_eq]
  simp only
  rw [if_neg (by rw [Np.fftn_cArr, Np.fftn_cArr, Np.mul_cArr]; exact Np.not_anyNaN_cArr _), hret]
  simp only [Bool.false_eq_true, if_false]
  rw [Np.fftn_cArr, Np.fftn_cArr, Np.mul_cArr, Np.ifftn_cArr, h3]

theorem convolvend_crop (cfg : FFTConfig) (o : ConvArgs (Idx t)) (e : Spec.Edge) (he : e.Selected s t o.boundary)
    (hcrop : o.crop = true) (hret : o.returnFft = false) (c : ℂ) (hc : o.fillValue = some c)
    (array : Idx s → CPix) (kernel : Idx t → CPix) (k : Idx t → ℂ) (nrm : Bool)
    (hk : convNormalize o.normalizeKernel (Np.nanToNum kernel) = .ok (cArr k, nrm)) :
    ∃ (n : Fin D → ℕ) (_ : ∀ d, NeZero (n d)) (hsa : Np.SlicesFit n s fun d => convSlice (n d) (s d))
      (hsk : Np.SlicesFit n t fun d => convSlice (n d) (t d)) (conv : Idx n → ℂ),
      e.Padded s t n ∧ (∀ d, t d ≤ n d) ∧
      (∀ i, conv (emb _ hsa i) = ∑ q : Idx t, e.seen (Spec.nan0C array) c i q * k q) ∧
      convolvend cfg o array kernel = .ok (.real s (Np.real (Np.getSlices (fun d => convSlice (n d) (s d)) hsa
        (if (o.interpolateNan || o.ignoreEdgeZeros) && nrm then
           convDivide (cArr conv) (convWeights cfg (fun d => convSlice (n d) (s d)) hsa o.interpolateNan
             o.ignoreEdgeZeros array
             (cArr (dft (Np.ifftshiftN (Np.putSlices (fun d => convSlice (n d) (t d)) hsk (fun _ => (0 : ℂ)) k))))
             (some (∑ q, k q))) o.minWt
         else cArr conv)))) := by
  obtain ⟨p, f, hp, hn⟩ := pads_eq e o.boundary he o.psfPad o.fftPad
  obtain ⟨c', hc', hseen⟩ := fill_eq e o.boundary he c
  rw [← hc] at hc'
  have hsa := slicesFit (convNewShape s t p f) s fun d => (newShape_ge s t p f d).1
  have hsk := slicesFit (convNewShape s t p f) t fun d => (newShape_ge s t p f d).2
  have hu := convolvend_unfold cfg o array kernel k nrm hk p f hp c' hc' hret hsa hsk
  rw [hcrop] at hu
  simp only [if_true] at hu
  refine ⟨convNewShape s t p f, inferInstance, hsa, hsk, _, hn, fun d => (newShape_ge s t p f d).2, fun i => ?_, hu⟩
  rw [conv_core (fun d => (newShape_ge s t p f d).2) hsk]
  refine Finset.sum_congr rfl fun q _ => ?_
  rw [put_seen e hn hsa, hseen]

/-- the value without weights -/
theorem convolvend_plain (cfg : FFTConfig) (o : ConvArgs (Idx t)) (e : Spec.Edge) (he : e.Selected s t o.boundary)
    (hcrop : o.crop = true) (hret : o.returnFft = false) (c : ℂ) (hc : o.fillValue = some c)
    (array : Idx s → CPix) (kernel : Idx t → CPix) (k : Idx t → ℂ) (nrm : Bool)
    (hk : convNormalize o.normalizeKernel (Np.nanToNum kernel) = .ok (cArr k, nrm))
    (hw : ((o.interpolateNan || o.ignoreEdgeZeros) && nrm) = false) :
    convolvend cfg o array kernel
      = .ok (.real s fun i => some (∑ q : Idx t, e.seen (Spec.nan0C array) c i q * k q).re) := by
  obtain ⟨n, _, hsa, hsk, conv, _, _, hconv, h⟩ := convolvend_crop cfg o e he hcrop hret c hc array kernel k nrm hk
  rw [h, hw]
  simp only [Bool.false_eq_true, if_false]
  congr 2
  funext i
  rw [← hconv]
  rfl

/-- dividing a convolution by its weight: NaN below `min_wt`, and 0 at weight 0 if `min_wt` is 0 -/
noncomputable def Spec.divide (x w minWt : ℝ) : Pix :=
  if minWt = 0 ∧ w = 0 then some 0 else if w < minWt ∨ w = 0 then Option.none else some (x / w)

/-- 0 for the pixels that are ignored, 1 for the others -/
def Spec.validity (interpolateNan : Bool) (array : Idx s → CPix) : Idx s → ℂ :=
  fun i => if interpolateNan = true ∧ array i = Option.none then 0 else 1

theorem convWeights_eq (cfg : FFTConfig) {n : Fin D → ℕ} [∀ d, NeZero (n d)] (e : Spec.Edge)
    (hn : e.Padded s t n) (ht : ∀ d, t d ≤ n d)
    (hsa : Np.SlicesFit n s fun d => convSlice (n d) (s d)) (hsk : Np.SlicesFit n t fun d => convSlice (n d) (t d))
    (ip ig : Bool) (array : Idx s → CPix) (k : Idx t → ℂ) (hks : ∑ q, k q ≠ 0) (i : Idx s) :
    convWeights cfg (fun d => convSlice (n d) (s d)) hsa ip ig array
        (cArr (dft (Np.ifftshiftN (Np.putSlices (fun d => convSlice (n d) (t d)) hsk (fun _ => (0 : ℂ)) k))))
        (some (∑ q, k q)) (emb _ hsa i)
      = some (max 0 ((∑ q : Idx t, e.seen (Spec.validity ip array) (if ig then 0 else 1) i q * k q) / ∑ q, k q).re) := by
  unfold convWeights
  simp only [convFfts_eq]
  have hbig : toC (Np.putSlices (fun d => convSlice (n d) (s d)) hsa (fun _ => (if ig then some 0 else some 1 : Pix))
      (fun i => some (1 - if ((array i).isNone && ip) = true then (1 : ℝ) else 0)))
      = cArr (Np.putSlices (fun d => convSlice (n d) (s d)) hsa (fun _ => (if ig then 0 else 1 : ℂ)) (Spec.validity ip array)) := by
    funext u
    by_cases hu : ∃ r, emb _ hsa r = u
    · obtain ⟨r, rfl⟩ := hu
      simp only [toC, cArr, putSlices_emb, Spec.validity]
      cases h : array r <;> cases ip <;> simp
    · push Not at hu
      simp only [toC, cArr, putSlices_not_emb _ hsa _ _ u hu]
      cases ig <;> simp
  rw [hbig, Np.fftn_cArr, Np.mul_cArr]
  have hdiv : ∀ x : Idx n → ℂ, Np.divC (cArr x) (some (∑ q, k q)) = cArr fun u => (1 / ∑ q, k q) * x u := by
    intro x
    funext u
    simp only [Np.divC, cArr, hks, if_false]
    congr 1
    ring
  rw [hdiv, Np.ifftn_cArr, idft_smul, Np.real_cArr, putSlices_emb, getSlices_eq]
  simp only [realArr]
  rw [conv_core ht hsk]
  have hsum : ∑ q : Idx t, Np.putSlices (fun d => convSlice (n d) (s d)) hsa (fun _ => (if ig then 0 else 1 : ℂ))
        (Spec.validity ip array) (fun d => Spec.wrap (n d) (((emb (fun d => convSlice (n d) (s d)) hsa i d : Fin (n d)) : ℕ)
          + ((t d / 2 : ℕ) : ℤ) - ((q d : ℕ) : ℤ))) * k q
      = ∑ q : Idx t, e.seen (Spec.validity ip array) (if ig then 0 else 1) i q * k q :=
    Finset.sum_congr rfl fun q _ => by rw [put_seen e hn hsa]
  rw [hsum, one_div, inv_mul_eq_div]
  generalize ((∑ q : Idx t, e.seen (Spec.validity ip array) (if ig then 0 else 1) i q * k q) / ∑ q, k q).re = z
  split_ifs with h0
  · rw [max_eq_left h0.le]
  · rw [max_eq_right (not_lt.1 h0)]

/-- the value with weights -/
theorem convolvend_weighted (cfg : FFTConfig) (o : ConvArgs (Idx t)) (e : Spec.Edge) (he : e.Selected s t o.boundary)
    (hcrop : o.crop = true) (hret : o.returnFft = false) (c : ℂ) (hc : o.fillValue = some c)
    (array : Idx s → CPix) (kernel : Idx t → CPix) (k : Idx t → ℂ)
    (hk : convNormalize o.normalizeKernel (Np.nanToNum kernel) = .ok (cArr k, true))
    (hw : (o.interpolateNan || o.ignoreEdgeZeros) = true) (hks : ∑ q, k q ≠ 0) :
    convolvend cfg o array kernel = .ok (.real s fun i => Spec.divide
      (∑ q : Idx t, e.seen (Spec.nan0C array) c i q * k q).re
      (max 0 ((∑ q : Idx t, e.seen (Spec.validity o.interpolateNan array) (if o.ignoreEdgeZeros then 0 else 1) i q * k q)
        / ∑ q, k q).re) o.minWt) := by
  obtain ⟨n, _, hsa, hsk, conv, hn, ht, hconv, h⟩ :=
    convolvend_crop cfg o e he hcrop hret c hc array kernel k true hk
  rw [h, hw]
  simp only [Bool.and_true, if_true]
  congr 2
  funext i
  rw [← hconv]
  simp only [Np.real, getSlices_eq, convDivide]
  rw [convWeights_eq cfg e hn ht hsa hsk _ _ array k hks i]
  simp only [cArr, Spec.divide]
  set w := max 0 ((∑ q : Idx t, e.seen (Spec.validity o.interpolateNan array) (if o.ignoreEdgeZeros then 0 else 1) i q * k q)
        / ∑ q, k q).re
  by_cases h1 : o.minWt = 0 ∧ w = 0
  · simp [h1]
  · rw [if_neg h1, if_neg h1]
    by_cases h2 : w < o.minWt
    · simp [h2]
    · by_cases h3 : w = 0
      · simp [h3]
      · simp [h2, h3]

/-! ## Real images -/

theorem seen_map {α β : Type} (g : α → β) (e : Spec.Edge) (a : Idx s → α) (c : α) (i : Idx s) (q : Idx t) :
    e.seen (fun j => g (a j)) (g c) i q = g (e.seen a c i q) := by
  cases e with
  | wrap => rfl
  | fill =>
    simp only [Spec.Edge.seen, Spec.seenFill, Spec.extend]
    split_ifs <;> rfl

theorem nan0C_toC {ι : Type} (x : ι → Pix) : Spec.nan0C (toC x) = fun i => ((Spec.nan0 x i : ℝ) : ℂ) := by
  funext i
  unfold Spec.nan0C toC Spec.nan0
  cases x i <;> simp

theorem conv_real (e : Spec.Edge) (y : Idx s → ℝ) (c : ℝ) (κ : Idx t → ℝ) (i : Idx s) :
    ∑ q : Idx t, e.seen (fun j => (y j : ℂ)) (c : ℂ) i q * ((κ q : ℝ) : ℂ)
      = ((∑ q : Idx t, e.seen y c i q * κ q : ℝ) : ℂ) := by
  push_cast
  refine Finset.sum_congr rfl fun q _ => ?_
  rw [seen_map (fun r : ℝ => (r : ℂ)) e y c i q]

/-- the arguments of a plain convolution: no special NaN treatment, kernel used as it is, a cropped image returned -/
structure Spec.Plain (o : ConvArgs (Idx t)) : Prop where
  crop : o.crop = true
  notFft : o.returnFft = false
  noInterp : o.interpolateNan = false
  edges : o.ignoreEdgeZeros = false
  norm : o.normalizeKernel = .falsy

theorem falsy_normalize {κ' : Type} [Fintype κ'] (κ : κ' → Pix) :
    ∃ b, convNormalize .falsy (Np.nanToNum (toC κ)) = .ok (cArr fun q => ((Spec.nan0 κ q : ℝ) : ℂ), b) := by
  unfold convNormalize
  simp only
  have h : Np.nanToNum (toC κ) = cArr fun q => ((Spec.nan0 κ q : ℝ) : ℂ) := by
    rw [Np.nanToNum_cArr]
    exact congrArg cArr (nan0C_toC κ)
  rw [h]
  exact ⟨_, rfl⟩

theorem plain_real (cfg : FFTConfig) (o : ConvArgs (Idx t)) (ho : Spec.Plain o) (e : Spec.Edge)
    (he : e.Selected s t o.boundary) (c : ℝ) (hc : o.fillValue = some (c : ℂ)) (x : Idx s → Pix) (κ : Idx t → Pix) :
    convolvend cfg o (toC x) (toC κ)
      = .ok (.real s fun i => some (∑ q : Idx t, e.seen (Spec.nan0 x) c i q * Spec.nan0 κ q)) := by
  obtain ⟨b, hb⟩ := falsy_normalize κ
  rw [convolvend_plain cfg o e he ho.crop ho.notFft c hc (toC x) (toC κ) _ b (by rw [ho.norm]; exact hb)
    (by rw [ho.noInterp, ho.edges]; rfl)]
  congr 2
  funext i
  rw [nan0C_toC, conv_real, Complex.ofReal_re]

/-! ## C61 -/

/-- C61: `boundary='wrap'`, kernel not larger than the array: output pixel `i` is
`Σ_q array[(i + t//2 - q) mod shape] · kernel[q]`, the circular convolution with the kernel centred at its pixel
`t//2` (NaNs count as 0). -/
theorem C61_wrap (cfg : FFTConfig) (o : ConvArgs (Idx t)) (ho : Spec.Plain o) (hb : o.boundary = .wrap)
    (ht : ∀ d, t d ≤ s d) (c : ℝ) (hc : o.fillValue = some (c : ℂ)) (x : Idx s → Pix) (κ : Idx t → Pix) :
    convolvend cfg o (toC x) (toC κ) = .ok (.real s fun i => some (∑ q : Idx t,
      Spec.nan0 x (fun d => Spec.wrap (s d) (((i d : ℕ) : ℤ) + ((t d / 2 : ℕ) : ℤ) - ((q d : ℕ) : ℤ))) * Spec.nan0 κ q)) :=
  plain_real cfg o ho .wrap ⟨hb, ht⟩ c hc x κ

/-- C61: `boundary='fill'` (or `None`), any padding flags, any kernel size: the same sum with the array continued by
`fill_value`; nothing wraps around. -/
theorem C61_fill (cfg : FFTConfig) (o : ConvArgs (Idx t)) (ho : Spec.Plain o) (hb : o.boundary = .fill ∨ o.boundary = .none)
    (c : ℝ) (hc : o.fillValue = some (c : ℂ)) (x : Idx s → Pix) (κ : Idx t → Pix) :
    convolvend cfg o (toC x) (toC κ) = .ok (.real s fun i => some (∑ q : Idx t,
      Spec.extend (Spec.nan0 x) c (fun d => ((i d : ℕ) : ℤ) + ((t d / 2 : ℕ) : ℤ) - ((q d : ℕ) : ℤ)) * Spec.nan0 κ q)) :=
  plain_real cfg o ho .fill hb c hc x κ

/-- C61: `normalize_kernel=True` is the same as dividing the kernel by its sum beforehand, for all other arguments. -/
theorem C61_normalize (cfg : FFTConfig) (o : ConvArgs (Idx t)) (array : Idx s → CPix) (kernel : Idx t → CPix)
    (h : ∑ q, Spec.nan0C kernel q ≠ 0) :
    convolvend cfg { o with normalizeKernel := .isTrue } array kernel
      = convolvend cfg { o with normalizeKernel := .falsy } array
          (fun q => some (Spec.nan0C kernel q / ∑ r, Spec.nan0C kernel r)) := by
  have e1 : convNormalize .isTrue (Np.nanToNum kernel)
      = .ok (cArr fun q => Spec.nan0C kernel q / ∑ r, Spec.nan0C kernel r, true) := by
    unfold convNormalize
    simp only
    have hs : Np.sumC (Np.nanToNum kernel) = some (∑ r, Spec.nan0C kernel r) := by simp [Np.sumC, Np.nanToNum, Spec.nan0C]
    rw [hs]
    congr 2
    funext q
    simp only [Np.divC, Np.nanToNum, h, if_false, cArr]
    rfl
  have e2 : convNormalize .falsy (Np.nanToNum fun q => some (Spec.nan0C kernel q / ∑ r, Spec.nan0C kernel r))
      = .ok (cArr fun q => Spec.nan0C kernel q / ∑ r, Spec.nan0C kernel r, true) := by
    unfold convNormalize
    simp only
    have hn : (Np.nanToNum fun q => (some (Spec.nan0C kernel q / ∑ r, Spec.nan0C kernel r) : CPix))
        = cArr fun q => Spec.nan0C kernel q / ∑ r, Spec.nan0C kernel r := rfl
    rw [hn]
    congr 2
    rw [decide_eq_true_iff]
    refine ⟨1, ?_, by norm_num⟩
    simp only [Np.sumC, cArr, Option.isSome_some, implies_true, if_true, Option.getD_some]
    rw [← Finset.sum_div, div_self h]
  unfold convolvend
  simp only [e1, e2]

/-- C61: errors.  `boundary='extend'`; `normalize_kernel=True` with a kernel whose sum is 0; different numbers of
dimensions. -/
theorem C61_errors (cfg : FFTConfig) [∀ d, NeZero (t d)] (o : ConvArgs (Idx t)) (array : Idx s → CPix)
    (kernel : Idx t → CPix) :
    (o.boundary = .extend → o.normalizeKernel = .falsy ∨ o.normalizeKernel = .isTrue →
      convolvend cfg o array kernel = .error .notImplementedError) ∧
    (o.boundary ≠ .extend → o.normalizeKernel = .isTrue → ∑ q, Spec.nan0C kernel q = 0 →
      convolvend cfg o array kernel = .error .valueError) := by
  constructor
  · intro hb hn
    unfold convolvend
    rcases hn with hn | hn <;>
      simp only [hn, hb, convNormalize, convPads, bind, Except.bind]
  · intro hb hn hs
    have e1 : convNormalize .isTrue (Np.nanToNum kernel) = .ok (fun _ => Option.none, true) := by
      unfold convNormalize
      simp only
      have hs' : Np.sumC (Np.nanToNum kernel) = some 0 := by
        have : Np.sumC (Np.nanToNum kernel) = some (∑ r, Spec.nan0C kernel r) := by
          simp [Np.sumC, Np.nanToNum, Spec.nan0C]
        rw [this, hs]
      rw [hs']
      congr 2
      funext q
      simp [Np.divC, Np.nanToNum]
    obtain ⟨p, f, hp⟩ : ∃ p f, convPads o.boundary o.psfPad o.fftPad = some (p, f) := by
      cases h : o.boundary <;> simp_all [convPads]
    unfold convolvend
    simp only [hn, e1, bind, Except.bind, hp]
    have hsa := slicesFit (convNewShape s t p f) s fun d => (newShape_ge s t p f d).1
    have hsk := slicesFit (convNewShape s t p f) t fun d => (newShape_ge s t p f d).2
    rw [dif_pos ⟨hsa, hsk⟩, if_pos]
    refine ⟨fun _ => 0, ?_⟩
    have hnone : Np.fftn (Np.ifftshiftN (Np.putSlices (fun d => convSlice (convNewShape s t p f d) (t d)) hsk
        (fun _ => (some 0 : CPix)) fun _ => Option.none)) = fun _ => Option.none := by
      unfold Np.fftn
      rw [if_neg]
      intro hall
      have := hall (fun d => Np.fftshiftIdx (emb _ hsk (fun _ => 0) d))
      have hsh : ∀ d, Np.ifftshiftIdx (Np.fftshiftIdx (emb (fun d => convSlice (convNewShape s t p f d) (t d)) hsk (fun _ => 0) d))
          = emb (fun d => convSlice (convNewShape s t p f d) (t d)) hsk (fun _ => 0) d := by
        intro d; simp [Np.ifftshiftIdx, Np.fftshiftIdx]
      simp only [Np.ifftshiftN, hsh, putSlices_emb] at this
      simp at this
    rw [convFfts_eq]
    simp only [Np.mul, hnone]
    exact Option.map₂_none_right _ _

/-- C61: arrays with different numbers of dimensions raise `Exception`. -/
theorem C61_ndim (cfg : FFTConfig) {D D' : ℕ} (h : D ≠ D') {s : Fin D → ℕ} {t : Fin D' → ℕ} [∀ d, NeZero (s d)]
    (o : ConvArgs (Idx t)) (array : Idx s → CPix) (kernel : Idx t → CPix) :
    convolvendAny cfg o array kernel = .error .exception := by
  unfold convolvendAny
  rw [dif_neg h]

/-! ## C62 -/

/-- the shape of the returned array -/
def ConvOut.shape : ConvOut D → Fin D → ℕ
  | .real sh _ => sh
  | .cplx sh _ => sh

/-- `N` is the least power of two that is at least `M` -/
def Spec.IsLeastPow2 (N M : ℕ) : Prop := (∃ m, N = 2 ^ m) ∧ M ≤ N ∧ ∀ m, M ≤ 2 ^ m → N ≤ 2 ^ m

theorem clog_isLeastPow2 (M : ℕ) : Spec.IsLeastPow2 (2 ^ Nat.clog 2 M) M :=
  ⟨⟨_, rfl⟩, le_clog M, fun m hm => Nat.pow_le_pow_right (by norm_num) (Nat.clog_le_of_le_pow hm)⟩

/-- the padded size: with `psf_pad` (forced by `'fill'` and `None`, off with `'wrap'`) the sizes are added, otherwise the
larger one is taken; with `fft_pad` (off with `'wrap'`) all axes get the least power of two that suffices for all -/
def Spec.PaddedShape (s t N : Fin D → ℕ) (psfPad fftPad : Bool) : Prop :=
  if fftPad then
    ∃ M, (∀ d, N d = M) ∧
      ∃ top, Spec.IsLeastPow2 M top ∧ (∀ d, (if psfPad then s d + t d else max (s d) (t d)) ≤ top) ∧
        (0 < top → ∃ d, top = if psfPad then s d + t d else max (s d) (t d))
  else ∀ d, N d = if psfPad then s d + t d else max (s d) (t d)

omit [∀ d, NeZero (s d)] in
theorem newShape_spec (p f : Bool) : Spec.PaddedShape s t (convNewShape s t p f) p f := by
  have hex : ∀ g : Fin D → ℕ, 0 < Finset.univ.sup g → ∃ d, Finset.univ.sup g = g d := by
    intro g hg
    rcases Nat.eq_zero_or_pos D with h0 | h0
    · subst h0
      simp at hg
    · have : (Finset.univ : Finset (Fin D)).Nonempty := ⟨⟨0, h0⟩, Finset.mem_univ _⟩
      obtain ⟨d, _, hd⟩ := Finset.exists_mem_eq_sup Finset.univ this g
      exact ⟨d, hd⟩
  unfold Spec.PaddedShape convNewShape
  cases f
  · cases p <;> simp
  · simp only [if_true]
    cases p
    · simp only [Bool.false_eq_true, if_false]
      exact ⟨_, fun _ => rfl, _, clog_isLeastPow2 _, fun d => Finset.le_sup (f := fun d => max (s d) (t d)) (Finset.mem_univ d),
        hex _⟩
    · simp only [if_true]
      exact ⟨_, fun _ => rfl, _, clog_isLeastPow2 _, fun d => Finset.le_sup (f := fun d => s d + t d) (Finset.mem_univ d),
        hex _⟩

/-- C62: the shape of whatever `convolvend` returns: that of the array with `crop=True` (except for an unshifted FFT,
which is never cropped), otherwise the padded shape. -/
theorem C62_shape (cfg : FFTConfig) (o : ConvArgs (Idx t)) (array : Idx s → CPix) (kernel : Idx t → CPix) (out : ConvOut D)
    (h : convolvend cfg o array kernel = .ok out) :
    ∃ p f N, Spec.PaddedShape s t N p f ∧
      (o.boundary = .fill ∨ o.boundary = .none → p = true ∧ f = o.fftPad) ∧
      (o.boundary = .wrap → p = false ∧ f = false) ∧
      (o.boundary = .other → p = o.psfPad ∧ f = o.fftPad) ∧
      out.shape = if o.crop = true ∧ (o.returnFft = true → o.fftshift = true) then s else N := by
  unfold convolvend at h
  cases hk : convNormalize o.normalizeKernel (Np.nanToNum kernel) with
  | error e => simp [hk, bind, Except.bind] at h
  | ok r =>
    obtain ⟨k1, nrm⟩ := r
    simp only [hk, bind, Except.bind] at h
    cases hp : convPads o.boundary o.psfPad o.fftPad with
    | none => simp [hp] at h
    | some pf =>
      obtain ⟨p, f⟩ := pf
      simp only [hp] at h
      have hsa := slicesFit (convNewShape s t p f) s fun d => (newShape_ge s t p f d).1
      have hsk := slicesFit (convNewShape s t p f) t fun d => (newShape_ge s t p f d).2
      rw [dif_pos ⟨hsa, hsk⟩] at h
      refine ⟨p, f, convNewShape s t p f, newShape_spec p f, ?_, ?_, ?_, ?_⟩
      · intro hb
        rcases hb with hb | hb <;> rw [hb] at hp <;> simp [convPads] at hp <;> exact ⟨hp.1, hp.2.symm⟩
      · intro hb; rw [hb] at hp; simp [convPads] at hp; exact ⟨hp.1, hp.2⟩
      · intro hb; rw [hb] at hp; simp [convPads] at hp; exact ⟨hp.1.symm, hp.2.symm⟩
      · split_ifs at h <;> obtain rfl := Except.ok.inj h <;> simp_all [ConvOut.shape]

/-! ## C63 -/

/-- C63, the general rule: with `interpolate_nan` or `ignore_edge_zeros` and a real kernel of sum 1, output pixel `i` is
the convolution divided by the weight: the part of the kernel that meets pixels that are not ignored; `min_wt` as in
`Spec.divide`.  Outside of the array the weight is 0 with `ignore_edge_zeros` and 1 without. -/
theorem C63_weighted (cfg : FFTConfig) (o : ConvArgs (Idx t)) (e : Spec.Edge) (he : e.Selected s t o.boundary)
    (hcrop : o.crop = true) (hret : o.returnFft = false) (c : ℝ) (hc : o.fillValue = some (c : ℂ))
    (hnk : o.normalizeKernel = .falsy) (hw : o.interpolateNan = true ∨ o.ignoreEdgeZeros = true)
    (x : Idx s → Pix) (κ : Idx t → ℝ) (hκ : ∑ q, κ q = 1) :
    convolvend cfg o (toC x) (rArr κ) = .ok (.real s fun i => Spec.divide
      (∑ q : Idx t, e.seen (Spec.nan0 x) c i q * κ q)
      (max 0 (∑ q : Idx t, e.seen (fun j => if o.interpolateNan = true ∧ x j = Option.none then (0 : ℝ) else 1)
        (if o.ignoreEdgeZeros then 0 else 1) i q * κ q)) o.minWt) := by
  have hsum : ∑ q, ((κ q : ℝ) : ℂ) = 1 := by exact_mod_cast hκ
  have hk : convNormalize o.normalizeKernel (Np.nanToNum (rArr κ)) = .ok (cArr fun q => ((κ q : ℝ) : ℂ), true) := by
    rw [hnk]
    unfold convNormalize
    simp only
    have hn : Np.nanToNum (rArr κ) = cArr fun q => ((κ q : ℝ) : ℂ) := rfl
    rw [hn]
    congr 2
    rw [decide_eq_true_iff]
    refine ⟨1, ?_, by norm_num⟩
    simp [Np.sumC, cArr, hsum]
  rw [convolvend_weighted cfg o e he hcrop hret c hc (toC x) (rArr κ) _ hk
    (by rcases hw with h | h <;> simp [h]) (by rw [hsum]; exact one_ne_zero)]
  congr 2
  funext i
  rw [nan0C_toC, conv_real, Complex.ofReal_re, hsum, div_one]
  have hval : Spec.validity o.interpolateNan (toC x)
      = fun j => (((if o.interpolateNan = true ∧ x j = Option.none then (0 : ℝ) else 1) : ℝ) : ℂ) := by
    funext j
    unfold Spec.validity toC
    cases x j <;> cases o.interpolateNan <;> simp
  have hbase : (if o.ignoreEdgeZeros = true then (0 : ℂ) else 1)
      = (((if o.ignoreEdgeZeros = true then (0 : ℝ) else 1) : ℝ) : ℂ) := by
    split_ifs <;> simp
  rw [hval, hbase, conv_real, Complex.ofReal_re]

/-- C63: a constant image with NaNs, a non-negative kernel of sum 1, `interpolate_nan=True`; `boundary='wrap'`, or
`'fill'` (value 0) with `ignore_edge_zeros=True`.  With `min_wt=0` every pixel is the constant, except that pixels all
of whose kernel weight meets NaNs (or lies outside) are 0; with `min_wt > 0` pixels of smaller weight are NaN. -/
theorem C63_constant (cfg : FFTConfig) (o : ConvArgs (Idx t)) (e : Spec.Edge) (he : e.Selected s t o.boundary)
    (hcrop : o.crop = true) (hret : o.returnFft = false) (hc : o.fillValue = some ((0 : ℝ) : ℂ))
    (hnk : o.normalizeKernel = .falsy) (hint : o.interpolateNan = true)
    (hedge : o.boundary = .wrap ∨ o.ignoreEdgeZeros = true)
    (v : ℝ) (x : Idx s → Pix) (hx : ∀ j, x j = Option.none ∨ x j = some v)
    (κ : Idx t → ℝ) (hκ : ∑ q, κ q = 1) (hκ0 : ∀ q, 0 ≤ κ q) :
    ∃ out : Idx s → Pix, convolvend cfg o (toC x) (rArr κ) = .ok (.real s out) ∧
      ∀ i, (let W := ∑ q : Idx t, e.seen (fun j => if x j = Option.none then (0 : ℝ) else 1) 0 i q * κ q
        (0 < W → o.minWt ≤ W → out i = some v) ∧
        (W = 0 → o.minWt = 0 → out i = some 0) ∧
        (W < o.minWt → out i = Option.none)) := by
  refine ⟨_, C63_weighted cfg o e he hcrop hret 0 hc hnk (Or.inl hint) x κ hκ, fun i => ?_⟩
  intro W
  have hbase : ∀ q : Idx t, e.seen (fun j => if o.interpolateNan = true ∧ x j = Option.none then (0 : ℝ) else 1)
      (if o.ignoreEdgeZeros then (0 : ℝ) else 1) i q = e.seen (fun j => if x j = Option.none then (0 : ℝ) else 1) 0 i q := by
    intro q
    simp only [hint, true_and]
    rcases hedge with h | h
    · cases e with
      | wrap => rfl
      | fill => rcases he with he | he <;> rw [he] at h <;> simp at h
    · rw [h]; rfl
  simp only [hbase]
  have hnum : ∑ q : Idx t, e.seen (Spec.nan0 x) 0 i q * κ q = v * W := by
    rw [Finset.mul_sum]
    refine Finset.sum_congr rfl fun q _ => ?_
    have hx' : Spec.nan0 x = fun j => v * (if x j = Option.none then (0 : ℝ) else 1) := by
      funext j
      unfold Spec.nan0
      rcases hx j with h | h <;> simp [h]
    rw [hx']
    have := seen_map (fun r : ℝ => v * r) e (fun j => if x j = Option.none then (0 : ℝ) else 1) 0 i q
    rw [mul_zero] at this
    rw [this]; ring
  have hW0 : 0 ≤ W := by
    refine Finset.sum_nonneg fun q _ => mul_nonneg ?_ (hκ0 q)
    cases e with
    | wrap =>
      simp only [Spec.Edge.seen, Spec.seenWrap]
      split_ifs <;> norm_num
    | fill =>
      simp only [Spec.Edge.seen, Spec.seenFill, Spec.extend]
      split_ifs <;> norm_num
  rw [hnum, max_eq_right hW0]
  unfold Spec.divide
  refine ⟨fun h1 h2 => ?_, fun h1 h2 => ?_, fun h1 => ?_⟩
  · rw [if_neg (by rintro ⟨_, h⟩; exact h1.ne' h), if_neg (by rintro (h | h); exact absurd h (not_lt.2 h2); exact h1.ne' h)]
    rw [mul_div_assoc, div_self h1.ne', mul_one]
  · rw [if_pos ⟨h2, h1⟩]
  · rw [if_neg (by rintro ⟨h, _⟩; rw [h] at h1; exact absurd h1 (not_lt.2 hW0)), if_pos (Or.inl h1)]

/-- C63 (a limit of the claim): if the kernel is not normalised (sum away from 1, `normalize_kernel=False`),
`interpolate_nan` and `ignore_edge_zeros` do nothing: NaNs count as 0. -/
theorem C63_unnormalised (cfg : FFTConfig) (o : ConvArgs (Idx t)) (e : Spec.Edge) (he : e.Selected s t o.boundary)
    (hcrop : o.crop = true) (hret : o.returnFft = false) (c : ℝ) (hc : o.fillValue = some (c : ℂ))
    (hnk : o.normalizeKernel = .falsy) (x : Idx s → Pix) (κ : Idx t → ℝ) (hκ : 1e-8 ≤ |∑ q, κ q - 1|) :
    convolvend cfg o (toC x) (rArr κ)
      = .ok (.real s fun i => some (∑ q : Idx t, e.seen (Spec.nan0 x) c i q * κ q)) := by
  have hk : convNormalize o.normalizeKernel (Np.nanToNum (rArr κ)) = .ok (cArr fun q => ((κ q : ℝ) : ℂ), false) := by
    rw [hnk]
    unfold convNormalize
    simp only
    have hn : Np.nanToNum (rArr κ) = cArr fun q => ((κ q : ℝ) : ℂ) := rfl
    rw [hn]
    congr 2
    rw [decide_eq_false_iff_not]
    rintro ⟨z, hz, hlt⟩
    have : z = ((∑ q, κ q : ℝ) : ℂ) := by
      simp only [Np.sumC, cArr, Option.isSome_some, implies_true, if_true, Option.getD_some, Option.some.injEq] at hz
      rw [← hz]; push_cast; rfl
    rw [this, ← Complex.ofReal_one, ← Complex.ofReal_sub, Complex.norm_real, Real.norm_eq_abs] at hlt
    exact absurd hlt (not_lt.2 hκ)
  rw [convolvend_plain cfg o e he hcrop hret c hc (toC x) (rArr κ) _ false hk (by simp)]
  congr 2
  funext i
  rw [nan0C_toC, conv_real, Complex.ofReal_re]

/-! ## C80: the caller's arrays -/

/-- C80: after a call that returns, the array is as it was, NaNs included, and so is the kernel unless it was
normalised; a complex kernel that is normalised comes back with its NaNs replaced by 0; a call that raises leaves 0 in
place of the NaNs of complex arrays.  Arrays of any other dtype are never touched. -/
theorem C80_caller_arrays (cfg : FFTConfig) (ac kc : Bool) (o : ConvArgs (Idx t)) (array : Idx s → CPix)
    (kernel : Idx t → CPix) :
    let after := convolvendAfter cfg ac kc o array kernel
    (ac = false → after.1 = array) ∧ (kc = false → after.2 = kernel) ∧
    (∀ out, convolvend cfg o array kernel = .ok out →
      after.1 = array ∧ (o.normalizeKernel = .falsy → after.2 = kernel) ∧
      (kc = true → o.normalizeKernel ≠ .falsy → ∀ q, after.2 q = some ((kernel q).getD 0))) ∧
    (∀ er, convolvend cfg o array kernel = .error er →
      (ac = true → ∀ i, after.1 i = some ((array i).getD 0)) ∧ (kc = true → ∀ q, after.2 q = some ((kernel q).getD 0))) := by
  intro after
  have restore : ∀ {ι : Type} (a : ι → CPix), (fun i => if (a i).isNone then Option.none else Np.nanToNum a i) = a := by
    intro ι a
    funext i
    cases h : a i <;> simp [Np.nanToNum, h]
  refine ⟨?_, ?_, ?_, ?_⟩
  · intro h; simp only [after, convolvendAfter, h]; rfl
  · intro h; simp only [after, convolvendAfter, h]; rfl
  · intro out hout
    simp only [after, convolvendAfter, hout]
    refine ⟨?_, ?_, ?_⟩
    · cases ac
      · rfl
      · exact restore array
    · intro hn
      cases kc
      · rfl
      · simp only [hn, if_true]; exact restore kernel
    · intro hkc hn q
      rw [hkc]
      simp only [if_true]
      cases h : o.normalizeKernel with
      | falsy => exact absurd h hn
      | _ => rfl
  · intro er her
    simp only [after, convolvendAfter, her]
    exact ⟨fun h i => by rw [h]; rfl, fun h q => by rw [h]; rfl⟩

/-! ## C81: `return_fft` -/

/-- C81: the array returned with `return_fft=True, fftshift=False` is the spectrum of the uncropped convolution: its
inverse FFT is what `crop=False` returns (no NaN weighting); `fftshift=True, crop=False` returns the same
spectrum with the zero frequency moved to pixel `n//2`. -/
theorem C81_return_fft (cfg : FFTConfig) (o : ConvArgs (Idx t)) (array : Idx s → CPix) (kernel : Idx t → CPix)
    (out : ConvOut D) (h : convolvend cfg { o with returnFft := true, fftshift := false } array kernel = .ok out) :
    ∃ (N : Fin D → ℕ) (_ : ∀ d, NeZero (N d)) (F : Idx N → CPix), out = .cplx N F ∧
      convolvend cfg { o with returnFft := true, fftshift := true, crop := false } array kernel
        = .ok (.cplx N fun i => F fun d => i d - Fin.ofNat (N d) (N d / 2)) ∧
      convolvend cfg { o with returnFft := false, crop := false, interpolateNan := false, ignoreEdgeZeros := false } array kernel
        = .ok (.real N fun i => (Np.ifftn F i).map Complex.re) := by
  unfold convolvend at h ⊢
  simp only at h ⊢
  cases hk : convNormalize o.normalizeKernel (Np.nanToNum kernel) with
  | error e => simp [hk, bind, Except.bind] at h
  | ok r =>
    obtain ⟨k1, nrm⟩ := r
    simp only [hk, bind, Except.bind] at h ⊢
    cases hp : convPads o.boundary o.psfPad o.fftPad with
    | none => simp [hp] at h
    | some pf =>
      obtain ⟨p, f⟩ := pf
      simp only [hp] at h ⊢
      have hsa := slicesFit (convNewShape s t p f) s fun d => (newShape_ge s t p f d).1
      have hsk := slicesFit (convNewShape s t p f) t fun d => (newShape_ge s t p f d).2
      rw [dif_pos ⟨hsa, hsk⟩] at h
      rw [dif_pos ⟨hsa, hsk⟩, dif_pos ⟨hsa, hsk⟩]
      by_cases hnan : Np.anyNaN (Np.mul
          ((convFfts cfg).1 (Np.putSlices (fun d => convSlice (convNewShape s t p f d) (s d)) hsa
            (fun _ => convFill o.boundary o.fillValue) (Np.nanToNum array)))
          ((convFfts cfg).1 (Np.ifftshiftN (Np.putSlices (fun d => convSlice (convNewShape s t p f d) (t d)) hsk
            (fun _ => some 0) k1))))
      · rw [if_pos hnan] at h
        simp at h
      · rw [if_neg hnan] at h
        rw [if_neg hnan, if_neg hnan]
        simp only [if_true, Bool.false_eq_true, if_false] at h ⊢
        obtain rfl := Except.ok.inj h
        refine ⟨_, inferInstance, _, rfl, rfl, ?_⟩
        simp only [Bool.or_false, Bool.false_and, Bool.false_eq_true, if_false, convFfts_eq]
        rfl

/-! ## A concrete case -/

/-- The docstring example `convolvend([1,0,3],[1,1,1]) = [1,4,3]`. -/
example (cfg : FFTConfig) : ∃ out : Idx (fun _ : Fin 1 => 3) → Pix,
    convolvend (s := fun _ : Fin 1 => 3) (t := fun _ : Fin 1 => 3) cfg {}
      (toC fun i => some (![1, 0, 3] (i 0))) (toC fun _ => some 1) = .ok (.real _ out) ∧
    out (fun _ => 0) = some 1 ∧ out (fun _ => 1) = some 4 ∧ out (fun _ => 2) = some 3 := by
  refine ⟨_, C61_fill cfg {} ⟨rfl, rfl, rfl, rfl, rfl⟩ (Or.inl rfl) 0 (by simp) _ _, ?_, ?_, ?_⟩
  all_goals
    congr 1
    rw [← Equiv.sum_comp (Equiv.funUnique (Fin 1) (Fin 3)).symm, Fin.sum_univ_three]
    simp [Spec.extend, Spec.nan0]
    try norm_num

end ImgReg
