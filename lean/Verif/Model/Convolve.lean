import Verif.Model.FastFFTs
import Mathlib.Data.Nat.Log
import Mathlib.Data.Fintype.Pi
import Mathlib.Data.Finset.Lattice.Fold

/-!
# Model of `image_registration/fft_tools/convolve_nd.py`

`array` and `kernel` are arrays of shapes `s` and `t` with at least one dimension and no empty axis; they are
complex (`np.asarray(…, dtype=complex)`, convolve_nd.py:148-149), `none` being a NaN in either part.
`np.asarray` drops the mask of a masked array, so lines 165-172 are dead code: the model takes the data.
Warnings are left out.
-/

open Finset

namespace ImgReg

/-- index tuples of an array of shape `s` -/
abbrev Idx {D : ℕ} (s : Fin D → ℕ) : Type := ∀ d, Fin (s d)

/-- `boundary`: `None`, one of the three strings, or anything else -/
inductive Boundary where
  | none | fill | wrap | extend | other
  deriving DecidableEq

/-- `normalize_kernel`: something false, `True`, a function, or something true that cannot be called -/
inductive CNorm (κ : Type) where
  | falsy
  | isTrue
  | fn (f : (κ → CPix) → CPix)
  | notCallable

/-- the keyword arguments of `convolvend` (convolve_nd.py:38-42), except `quiet` -/
structure ConvArgs (κ : Type) where
  boundary : Boundary := .fill
  fillValue : CPix := some 0
  crop : Bool := true
  returnFft : Bool := false
  fftshift : Bool := true
  fftPad : Bool := true
  psfPad : Bool := false
  interpolateNan : Bool := false
  ignoreEdgeZeros : Bool := false
  minWt : ℝ := 0
  normalizeKernel : CNorm κ := .falsy

/-- what `convolvend` returns: a real or a complex array with its shape -/
inductive ConvOut (D : ℕ) where
  | real (shape : Fin D → ℕ) (a : Idx shape → Pix)
  | cplx (shape : Fin D → ℕ) (a : Idx shape → CPix)

/-- The FFTs used by `convolvend` (convolve_nd.py:6-28 and 174-184): `fftwn`/`ifftwn` are the same functions as in
fast_ffts.py. -/
noncomputable def convFfts {ι : Type} [AddCommGroup ι] [Fintype ι] [DecidableEq ι] [FFTIndex ι] (cfg : FFTConfig) :
    ((ι → CPix) → ι → CPix) × ((ι → CPix) → ι → CPix) :=
  if cfg.hasFftw && !cfg.useNumpyFft then (fftwn cfg.nthreads, ifftwn cfg.nthreads)
  else if cfg.useNumpyFft then (Np.fftn, Np.ifftn)
  else (Np.fftn, Np.ifftn)

/-- `kernel.sum()` -/
noncomputable def Np.sumC {κ : Type} [Fintype κ] (k : κ → CPix) : CPix :=
  open Classical in if ∀ q, (k q).isSome then some (∑ q, (k q).getD 0) else Option.none

/-- `k / z`: a complex number over 0 has a NaN part -/
noncomputable def Np.divC {κ : Type} (k : κ → CPix) (z : CPix) : κ → CPix := fun q =>
  match k q, z with
  | some x, some y => if y = 0 then Option.none else some (x / y)
  | _, _ => Option.none

/-- Normalisation of the kernel and `kernel_is_normalized` (convolve_nd.py:197-209), after the NaNs have been
replaced by 0. -/
noncomputable def convNormalize {κ : Type} [Fintype κ] (nk : CNorm κ) (k : κ → CPix) : Py ((κ → CPix) × Bool) :=
  open Classical in
  match nk with
  | .isTrue => .ok (Np.divC k (Np.sumC k), true)
  | .fn f => .ok (Np.divC k (f k), true)
  | .notCallable => .error .typeError
  | .falsy => .ok (k, decide (∃ z, Np.sumC k = some z ∧ ‖z - 1‖ < 1e-8))

/-- `psf_pad` and `fft_pad` after the boundary handling (convolve_nd.py:212-227); `none` for `'extend'`, which
raises NotImplementedError -/
def convPads (b : Boundary) (psfPad fftPad : Bool) : Option (Bool × Bool) :=
  match b with
  | .none => some (true, fftPad)
  | .fill => some (true, fftPad)
  | .wrap => some (false, false)
  | .extend => Option.none
  | .other => some (psfPad, fftPad)

/-- `fill_value` after the boundary handling (convolve_nd.py:224) -/
noncomputable def convFill (b : Boundary) (fillValue : CPix) : CPix :=
  match b with
  | .wrap => some 0
  | _ => fillValue

/-- `newshape` (convolve_nd.py:237-253).  `2**np.ceil(np.log2(m))` is taken to be exact. -/
def convNewShape {D : ℕ} (s t : Fin D → ℕ) (psfPad fftPad : Bool) : Fin D → ℕ :=
  if fftPad then
    if psfPad then fun _ => 2 ^ Nat.clog 2 (Finset.univ.sup fun d => s d + t d)
    else fun _ => 2 ^ Nat.clog 2 (Finset.univ.sup fun d => max (s d) (t d))
  else
    if psfPad then fun d => s d + t d
    else fun d => max (s d) (t d)

instance {D : ℕ} (s t : Fin D → ℕ) [∀ d, NeZero (s d)] (p f : Bool) (d : Fin D) : NeZero (convNewShape s t p f d) :=
  ⟨by
    have := NeZero.ne (s d)
    unfold convNewShape
    cases p <;> cases f <;> simp <;> omega⟩

/-- `slice(center - size//2, center + (size+1)//2)` (convolve_nd.py:260-265) -/
def convSlice (n a : ℕ) : ℤ × ℤ :=
  let center : ℤ := n - (n + 1) / 2
  (center - a / 2, center + (a + 1) / 2)

/-- The slices lie inside an array of shape `n` and select a block of shape `a`.  (They always do; numpy would
raise ValueError at the assignment otherwise.) -/
def Np.SlicesFit {D : ℕ} (n a : Fin D → ℕ) (sl : Fin D → ℤ × ℤ) : Prop :=
  ∀ d, 0 ≤ (sl d).1 ∧ (sl d).2 ≤ n d ∧ (sl d).2 - (sl d).1 = a d

/-- `big[slices] = a` -/
def Np.putSlices {D : ℕ} {α : Type} {n a : Fin D → ℕ} (sl : Fin D → ℤ × ℤ) (hsl : Np.SlicesFit n a sl)
    (big : Idx n → α) (x : Idx a → α) : Idx n → α := fun i =>
  if h : ∀ d, (sl d).1 ≤ (i d : ℕ) ∧ ((i d : ℕ) : ℤ) < (sl d).2 then
    x fun d => ⟨(((i d : ℕ) : ℤ) - (sl d).1).toNat, by have := h d; have := hsl d; omega⟩
  else big i

/-- `big[slices]` -/
def Np.getSlices {D : ℕ} {α : Type} {n a : Fin D → ℕ} (sl : Fin D → ℤ × ℤ) (hsl : Np.SlicesFit n a sl)
    (big : Idx n → α) : Idx a → α := fun i =>
  big fun d => ⟨((sl d).1 + ((i d : ℕ) : ℤ)).toNat, by have := hsl d; have := (i d).isLt; omega⟩

/-- `np.fft.ifftshift` of an N-D array -/
def Np.ifftshiftN {D : ℕ} {α : Type} {n : Fin D → ℕ} [∀ d, NeZero (n d)] (x : Idx n → α) : Idx n → α :=
  fun i => x fun d => Np.ifftshiftIdx (i d)

/-- `np.fft.fftshift` of an N-D array -/
def Np.fftshiftN {D : ℕ} {α : Type} {n : Fin D → ℕ} [∀ d, NeZero (n d)] (x : Idx n → α) : Idx n → α :=
  fun i => x fun d => Np.fftshiftIdx (i d)

section
variable {D : ℕ} {s t : Fin D → ℕ} [∀ d, NeZero (s d)]

/-- The smoothed weights `bigimwt` (convolve_nd.py:276-291) -/
noncomputable def convWeights (cfg : FFTConfig) {n : Fin D → ℕ} [∀ d, NeZero (n d)] (sa : Fin D → ℤ × ℤ)
    (hsa : Np.SlicesFit n s sa) (interpolateNan ignoreEdgeZeros : Bool) (array : Idx s → CPix)
    (kernfft : Idx n → CPix) (ksum : CPix) : Idx n → Pix :=
  let base : Pix := if ignoreEdgeZeros then some 0 else some 1
  let mask : Idx s → ℝ := fun i => if (array i).isNone && interpolateNan then 1 else 0
  let bigimwt : Idx n → Pix := Np.putSlices sa hsa (fun _ => base) fun i => some (1 - mask i)
  let wtfft := (convFfts cfg).1 (toC bigimwt)
  let wtfftmult := Np.divC (Np.mul wtfft kernfft) ksum
  let wtsm := (convFfts cfg).2 wtfftmult
  let bigimwt := Np.putSlices sa hsa bigimwt (Np.getSlices sa hsa (Np.real wtsm))
  fun i => match bigimwt i with
    | some w => if w < 0 then some 0 else some w
    | Option.none => Option.none

/-- `rifft` in the weighted case (convolve_nd.py:316-320): `x/0` is never finite -/
noncomputable def convDivide {ι : Type} (num : ι → CPix) (wt : ι → Pix) (minWt : ℝ) : ι → CPix := fun i =>
  match num i, wt i with
  | some x, some w =>
    if minWt = 0 ∧ w = 0 then some 0
    else if w < minWt then Option.none
    else if w = 0 then Option.none
    else some (x / (w : ℂ))
  | _, _ => Option.none

open Classical in
/-- `convolvend(array, kernel, …)` (convolve_nd.py:38-328) for arrays with the same number of dimensions: the
returned value.  (What happens to the caller's arrays is `convolvendAfter`.) -/
noncomputable def convolvend (cfg : FFTConfig) (o : ConvArgs (Idx t)) (array : Idx s → CPix) (kernel : Idx t → CPix) :
    Py (ConvOut D) := do
  let array0 := Np.nanToNum array
  let kernel0 := Np.nanToNum kernel
  let (kernel1, normalized) ← convNormalize o.normalizeKernel kernel0
  match convPads o.boundary o.psfPad o.fftPad with
  | Option.none => .error .notImplementedError
  | some (psfPad, fftPad) =>
    let n := convNewShape s t psfPad fftPad
    let sa := fun d => convSlice (n d) (s d)
    let sk := fun d => convSlice (n d) (t d)
    if h : Np.SlicesFit n s sa ∧ Np.SlicesFit n t sk then
      let bigarray := Np.putSlices sa h.1 (fun _ => convFill o.boundary o.fillValue) array0
      let bigkernel := Np.putSlices sk h.2 (fun _ => some 0) kernel1
      let arrayfft := (convFfts cfg).1 bigarray
      let kernfft := (convFfts cfg).1 (Np.ifftshiftN bigkernel)
      let fftmult := Np.mul arrayfft kernfft
      if Np.anyNaN fftmult then .error .valueError
      else if o.returnFft then
        if o.fftshift then
          if o.crop then .ok (.cplx s (Np.getSlices sa h.1 (Np.fftshiftN fftmult)))
          else .ok (.cplx n (Np.fftshiftN fftmult))
        else .ok (.cplx n fftmult)
      else
        let rifft :=
          if (o.interpolateNan || o.ignoreEdgeZeros) && normalized then
            convDivide ((convFfts cfg).2 fftmult)
              (convWeights cfg sa h.1 o.interpolateNan o.ignoreEdgeZeros array kernfft (Np.sumC kernel1)) o.minWt
          else (convFfts cfg).2 fftmult
        if o.crop then .ok (.real s (Np.real (Np.getSlices sa h.1 rifft)))
        else .ok (.real n (Np.real rifft))
    else .error .valueError

/-- `convolvend` for arrays of any dimensions (convolve_nd.py:152-154) -/
noncomputable def convolvendAny (cfg : FFTConfig) {D D' : ℕ} {s : Fin D → ℕ} {t : Fin D' → ℕ} [∀ d, NeZero (s d)]
    (o : ConvArgs (Idx t)) (array : Idx s → CPix) (kernel : Idx t → CPix) : Py (ConvOut D') :=
  if h : D = D' then by subst h; exact convolvend cfg o array kernel
  else .error .exception

/-- The caller's arrays after the call, for two distinct arrays.  `np.asarray` copies unless the dtype is already
complex; otherwise NaNs are zeroed in place (convolve_nd.py:188-191) and, when the code gets that far, restored
(convolve_nd.py:303-304) — in the array, and in whatever `kernel` names by then: a new array if the kernel was
normalised (lines 198 and 203). -/
noncomputable def convolvendAfter (cfg : FFTConfig) (arrayIsComplex kernelIsComplex : Bool) (o : ConvArgs (Idx t))
    (array : Idx s → CPix) (kernel : Idx t → CPix) : (Idx s → CPix) × (Idx t → CPix) :=
  let zeroed : (Idx s → CPix) × (Idx t → CPix) := (Np.nanToNum array, Np.nanToNum kernel)
  let final : (Idx s → CPix) × (Idx t → CPix) :=
    match convolvend cfg o array kernel with
    | .error _ => zeroed
    | .ok _ =>
      (fun i => if (array i).isNone then Option.none else zeroed.1 i,
       match o.normalizeKernel with
       | .falsy => fun q => if (kernel q).isNone then Option.none else zeroed.2 q
       | _ => zeroed.2)
  (if arrayIsComplex then final.1 else array, if kernelIsComplex then final.2 else kernel)

end

end ImgReg
