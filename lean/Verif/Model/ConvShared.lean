import Verif.Model.Convolve

/-!
# Model of `convolvend` as a program over shared state

`convolve_nd.py` keeps the FFT functions in the module globals `fftn`, `ifftn`, which every call of `convolvend` rebinds
(convolve_nd.py:24-26, 174-184) and looks up each time it transforms, and it works in place on complex arrays of the caller. Here the
calls are programs whose steps are the accesses to this shared state; a schedule decides which call takes the next step, so calls in
several threads (or a call made inside the `normalize_kernel` callback of another one) are covered. A step is one lookup or rebinding of a
global, or one read or masked assignment of an array object; everything between is private to the call. All arrays of one run have the
same number `D` of dimensions (a mismatch raises before any shared state is touched, convolve_nd.py:152-154); object `r` has shape `sh r`.
-/

open Finset

namespace ImgReg

/-- what a name `fftn`/`ifftn` is bound to: the closure over `nthreads` (convolve_nd.py:177-181) or numpy's function -/
inductive Backend where
  | fftw (nthreads : ℕ)
  | numpy

/-- calling `fftn` (convolve_nd.py:9-15, 177-178, 183) -/
noncomputable def Backend.fft {ι : Type} [AddCommGroup ι] [Fintype ι] [DecidableEq ι] [FFTIndex ι] :
    Backend → (ι → CPix) → ι → CPix
  | .fftw n => fftwn n
  | .numpy => Np.fftn

/-- calling `ifftn` (convolve_nd.py:17-23, 180-181, 184) -/
noncomputable def Backend.ifft {ι : Type} [AddCommGroup ι] [Fintype ι] [DecidableEq ι] [FFTIndex ι] :
    Backend → (ι → CPix) → ι → CPix
  | .fftw n => ifftwn n
  | .numpy => Np.ifftn

/-- The shared state: the two module globals (`none` = not defined) and the caller's array objects. -/
structure Shared {D : ℕ} (sh : ℕ → Fin D → ℕ) where
  fftn : Option Backend
  ifftn : Option Backend
  mem : ∀ r, Idx (sh r) → CPix

/-- The module just after its import: without `fftw3` the names are numpy's functions, with it they are not defined
(convolve_nd.py:6-26). -/
def Shared.initial {D : ℕ} {sh : ℕ → Fin D → ℕ} (hasFftw : Bool) (mem : ∀ r, Idx (sh r) → CPix) : Shared sh :=
  if hasFftw then ⟨none, none, mem⟩ else ⟨some .numpy, some .numpy, mem⟩

/-- A call: its remaining accesses to the shared state. -/
inductive Prog {D : ℕ} (sh : ℕ → Fin D → ℕ) (α : Type) : Type where
  | done (x : Py α)
  | setFft (b : Backend) (k : Prog sh α)
  | setIfft (b : Backend) (k : Prog sh α)
  | getFft (k : Backend → Prog sh α)
  | getIfft (k : Backend → Prog sh α)
  | read (r : ℕ) (k : (Idx (sh r) → CPix) → Prog sh α)
  | fill (r : ℕ) (mask : Idx (sh r) → Bool) (v : CPix) (k : Prog sh α)

section
variable {D : ℕ} {sh : ℕ → Fin D → ℕ}

/-- sequencing; an exception ends the call -/
def Prog.bind {α β : Type} : Prog sh α → (α → Prog sh β) → Prog sh β
  | .done (.ok a), f => f a
  | .done (.error e), _ => .done (.error e)
  | .setFft b k, f => .setFft b (k.bind f)
  | .setIfft b k, f => .setIfft b (k.bind f)
  | .getFft k, f => .getFft fun b => (k b).bind f
  | .getIfft k, f => .getIfft fun b => (k b).bind f
  | .read r k, f => .read r fun v => (k v).bind f
  | .fill r m v k, f => .fill r m v (k.bind f)

instance : Monad (Prog sh) where
  pure a := .done (.ok a)
  bind := Prog.bind

/-- an exception -/
def Prog.raise {α : Type} (e : PyErr) : Prog sh α := .done (.error e)

/-- `a[mask] = v` -/
def fillMask {ι : Type} (mask : ι → Bool) (v : CPix) (a : ι → CPix) : ι → CPix := fun i => if mask i then v else a i

/-- One step of a call. A name that is not defined raises NameError. -/
def Prog.step {α : Type} (g : Shared sh) : Prog sh α → Shared sh × Prog sh α
  | .done x => (g, .done x)
  | .setFft b k => ({ g with fftn := some b }, k)
  | .setIfft b k => ({ g with ifftn := some b }, k)
  | .getFft k => match g.fftn with
    | some b => (g, k b)
    | none => (g, .done (.error .nameError))
  | .getIfft k => match g.ifftn with
    | some b => (g, k b)
    | none => (g, .done (.error .nameError))
  | .read r k => (g, k (g.mem r))
  | .fill r mask v k => ({ g with mem := Function.update g.mem r (fillMask mask v (g.mem r)) }, k)

/-- A run of several calls: the schedule says whose turn it is. -/
def runSchedule {ι α : Type} [DecidableEq ι] : List ι → Shared sh × (ι → Prog sh α) → Shared sh × (ι → Prog sh α)
  | [], c => c
  | i :: rest, c => runSchedule rest (((c.2 i).step c.1).1, Function.update c.2 i ((c.2 i).step c.1).2)

/-- A call that runs to its end without interruption. -/
def Prog.run {α : Type} (g : Shared sh) : Prog sh α → Py α × Shared sh
  | .done x => (x, g)
  | .setFft b k => k.run { g with fftn := some b }
  | .setIfft b k => k.run { g with ifftn := some b }
  | .getFft k => match g.fftn with
    | some b => (k b).run g
    | none => (.error .nameError, g)
  | .getIfft k => match g.ifftn with
    | some b => (k b).run g
    | none => (.error .nameError, g)
  | .read r k => (k (g.mem r)).run g
  | .fill r mask v k => k.run { g with mem := Function.update g.mem r (fillMask mask v (g.mem r)) }

/-- The object a local name (`array`, `kernel`) refers to: the caller's object `r` (`none`) or a private array. -/
abbrev LocalArr {D : ℕ} (sh : ℕ → Fin D → ℕ) (r : ℕ) := Option (Idx (sh r) → CPix)

/-- `np.asarray(a, dtype=complex)` (convolve_nd.py:148-149): the object itself if it is complex, a private copy otherwise -/
def asarrayP (isComplex : Bool) (r : ℕ) : Prog sh (LocalArr sh r) :=
  if isComplex then pure none else .read r fun v => pure (some v)

/-- the values of a local name -/
def LocalArr.get {r : ℕ} (x : LocalArr sh r) : Prog sh (Idx (sh r) → CPix) :=
  match x with
  | some v => pure v
  | none => .read r fun v => pure v

/-- `x[mask] = v` -/
def LocalArr.fill {r : ℕ} (x : LocalArr sh r) (mask : Idx (sh r) → Bool) (v : CPix) : Prog sh (LocalArr sh r) :=
  match x with
  | some w => pure (some (fillMask mask v w))
  | none => .fill r mask v (pure none)

/-- rebinding the globals (convolve_nd.py:175-184) -/
def bindFftsP (cfg : FFTConfig) : Prog sh Unit :=
  if cfg.hasFftw && !cfg.useNumpyFft then .setFft (.fftw cfg.nthreads) (.setIfft (.fftw cfg.nthreads) (pure ()))
  else if cfg.useNumpyFft then .setFft .numpy (.setIfft .numpy (pure ()))
  else pure ()

/-- `fftn`, looked up -/
def getFftP : Prog sh Backend := .getFft fun b => pure b

/-- `ifftn`, looked up -/
def getIfftP : Prog sh Backend := .getIfft fun b => pure b

/-- `mask = (x != x); x[mask] = 0` (convolve_nd.py:188-191) -/
def zeroNansP {r : ℕ} (x : LocalArr sh r) : Prog sh (LocalArr sh r × (Idx (sh r) → Bool)) := do
  let v ← x.get
  let mask := fun i => (v i).isNone
  let x ← x.fill mask (some 0)
  pure (x, mask)

/-- normalisation of the kernel (convolve_nd.py:197-209): the sum and the quotient read the kernel one after the other -/
noncomputable def normalizeP {r : ℕ} (nk : CNorm (Idx (sh r))) (x : LocalArr sh r) : Prog sh (LocalArr sh r × Bool) :=
  open Classical in
  match nk with
  | .isTrue => do
    let v ← x.get
    let w ← x.get
    pure (some (Np.divC w (Np.sumC v)), true)
  | .fn f => do
    let v ← x.get
    let w ← x.get
    pure (some (Np.divC w (f v)), true)
  | .notCallable => .raise .typeError
  | .falsy => do
    let v ← x.get
    pure (x, decide (∃ z, Np.sumC v = some z ∧ ‖z - 1‖ < 1e-8))

/-- the weights `bigimwt` (convolve_nd.py:276-291); `mask` is `nanmaskarray` -/
noncomputable def weightsP {s n : Fin D → ℕ} [∀ d, NeZero (n d)] (sa : Fin D → ℤ × ℤ) (hsa : Np.SlicesFit n s sa)
    (interpolateNan ignoreEdgeZeros : Bool) (mask : Idx s → Bool) (kernfft : Idx n → CPix) {r : ℕ} (kernel : LocalArr sh r) :
    Prog sh (Idx n → Pix) := do
  let base : Pix := if ignoreEdgeZeros then some 0 else some 1
  let m : Idx s → ℝ := fun i => if mask i && interpolateNan then 1 else 0
  let bigimwt : Idx n → Pix := Np.putSlices sa hsa (fun _ => base) fun i => some (1 - m i)
  let f ← getFftP
  let wtfft := f.fft (toC bigimwt)
  let kv ← kernel.get
  let wtfftmult := Np.divC (Np.mul wtfft kernfft) (Np.sumC kv)
  let g ← getIfftP
  let wtsm := g.ifft wtfftmult
  let bigimwt := Np.putSlices sa hsa bigimwt (Np.getSlices sa hsa (Np.real wtsm))
  pure fun i => match bigimwt i with
    | some w => if w < 0 then some 0 else some w
    | Option.none => Option.none

/-- the rest of `convolvend` once the padded shape `n` is known (convolve_nd.py:256-328) -/
noncomputable def convTailP {a k : ℕ} (o : ConvArgs (Idx (sh k))) {n : Fin D → ℕ} [∀ d, NeZero (n d)] (sa sk : Fin D → ℤ × ℤ)
    (hsa : Np.SlicesFit n (sh a) sa) (hsk : Np.SlicesFit n (sh k) sk) (array : LocalArr sh a) (maskA : Idx (sh a) → Bool)
    (kernel : LocalArr sh k) (maskK : Idx (sh k) → Bool) (normalized : Bool) : Prog sh (ConvOut D) :=
  open Classical in do
  let av ← array.get
  let bigarray := Np.putSlices sa hsa (fun _ => convFill o.boundary o.fillValue) av
  let kv ← kernel.get
  let bigkernel := Np.putSlices sk hsk (fun _ => some 0) kv
  let f ← getFftP
  let arrayfft := f.fft bigarray
  let f' ← getFftP
  let kernfft := f'.fft (Np.ifftshiftN bigkernel)
  let fftmult := Np.mul arrayfft kernfft
  let bigimwt ← (if (o.interpolateNan || o.ignoreEdgeZeros) && normalized then
      some <$> weightsP sa hsa o.interpolateNan o.ignoreEdgeZeros maskA kernfft kernel
    else pure none : Prog sh (Option (Idx n → Pix)))
  if Np.anyNaN fftmult then .raise .valueError
  else do
    let _ ← array.fill maskA none
    let _ ← kernel.fill maskK none
    if o.returnFft then
      pure (if o.fftshift then
          if o.crop then .cplx (sh a) (Np.getSlices sa hsa (Np.fftshiftN fftmult)) else .cplx n (Np.fftshiftN fftmult)
        else .cplx n fftmult)
    else do
      let g ← getIfftP
      let rifft := match bigimwt with
        | some wt => convDivide (g.ifft fftmult) wt o.minWt
        | none => g.ifft fftmult
      pure (if o.crop then .real (sh a) (Np.real (Np.getSlices sa hsa rifft)) else .real n (Np.real rifft))

variable [∀ r d, NeZero (sh r d)]

open Classical in
/-- `convolvend(array, kernel, …)` (convolve_nd.py:38-328) as a program: `array` is object `a`, `kernel` object `k` (possibly the same),
`isComplex` tells which objects have complex dtype. -/
noncomputable def convolvendP (isComplex : ℕ → Bool) (cfg : FFTConfig) (a k : ℕ) (o : ConvArgs (Idx (sh k))) : Prog sh (ConvOut D) := do
  let array ← asarrayP (isComplex a) a
  let kernel ← asarrayP (isComplex k) k
  bindFftsP cfg
  let (array, maskA) ← zeroNansP array
  let (kernel, maskK) ← zeroNansP kernel
  let (kernel, normalized) ← normalizeP o.normalizeKernel kernel
  match convPads o.boundary o.psfPad o.fftPad with
  | none => .raise .notImplementedError
  | some (psfPad, fftPad) =>
    let n := convNewShape (sh a) (sh k) psfPad fftPad
    if h : Np.SlicesFit n (sh a) (fun d => convSlice (n d) (sh a d)) ∧ Np.SlicesFit n (sh k) (fun d => convSlice (n d) (sh k d)) then
      convTailP o _ _ h.1 h.2 array maskA kernel maskK normalized
    else .raise .valueError

end

end ImgReg
