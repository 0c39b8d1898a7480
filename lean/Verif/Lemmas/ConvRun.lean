import Verif.Lemmas.ConvSafe

/-!
# `convolvend` as a program: one uninterrupted call
-/

open Finset

namespace ImgReg

section
variable {D : ℕ} {sh : ℕ → Fin D → ℕ}

theorem prog_run_getFft {α : Type} {k : Backend → Prog sh α} {g : Shared sh} {b : Backend} (h : g.fftn = some b) :
    (Prog.getFft k).run g = (k b).run g := by rw [Prog.run, h]

theorem prog_run_getFft_none {α : Type} {k : Backend → Prog sh α} {g : Shared sh} (h : g.fftn = none) :
    (Prog.getFft k).run g = (.error .nameError, g) := by rw [Prog.run, h]

theorem prog_run_getIfft {α : Type} {k : Backend → Prog sh α} {g : Shared sh} {b : Backend} (h : g.ifftn = some b) :
    (Prog.getIfft k).run g = (k b).run g := by rw [Prog.run, h]

theorem prog_run_getIfft_none {α : Type} {k : Backend → Prog sh α} {g : Shared sh} (h : g.ifftn = none) :
    (Prog.getIfft k).run g = (.error .nameError, g) := by rw [Prog.run, h]

theorem prog_run_bind {α β : Type} (p : Prog sh α) (f : α → Prog sh β) : ∀ g : Shared sh,
    (p >>= f).run g = match p.run g with
      | (.ok a, g') => (f a).run g'
      | (.error e, g') => (.error e, g') := by
  show ∀ g : Shared sh, (p.bind f).run g = _
  induction p with
  | done x => intro g; cases x <;> rfl
  | setFft b k ih => intro g; exact ih _
  | setIfft b k ih => intro g; exact ih _
  | getFft k ih =>
    intro g
    show (Prog.getFft fun b => (k b).bind f).run g = _
    cases h : g.fftn with
    | none => rw [prog_run_getFft_none h, prog_run_getFft_none h]
    | some b => rw [prog_run_getFft h, prog_run_getFft h]; exact ih b g
  | getIfft k ih =>
    intro g
    show (Prog.getIfft fun b => (k b).bind f).run g = _
    cases h : g.ifftn with
    | none => rw [prog_run_getIfft_none h, prog_run_getIfft_none h]
    | some b => rw [prog_run_getIfft h, prog_run_getIfft h]; exact ih b g
  | read r k ih => intro g; exact ih _ g
  | fill r m v k ih => intro g; exact ih _

theorem prog_run_bind_ok {α β : Type} {p : Prog sh α} {f : α → Prog sh β} {g g' : Shared sh} {a : α} (h : p.run g = (.ok a, g')) :
    (p >>= f).run g = (f a).run g' := by rw [prog_run_bind, h]

theorem prog_run_bind_error {α β : Type} {p : Prog sh α} {f : α → Prog sh β} {g g' : Shared sh} {e : PyErr}
    (h : p.run g = (.error e, g')) : (p >>= f).run g = (.error e, g') := by rw [prog_run_bind, h]

/-- the values of a local name -/
def valOf (m : ∀ r, Idx (sh r) → CPix) {r : ℕ} (x : LocalArr sh r) : Idx (sh r) → CPix := x.getD (m r)

/-- the memory after `x[mask] = v` -/
def memFill (m : ∀ r, Idx (sh r) → CPix) {r : ℕ} (x : LocalArr sh r) (mask : Idx (sh r) → Bool) (v : CPix) : ∀ r, Idx (sh r) → CPix :=
  match x with
  | some _ => m
  | none => Function.update m r (fillMask mask v (m r))

theorem run_asarrayP (b : Bool) (r : ℕ) (g : Shared sh) :
    (asarrayP b r : Prog sh (LocalArr sh r)).run g = (.ok (if b then none else some (g.mem r)), g) := by cases b <;> rfl

theorem run_getP {r : ℕ} (x : LocalArr sh r) (g : Shared sh) : x.get.run g = (.ok (valOf g.mem x), g) := by cases x <;> rfl

theorem run_fillP {r : ℕ} (x : LocalArr sh r) (mask : Idx (sh r) → Bool) (v : CPix) (g : Shared sh) :
    (x.fill mask v).run g = (.ok (x.map (fillMask mask v)), { g with mem := memFill g.mem x mask v }) := by cases x <;> rfl

theorem run_zeroNansP {r : ℕ} (x : LocalArr sh r) (g : Shared sh) :
    (zeroNansP x).run g = (.ok (x.map (fillMask (fun i => (valOf g.mem x i).isNone) (some 0)), fun i => (valOf g.mem x i).isNone),
      { g with mem := memFill g.mem x (fun i => (valOf g.mem x i).isNone) (some 0) }) := by
  unfold zeroNansP
  rw [prog_run_bind_ok (run_getP x g), prog_run_bind_ok (run_fillP x _ _ g)]
  rfl

theorem run_normalizeP {r : ℕ} (nk : CNorm (Idx (sh r))) (x : LocalArr sh r) (g : Shared sh) :
    (∀ e, convNormalize nk (valOf g.mem x) = .error e → (normalizeP nk x).run g = (.error e, g)) ∧
    ∀ kn, convNormalize nk (valOf g.mem x) = .ok kn → ∃ x' : LocalArr sh r, (normalizeP nk x).run g = (.ok (x', kn.2), g) ∧
      valOf g.mem x' = kn.1 ∧ ((nk = .falsy ∧ x' = x) ∨ (nk ≠ .falsy ∧ x'.isSome)) := by
  cases nk with
  | isTrue =>
    refine ⟨fun e he => by simp [convNormalize] at he, fun kn hk => ?_⟩
    simp only [convNormalize, Except.ok.injEq] at hk
    subst hk
    refine ⟨some (Np.divC (valOf g.mem x) (Np.sumC (valOf g.mem x))), ?_, rfl, .inr ⟨(by intro h; cases h), rfl⟩⟩
    unfold normalizeP
    dsimp only
    rw [prog_run_bind_ok (run_getP x g), prog_run_bind_ok (run_getP x g)]
    rfl
  | fn f =>
    refine ⟨fun e he => by simp [convNormalize] at he, fun kn hk => ?_⟩
    simp only [convNormalize, Except.ok.injEq] at hk
    subst hk
    refine ⟨some (Np.divC (valOf g.mem x) (f (valOf g.mem x))), ?_, rfl, .inr ⟨(by intro h; cases h), rfl⟩⟩
    unfold normalizeP
    dsimp only
    rw [prog_run_bind_ok (run_getP x g), prog_run_bind_ok (run_getP x g)]
    rfl
  | notCallable =>
    refine ⟨fun e he => ?_, fun kn hk => by simp [convNormalize] at hk⟩
    simp only [convNormalize, Except.error.injEq] at he
    subst he
    rfl
  | falsy =>
    refine ⟨fun e he => by simp [convNormalize] at he, fun kn hk => ?_⟩
    simp only [convNormalize, Except.ok.injEq] at hk
    subst hk
    refine ⟨x, ?_, rfl, .inl ⟨rfl, rfl⟩⟩
    unfold normalizeP
    dsimp only
    rw [prog_run_bind_ok (run_getP x g)]
    rfl

/-- both names are bound -/
def Shared.Ready (g : Shared sh) : Prop := g.fftn.isSome ∧ g.ifftn.isSome

theorem run_getFftP {α : Type} {g : Shared sh} (h : g.Ready) (f : Backend → Prog sh α) :
    ∃ c, (getFftP >>= f).run g = (f c).run g := by
  obtain ⟨c, hc⟩ := Option.isSome_iff_exists.1 h.1
  refine ⟨c, ?_⟩
  show (Prog.getFft fun b => (Prog.done (.ok b) : Prog sh Backend).bind f).run g = _
  rw [prog_run_getFft hc]
  rfl

theorem run_getIfftP {α : Type} {g : Shared sh} (h : g.Ready) (f : Backend → Prog sh α) :
    ∃ c, (getIfftP >>= f).run g = (f c).run g := by
  obtain ⟨c, hc⟩ := Option.isSome_iff_exists.1 h.2
  refine ⟨c, ?_⟩
  show (Prog.getIfft fun b => (Prog.done (.ok b) : Prog sh Backend).bind f).run g = _
  rw [prog_run_getIfft hc]
  rfl

theorem run_weightsP {s n : Fin D → ℕ} [∀ d, NeZero (n d)] (sa : Fin D → ℤ × ℤ) (hsa : Np.SlicesFit n s sa) (ip ig : Bool)
    (mask : Idx s → Bool) (kernfft : Idx n → CPix) {r : ℕ} (x : LocalArr sh r) {g : Shared sh} (h : g.Ready) :
    (weightsP sa hsa ip ig mask kernfft x).run g = (.ok (pureWeights sa hsa ip ig mask kernfft (Np.sumC (valOf g.mem x))), g) := by
  unfold weightsP
  dsimp only
  obtain ⟨c, hc⟩ := run_getFftP h (fun f => x.get >>= fun kv => getIfftP >>= fun g => Pure.pure fun i =>
    match Np.putSlices sa hsa (Np.putSlices sa hsa (fun _ => if ig then some 0 else some 1 : Idx n → Pix) fun i => some (1 -
      if mask i && ip then (1 : ℝ) else 0)) (Np.getSlices sa hsa (Np.real (g.ifft (Np.divC (Np.mul (f.fft (toC (Np.putSlices sa hsa
      (fun _ => if ig then some 0 else some 1 : Idx n → Pix) fun i => some (1 - if mask i && ip then (1 : ℝ) else 0)))) kernfft) (Np.sumC kv))))) i with
    | some w => if w < 0 then some 0 else some w
    | Option.none => Option.none)
  refine hc.trans ?_
  rw [prog_run_bind_ok (run_getP x g)]
  obtain ⟨c', hc'⟩ := run_getIfftP h (fun g' => (Pure.pure fun i =>
    match Np.putSlices sa hsa (Np.putSlices sa hsa (fun _ => if ig then some 0 else some 1 : Idx n → Pix) fun i => some (1 -
      if mask i && ip then (1 : ℝ) else 0)) (Np.getSlices sa hsa (Np.real (g'.ifft (Np.divC (Np.mul (c.fft (toC (Np.putSlices sa hsa
      (fun _ => if ig then some 0 else some 1 : Idx n → Pix) fun i => some (1 - if mask i && ip then (1 : ℝ) else 0)))) kernfft) (Np.sumC (valOf g.mem x)))))) i with
    | some w => if w < 0 then some 0 else some w
    | Option.none => Option.none : Prog sh (Idx n → Pix)))
  refine hc'.trans ?_
  rw [Backend.fft_eq, Backend.ifft_eq]
  rfl

theorem run_getFft' {α : Type} {g : Shared sh} (h : g.Ready) (f : Backend → Prog sh α) :
    (getFftP >>= f).run g = (f (g.fftn.get h.1)).run g := by
  have e : g.fftn = some (g.fftn.get h.1) := (Option.some_get _).symm
  show (Prog.getFft fun b => (Prog.done (.ok b) : Prog sh Backend).bind f).run g = _
  rw [prog_run_getFft e]
  rfl

theorem run_getIfft' {α : Type} {g : Shared sh} (h : g.Ready) (f : Backend → Prog sh α) :
    (getIfftP >>= f).run g = (f (g.ifftn.get h.2)).run g := by
  have e : g.ifftn = some (g.ifftn.get h.2) := (Option.some_get _).symm
  show (Prog.getIfft fun b => (Prog.done (.ok b) : Prog sh Backend).bind f).run g = _
  rw [prog_run_getIfft e]
  rfl

/-- the memory at the end: NaNs are put back unless there was an exception -/
def endMem (m m' : ∀ r, Idx (sh r) → CPix) {α : Type} : Py α → ∀ r, Idx (sh r) → CPix
  | .error _ => m
  | .ok _ => m'

theorem run_convTailP {a k : ℕ} (o : ConvArgs (Idx (sh k))) {n : Fin D → ℕ} [∀ d, NeZero (n d)] (sa sk : Fin D → ℤ × ℤ)
    (hsa : Np.SlicesFit n (sh a) sa) (hsk : Np.SlicesFit n (sh k) sk) (array : LocalArr sh a) (maskA : Idx (sh a) → Bool)
    (kernel : LocalArr sh k) (maskK : Idx (sh k) → Bool) (nrm : Bool) {g : Shared sh} (h : g.Ready) :
    (convTailP o sa sk hsa hsk array maskA kernel maskK nrm).run g =
      (pureTail o sa sk hsa hsk (valOf g.mem array) maskA (valOf g.mem kernel) nrm,
       { g with mem := endMem g.mem (memFill (memFill g.mem array maskA none) kernel maskK none)
                  (pureTail o sa sk hsa hsk (valOf g.mem array) maskA (valOf g.mem kernel) nrm) }) := by
  unfold convTailP
  rw [prog_run_bind_ok (run_getP array g), prog_run_bind_ok (run_getP kernel g), run_getFft' h, run_getFft' h]
  rw [Backend.fft_eq]
  unfold pureTail
  dsimp only
  generalize Np.putSlices sa hsa (fun _ => convFill o.boundary o.fillValue) (valOf g.mem array) = A
  generalize Np.fftn (Np.ifftshiftN (Np.putSlices sk hsk (fun _ => some 0) (valOf g.mem kernel))) = K
  generalize Np.mul (Np.fftn A) K = F
  have hw : (if (o.interpolateNan || o.ignoreEdgeZeros) && nrm then
        some <$> weightsP sa hsa o.interpolateNan o.ignoreEdgeZeros maskA K kernel else pure none : Prog sh (Option (Idx n → Pix))).run g
      = (.ok (if (o.interpolateNan || o.ignoreEdgeZeros) && nrm then
          some (pureWeights sa hsa o.interpolateNan o.ignoreEdgeZeros maskA K (Np.sumC (valOf g.mem kernel))) else none), g) := by
    split_ifs
    · show (weightsP sa hsa o.interpolateNan o.ignoreEdgeZeros maskA K kernel >>= fun w => pure (some w)).run g = _
      rw [prog_run_bind_ok (run_weightsP sa hsa o.interpolateNan o.ignoreEdgeZeros maskA K kernel h)]
      rfl
    · rfl
  rw [prog_run_bind_ok hw]
  by_cases hN : Np.anyNaN F
  · rw [if_pos hN, if_pos hN]
    rfl
  · rw [if_neg hN, if_neg hN]
    rw [prog_run_bind_ok (run_fillP array maskA none g), prog_run_bind_ok (run_fillP kernel maskK none _)]
    by_cases hr : o.returnFft = true
    · rw [if_pos hr, if_pos hr]
      rfl
    · rw [if_neg hr, if_neg hr]
      rw [run_getIfft' (g := ⟨g.fftn, g.ifftn, memFill (memFill g.mem array maskA none) kernel maskK none⟩) h]
      rw [Backend.ifft_eq]
      split_ifs <;> rfl

theorem run_bindFftsP (cfg : FFTConfig) (g : Shared sh) (h : cfg.hasFftw = false → g.Ready) :
    ∃ g' : Shared sh, (bindFftsP cfg).run g = (.ok (), g') ∧ g'.mem = g.mem ∧ g'.Ready := by
  obtain ⟨b, u, t⟩ := cfg
  cases b <;> cases u
  · exact ⟨g, rfl, rfl, h rfl⟩
  · exact ⟨_, rfl, rfl, ⟨rfl, rfl⟩⟩
  · exact ⟨_, rfl, rfl, ⟨rfl, rfl⟩⟩
  · exact ⟨_, rfl, rfl, ⟨rfl, rfl⟩⟩

variable [∀ r d, NeZero (sh r d)]

open Classical in
/-- `convolvend` from the kernel's NaNs on (convolve_nd.py:190-328) -/
noncomputable def restP {a k : ℕ} (o : ConvArgs (Idx (sh k))) (array : LocalArr sh a) (maskA : Idx (sh a) → Bool) (kernel : LocalArr sh k) :
    Prog sh (ConvOut D) := do
  let (kernel, maskK) ← zeroNansP kernel
  let (kernel, normalized) ← normalizeP o.normalizeKernel kernel
  match convPads o.boundary o.psfPad o.fftPad with
  | none => .raise .notImplementedError
  | some (psfPad, fftPad) =>
    let n := convNewShape (sh a) (sh k) psfPad fftPad
    if h : Np.SlicesFit n (sh a) (fun d => convSlice (n d) (sh a d)) ∧ Np.SlicesFit n (sh k) (fun d => convSlice (n d) (sh k d)) then
      convTailP o _ _ h.1 h.2 array maskA kernel maskK normalized
    else .raise .valueError

/-- `convolvend` up to the array's NaNs (convolve_nd.py:148-189) -/
def prefixP (isComplex : ℕ → Bool) (cfg : FFTConfig) (a k : ℕ) : Prog sh ((LocalArr sh a × (Idx (sh a) → Bool)) × LocalArr sh k) := do
  let array ← asarrayP (isComplex a) a
  let kernel ← asarrayP (isComplex k) k
  bindFftsP cfg
  let x ← zeroNansP array
  pure (x, kernel)

omit [∀ r d, NeZero (sh r d)] in
theorem prog_bind_assoc {α β γ : Type} (p : Prog sh α) (f : α → Prog sh β) (h : β → Prog sh γ) :
    p >>= f >>= h = p >>= fun x => f x >>= h := by
  show (p.bind f).bind h = p.bind fun x => (f x).bind h
  induction p with
  | done x => cases x <;> rfl
  | setFft b k ih => exact congrArg (Prog.setFft b) ih
  | setIfft b k ih => exact congrArg (Prog.setIfft b) ih
  | getFft k ih => exact congrArg Prog.getFft (funext ih)
  | getIfft k ih => exact congrArg Prog.getIfft (funext ih)
  | read r k ih => exact congrArg (Prog.read r) (funext ih)
  | fill r m v k ih => exact congrArg (Prog.fill r m v) ih

theorem convolvendP_split (isComplex : ℕ → Bool) (cfg : FFTConfig) (a k : ℕ) (o : ConvArgs (Idx (sh k))) :
    convolvendP isComplex cfg a k o = prefixP isComplex cfg a k >>= fun x => restP o x.1.1 x.1.2 x.2 := by
  unfold prefixP
  simp only [prog_bind_assoc]
  rfl

omit [∀ r d, NeZero (sh r d)] in
theorem run_prefixP (isComplex : ℕ → Bool) (cfg : FFTConfig) (a k : ℕ) (g : Shared sh) (h : cfg.hasFftw = false → g.Ready)
    (xa : LocalArr sh a) (hxa : xa = if isComplex a then none else some (g.mem a)) :
    ∃ g' : Shared sh, (prefixP isComplex cfg a k).run g = (.ok ((xa.map (fillMask (fun i => (valOf g.mem xa i).isNone) (some 0)),
        fun i => (valOf g.mem xa i).isNone), if isComplex k then none else some (g.mem k)), g') ∧ g'.Ready ∧
      g'.mem = memFill g.mem xa (fun i => (valOf g.mem xa i).isNone) (some 0) := by
  obtain ⟨g1, hb, hbm, hR⟩ := run_bindFftsP cfg g h
  refine ⟨{ g1 with mem := memFill g.mem xa (fun i => (valOf g.mem xa i).isNone) (some 0) }, ?_, hR, rfl⟩
  unfold prefixP
  rw [prog_run_bind_ok (run_asarrayP _ _ _), prog_run_bind_ok (run_asarrayP _ _ _), prog_run_bind_ok hb, ← hxa,
    prog_run_bind_ok (run_zeroNansP xa g1)]
  rw [hbm]
  rfl

open Classical in
/-- the rest of a call, in terms of its local names -/
theorem run_restP {a k : ℕ} (o : ConvArgs (Idx (sh k))) (g : Shared sh) (hR : g.Ready) (ya : LocalArr sh a) (maskA : Idx (sh a) → Bool)
    (xk : LocalArr sh k) (m2 : ∀ r, Idx (sh r) → CPix)
    (hm2 : m2 = memFill g.mem xk (fun i => (valOf g.mem xk i).isNone) (some 0)) (yk : LocalArr sh k)
    (hyk : yk = xk.map (fillMask (fun i => (valOf g.mem xk i).isNone) (some 0))) :
    ∃ (g' : Shared sh) (zk : LocalArr sh k), g'.Ready ∧
      ((o.normalizeKernel = .falsy ∧ zk = yk) ∨ (o.normalizeKernel ≠ .falsy ∧ zk.isSome)) ∧
      (restP o ya maskA xk).run g = ((do
        let kn ← convNormalize o.normalizeKernel (valOf m2 yk)
        pureRest o (valOf m2 ya) maskA kn.1 kn.2), g') ∧
      g'.mem = endMem m2 (memFill (memFill m2 ya maskA none) zk (fun i => (valOf g.mem xk i).isNone) none)
        ((do
        let kn ← convNormalize o.normalizeKernel (valOf m2 yk)
        pureRest o (valOf m2 ya) maskA kn.1 kn.2)) := by
  unfold restP
  rw [prog_run_bind_ok (run_zeroNansP xk g)]
  dsimp only
  rw [← hm2, ← hyk]
  obtain ⟨e1, e2⟩ := run_normalizeP o.normalizeKernel yk { g with mem := m2 }
  dsimp only at e1 e2 ⊢
  cases hn : convNormalize o.normalizeKernel (valOf m2 yk) with
  | error e =>
    rw [prog_run_bind_error (e1 e hn)]
    refine ⟨⟨g.fftn, g.ifftn, m2⟩, if o.normalizeKernel = .falsy then yk else some (valOf m2 yk), hR, ?_, rfl, rfl⟩
    by_cases hf : o.normalizeKernel = .falsy
    · exact .inl ⟨hf, if_pos hf⟩
    · exact .inr ⟨hf, by rw [if_neg hf]; rfl⟩
  | ok kn =>
    obtain ⟨zk, hz1, hz2, hz3⟩ := e2 kn hn
    rw [prog_run_bind_ok hz1]
    have e : ((Except.ok kn : Py _) >>= fun kn => pureRest o (valOf m2 ya) maskA kn.1 kn.2)
        = pureRest o (valOf m2 ya) maskA kn.1 kn.2 := rfl
    rw [e]
    unfold pureRest
    dsimp only
    cases convPads o.boundary o.psfPad o.fftPad with
    | none => exact ⟨⟨g.fftn, g.ifftn, m2⟩, zk, hR, hz3, rfl, rfl⟩
    | some pf =>
      obtain ⟨p, f⟩ := pf
      dsimp only
      by_cases h : Np.SlicesFit (convNewShape (sh a) (sh k) p f) (sh a) (fun d => convSlice (convNewShape (sh a) (sh k) p f d) (sh a d)) ∧
          Np.SlicesFit (convNewShape (sh a) (sh k) p f) (sh k) (fun d => convSlice (convNewShape (sh a) (sh k) p f d) (sh k d))
      · rw [dif_pos h, dif_pos h]
        have ht := run_convTailP o _ _ h.1 h.2 ya maskA zk (fun i => (valOf g.mem xk i).isNone) kn.2
          (g := ⟨g.fftn, g.ifftn, m2⟩) hR
        dsimp only at ht
        rw [hz2] at ht
        refine ⟨⟨g.fftn, g.ifftn, _⟩, zk, ?_, hz3, ht, rfl⟩
        exact hR
      · rw [dif_neg h, dif_neg h]
        exact ⟨⟨g.fftn, g.ifftn, m2⟩, zk, hR, hz3, rfl, rfl⟩

/-- one uninterrupted call, in terms of its local names -/
theorem run_convolvendP (isComplex : ℕ → Bool) (cfg : FFTConfig) (a k : ℕ) (o : ConvArgs (Idx (sh k))) (g : Shared sh)
    (h : cfg.hasFftw = false → g.Ready) (xa : LocalArr sh a) (xk : LocalArr sh k) (m1 m2 : ∀ r, Idx (sh r) → CPix)
    (hxa : xa = if isComplex a then none else some (g.mem a)) (hxk : xk = if isComplex k then none else some (g.mem k))
    (hm1 : m1 = memFill g.mem xa (fun i => (valOf g.mem xa i).isNone) (some 0))
    (hm2 : m2 = memFill m1 xk (fun i => (valOf m1 xk i).isNone) (some 0)) (ya : LocalArr sh a) (yk : LocalArr sh k)
    (hya : ya = xa.map (fillMask (fun i => (valOf g.mem xa i).isNone) (some 0)))
    (hyk : yk = xk.map (fillMask (fun i => (valOf m1 xk i).isNone) (some 0))) :
    ∃ (g' : Shared sh) (zk : LocalArr sh k), g'.Ready ∧
      ((o.normalizeKernel = .falsy ∧ zk = yk) ∨ (o.normalizeKernel ≠ .falsy ∧ zk.isSome)) ∧
      (convolvendP isComplex cfg a k o).run g = ((do
        let kn ← convNormalize o.normalizeKernel (valOf m2 yk)
        pureRest o (valOf m2 ya) (fun i => (valOf g.mem xa i).isNone) kn.1 kn.2), g') ∧
      g'.mem = endMem m2 (memFill (memFill m2 ya (fun i => (valOf g.mem xa i).isNone) none) zk (fun i => (valOf m1 xk i).isNone) none)
        ((do
        let kn ← convNormalize o.normalizeKernel (valOf m2 yk)
        pureRest o (valOf m2 ya) (fun i => (valOf g.mem xa i).isNone) kn.1 kn.2)) := by
  obtain ⟨g1, hp, hR, hgm⟩ := run_prefixP isComplex cfg a k g h xa hxa
  rw [← hm1] at hgm
  subst hgm
  rw [convolvendP_split, prog_run_bind_ok hp, ← hxk, ← hya]
  exact run_restP o g1 hR ya (fun i => (valOf g.mem xa i).isNone) xk m2 hm2 yk hyk

theorem nanToNum_nanToNum {ι : Type} (v : ι → CPix) : Np.nanToNum (Np.nanToNum v) = Np.nanToNum v := rfl

theorem nanToNum_ne_none {ι : Type} (v : ι → CPix) (i : ι) : Np.nanToNum v i ≠ none := by unfold Np.nanToNum; exact Option.some_ne_none _

theorem fillMask_restore {ι : Type} (v : ι → CPix) : fillMask (fun i => (v i).isNone) none (Np.nanToNum v) = v := by
  funext i
  unfold fillMask Np.nanToNum
  beta_reduce
  cases v i <;> rfl

/-- **One uninterrupted call**: what it returns and what the memory is afterwards. -/
theorem run_call (isComplex : ℕ → Bool) (cfg : FFTConfig) (a k : ℕ) (o : ConvArgs (Idx (sh k))) (g : Shared sh)
    (h : cfg.hasFftw = false → g.Ready) :
    ∃ g' : Shared sh, (convolvendP isComplex cfg a k o).run g = (convolvend cfg o (g.mem a) (g.mem k), g') ∧ g'.Ready ∧
      g'.mem = Function.update (Function.update g.mem k (convolvendAfter cfg (isComplex a) (isComplex k) o (g.mem a) (g.mem k)).2) a
        (convolvendAfter cfg (isComplex a) (isComplex k) o (g.mem a) (g.mem k)).1 := by
  have facts : ∀ (xa : LocalArr sh a) (xk : LocalArr sh k) (m1 m2 : ∀ r, Idx (sh r) → CPix),
      xa = (if isComplex a then none else some (g.mem a)) → xk = (if isComplex k then none else some (g.mem k)) →
      m1 = memFill g.mem xa (fun i => (valOf g.mem xa i).isNone) (some 0) →
      m2 = memFill m1 xk (fun i => (valOf m1 xk i).isNone) (some 0) → ∀ (ya : LocalArr sh a) (yk : LocalArr sh k),
      ya = xa.map (fillMask (fun i => (valOf g.mem xa i).isNone) (some 0)) →
      yk = xk.map (fillMask (fun i => (valOf m1 xk i).isNone) (some 0)) →
      valOf g.mem xa = g.mem a ∧ valOf m2 ya = Np.nanToNum (g.mem a) ∧ valOf m2 yk = Np.nanToNum (g.mem k) ∧
      m2 = Function.update (Function.update g.mem k (if isComplex k then Np.nanToNum (g.mem k) else g.mem k)) a
        (if isComplex a then Np.nanToNum (g.mem a) else g.mem a) ∧
      memFill (memFill m2 ya (fun i => (g.mem a i).isNone) none) yk (fun i => (valOf m1 xk i).isNone) none = g.mem ∧
      memFill m2 ya (fun i => (g.mem a i).isNone) none
        = Function.update (Function.update g.mem k (if isComplex k then Np.nanToNum (g.mem k) else g.mem k)) a (g.mem a) := by
    intro xa xk m1 m2 hxa hxk hm1 hm2 ya yk hya hyk
    by_cases hak : a = k
    · subst hak
      cases hc : isComplex a
      · rw [hc] at hxa hxk
        simp only [Bool.false_eq_true, if_false] at hxa hxk
        subst hxa hxk hm1 hm2 hya hyk
        simp only [valOf, memFill, Option.map_some, Option.getD_some, fillMask_isNone, Bool.false_eq_true, if_false,
          Function.update_eq_self, and_self]
      · rw [hc] at hxa hxk
        simp only [if_true] at hxa hxk
        subst hxa hxk
        simp only [valOf, memFill, Option.map_none, Option.getD_none, fillMask_isNone] at hm1 hm2 hya hyk
        have e1 : m1 a = Np.nanToNum (g.mem a) := by rw [hm1, Function.update_self]
        have e2 : m2 = m1 := by rw [hm2, e1, nanToNum_nanToNum, ← e1, Function.update_eq_self]
        subst hya hyk
        have e3 : Function.update m1 a (fillMask (fun i => (g.mem a i).isNone) none (m1 a)) = g.mem := by
          rw [e1, fillMask_restore, hm1, Function.update_idem, Function.update_eq_self]
        simp only [valOf, memFill, Option.getD_none, if_true]
        rw [e2]
        refine ⟨trivial, e1, e1, ?_, ?_, ?_⟩
        · rw [Function.update_idem, hm1]
        · rw [e3, Function.update_eq_iff]
          refine ⟨?_, fun _ _ => rfl⟩
          rw [e1]
          exact fillMask_of_some (nanToNum_ne_none _) _ _
        · rw [e3, Function.update_idem, Function.update_eq_self]
    · have hka : k ≠ a := fun e => hak e.symm
      cases hc : isComplex a <;> cases hk : isComplex k <;> rw [hc] at hxa <;> rw [hk] at hxk <;>
        simp only [Bool.false_eq_true, if_false, if_true] at hxa hxk <;> subst hxa hxk hm1 hm2 hya hyk <;>
        simp only [valOf, memFill, Option.map_some, Option.getD_some, Option.map_none, Option.getD_none, fillMask_isNone,
          Bool.false_eq_true, if_false, if_true, Function.update_eq_self, Function.update_self, Function.update_of_ne hak,
          Function.update_of_ne hka, fillMask_restore, Function.update_idem, true_and, and_true]
      · have e : ∀ v, Function.update g.mem k v = Function.update (Function.update g.mem k v) a (g.mem a) := by
          intro v
          rw [Function.update_comm hka, Function.update_eq_self]
        exact ⟨e _, e _⟩
      · have e : ∀ v w, Function.update (Function.update g.mem a w) k v = Function.update (Function.update g.mem k v) a w :=
          fun v w => Function.update_comm hak _ _ _
        refine ⟨e _ _, ?_, ?_⟩
        · rw [e, Function.update_idem, Function.update_comm hka, Function.update_idem, Function.update_comm hak,
            Function.update_eq_self, Function.update_eq_self]
        · rw [e, Function.update_idem]
  obtain ⟨xa, hxa⟩ : ∃ x : LocalArr sh a, x = (if isComplex a then none else some (g.mem a)) := ⟨_, rfl⟩
  obtain ⟨xk, hxk⟩ : ∃ x : LocalArr sh k, x = (if isComplex k then none else some (g.mem k)) := ⟨_, rfl⟩
  obtain ⟨m1, hm1⟩ : ∃ m, m = memFill g.mem xa (fun i => (valOf g.mem xa i).isNone) (some 0) := ⟨_, rfl⟩
  obtain ⟨m2, hm2⟩ : ∃ m, m = memFill m1 xk (fun i => (valOf m1 xk i).isNone) (some 0) := ⟨_, rfl⟩
  obtain ⟨ya, hya⟩ : ∃ y, y = xa.map (fillMask (fun i => (valOf g.mem xa i).isNone) (some 0)) := ⟨_, rfl⟩
  obtain ⟨yk, hyk⟩ : ∃ y, y = xk.map (fillMask (fun i => (valOf m1 xk i).isNone) (some 0)) := ⟨_, rfl⟩
  obtain ⟨g', zk, hR, hz, hrun, hmem⟩ := run_convolvendP isComplex cfg a k o g h xa xk m1 m2 hxa hxk hm1 hm2 ya yk hya hyk
  obtain ⟨f1, f2, f3, f4, f5, f6⟩ := facts xa xk m1 m2 hxa hxk hm1 hm2 ya yk hya hyk
  rw [f2, f3, f1, ← convolvend_eq cfg] at hrun
  refine ⟨g', hrun, hR, ?_⟩
  rw [f2, f3, f1, ← convolvend_eq cfg] at hmem
  rw [hmem]
  unfold convolvendAfter
  dsimp only
  cases hr : convolvend cfg o (g.mem a) (g.mem k) with
  | error e => exact f4
  | ok y =>
    have hres : (fun i => if (g.mem a i).isNone = true then none else Np.nanToNum (g.mem a) i) = g.mem a := fillMask_restore (g.mem a)
    have hresk : (fun i => if (g.mem k i).isNone = true then none else Np.nanToNum (g.mem k) i) = g.mem k := fillMask_restore (g.mem k)
    unfold endMem
    dsimp only
    rcases hz with ⟨hf, rfl⟩ | ⟨hf, hz⟩
    · rw [f5, hf]
      dsimp only
      rw [hres, hresk, ite_self, ite_self, Function.update_eq_self, Function.update_eq_self]
    · obtain ⟨w, rfl⟩ := Option.isSome_iff_exists.1 hz
      refine Eq.trans (f6 : _) ?_
      rw [hres, ite_self]
      cases hnk : o.normalizeKernel with
      | falsy => exact absurd hnk hf
      | isTrue => rfl
      | fn f => rfl
      | notCallable => rfl

end

section
variable {D : ℕ} {sh : ℕ → Fin D → ℕ}

theorem runSchedule_append {ι α : Type} [DecidableEq ι] (s t : List ι) :
    ∀ c : Shared sh × (ι → Prog sh α), runSchedule (s ++ t) c = runSchedule t (runSchedule s c) := by
  induction s with
  | nil => intro c; rfl
  | cons i s ih => intro c; exact ih _

/-- scheduling one call alone until its end is running it -/
theorem runSchedule_run {ι α : Type} [DecidableEq ι] (i : ι) (p : Prog sh α) :
    ∀ (g : Shared sh) (P : ι → Prog sh α), P i = p →
      ∃ N, runSchedule (List.replicate N i) (g, P) = ((p.run g).2, Function.update P i (.done (p.run g).1)) := by
  induction p with
  | done x =>
    intro g P h
    refine ⟨0, ?_⟩
    show (g, P) = (g, Function.update P i (.done x))
    rw [← h, Function.update_eq_self]
  | setFft b k ih =>
    intro g P h
    obtain ⟨N, hN⟩ := ih { g with fftn := some b } (Function.update P i k) (Function.update_self _ _ _)
    refine ⟨N + 1, ?_⟩
    rw [List.replicate_succ]
    unfold runSchedule
    dsimp only
    rw [h]
    rw [Function.update_idem] at hN
    exact hN
  | setIfft b k ih =>
    intro g P h
    obtain ⟨N, hN⟩ := ih { g with ifftn := some b } (Function.update P i k) (Function.update_self _ _ _)
    refine ⟨N + 1, ?_⟩
    rw [List.replicate_succ]
    unfold runSchedule
    dsimp only
    rw [h]
    rw [Function.update_idem] at hN
    exact hN
  | getFft k ih =>
    intro g P h
    cases hb : g.fftn with
    | none =>
      refine ⟨1, ?_⟩
      rw [prog_run_getFft_none hb]
      show (((P i).step g).1, Function.update P i ((P i).step g).2) = _
      rw [h]
      unfold Prog.step
      rw [hb]
    | some b =>
      obtain ⟨N, hN⟩ := ih b g (Function.update P i (k b)) (Function.update_self _ _ _)
      refine ⟨N + 1, ?_⟩
      rw [prog_run_getFft hb, List.replicate_succ]
      unfold runSchedule
      dsimp only
      rw [h]
      rw [Function.update_idem] at hN
      unfold Prog.step
      rw [hb]
      exact hN
  | getIfft k ih =>
    intro g P h
    cases hb : g.ifftn with
    | none =>
      refine ⟨1, ?_⟩
      rw [prog_run_getIfft_none hb]
      show (((P i).step g).1, Function.update P i ((P i).step g).2) = _
      rw [h]
      unfold Prog.step
      rw [hb]
    | some b =>
      obtain ⟨N, hN⟩ := ih b g (Function.update P i (k b)) (Function.update_self _ _ _)
      refine ⟨N + 1, ?_⟩
      rw [prog_run_getIfft hb, List.replicate_succ]
      unfold runSchedule
      dsimp only
      rw [h]
      rw [Function.update_idem] at hN
      unfold Prog.step
      rw [hb]
      exact hN
  | read r k ih =>
    intro g P h
    obtain ⟨N, hN⟩ := ih (g.mem r) g (Function.update P i (k (g.mem r))) (Function.update_self _ _ _)
    refine ⟨N + 1, ?_⟩
    rw [List.replicate_succ]
    unfold runSchedule
    dsimp only
    rw [h]
    rw [Function.update_idem] at hN
    exact hN
  | fill r m v k ih =>
    intro g P h
    obtain ⟨N, hN⟩ := ih { g with mem := Function.update g.mem r (fillMask m v (g.mem r)) } (Function.update P i k)
      (Function.update_self _ _ _)
    refine ⟨N + 1, ?_⟩
    rw [List.replicate_succ]
    unfold runSchedule
    dsimp only
    rw [h]
    rw [Function.update_idem] at hN
    exact hN

/-- scheduling one call alone until the end of its first part -/
theorem runSchedule_bind {ι α β : Type} [DecidableEq ι] (i : ι) (p : Prog sh β) (f : β → Prog sh α) :
    ∀ (g g' : Shared sh) (b : β) (P : ι → Prog sh α), P i = p >>= f → p.run g = (.ok b, g') →
      ∃ N, runSchedule (List.replicate N i) (g, P) = (g', Function.update P i (f b)) := by
  induction p with
  | done x =>
    intro g g' b P h hr
    cases x with
    | error e => exact absurd (congrArg Prod.fst hr) (by rintro ⟨⟩)
    | ok y =>
      have e1 : y = b := Except.ok.inj (congrArg Prod.fst hr)
      have e2 : g = g' := congrArg Prod.snd hr
      subst e1 e2
      refine ⟨0, ?_⟩
      show (g, P) = (g, Function.update P i (f y))
      have h' : P i = f y := h
      rw [← h', Function.update_eq_self]
  | setFft c k ih =>
    intro g g' b P h hr
    obtain ⟨N, hN⟩ := ih { g with fftn := some c } g' b (Function.update P i (k.bind f)) (Function.update_self _ _ _) hr
    refine ⟨N + 1, ?_⟩
    rw [List.replicate_succ]
    unfold runSchedule
    dsimp only
    rw [h]
    rw [Function.update_idem] at hN
    exact hN
  | setIfft c k ih =>
    intro g g' b P h hr
    obtain ⟨N, hN⟩ := ih { g with ifftn := some c } g' b (Function.update P i (k.bind f)) (Function.update_self _ _ _) hr
    refine ⟨N + 1, ?_⟩
    rw [List.replicate_succ]
    unfold runSchedule
    dsimp only
    rw [h]
    rw [Function.update_idem] at hN
    exact hN
  | getFft k ih =>
    intro g g' b P h hr
    cases hb : g.fftn with
    | none =>
      rw [prog_run_getFft_none hb] at hr
      exact absurd (congrArg Prod.fst hr) (by rintro ⟨⟩)
    | some c =>
      rw [prog_run_getFft hb] at hr
      obtain ⟨N, hN⟩ := ih c g g' b (Function.update P i ((k c).bind f)) (Function.update_self _ _ _) hr
      refine ⟨N + 1, ?_⟩
      rw [List.replicate_succ]
      unfold runSchedule
      dsimp only
      rw [h]
      rw [Function.update_idem] at hN
      have e : (Prog.getFft k >>= f).step g = (g, (k c).bind f) := by
        show (Prog.getFft fun b => (k b).bind f).step g = _
        unfold Prog.step
        rw [hb]
      rw [e]
      exact hN
  | getIfft k ih =>
    intro g g' b P h hr
    cases hb : g.ifftn with
    | none =>
      rw [prog_run_getIfft_none hb] at hr
      exact absurd (congrArg Prod.fst hr) (by rintro ⟨⟩)
    | some c =>
      rw [prog_run_getIfft hb] at hr
      obtain ⟨N, hN⟩ := ih c g g' b (Function.update P i ((k c).bind f)) (Function.update_self _ _ _) hr
      refine ⟨N + 1, ?_⟩
      rw [List.replicate_succ]
      unfold runSchedule
      dsimp only
      rw [h]
      rw [Function.update_idem] at hN
      have e : (Prog.getIfft k >>= f).step g = (g, (k c).bind f) := by
        show (Prog.getIfft fun b => (k b).bind f).step g = _
        unfold Prog.step
        rw [hb]
      rw [e]
      exact hN
  | read r k ih =>
    intro g g' b P h hr
    obtain ⟨N, hN⟩ := ih (g.mem r) g g' b (Function.update P i ((k (g.mem r)).bind f)) (Function.update_self _ _ _) hr
    refine ⟨N + 1, ?_⟩
    rw [List.replicate_succ]
    unfold runSchedule
    dsimp only
    rw [h]
    rw [Function.update_idem] at hN
    exact hN
  | fill r m v k ih =>
    intro g g' b P h hr
    obtain ⟨N, hN⟩ := ih { g with mem := Function.update g.mem r (fillMask m v (g.mem r)) } g' b (Function.update P i (k.bind f))
      (Function.update_self _ _ _) hr
    refine ⟨N + 1, ?_⟩
    rw [List.replicate_succ]
    unfold runSchedule
    dsimp only
    rw [h]
    rw [Function.update_idem] at hN
    exact hN

end

end ImgReg
