import Verif.Lemmas.ConvRun
import Verif.Props.Convolve
import Mathlib.Tactic.FinCases

/-!
# C125: `convolvend` called from several threads, or many times in a row

`convolvend` rebinds two module globals in every call and works in place on complex arrays. Which of its guarantees survive when calls
overlap?
-/

open Finset

namespace ImgReg

variable {D : ℕ} {sh : ℕ → Fin D → ℕ}

/-- One call `convolvend(array, kernel, use_numpy_fft=…, nthreads=…, …)`; `array` and `kernel` are the objects number `a` and `k`. -/
structure ConvCall {D : ℕ} (sh : ℕ → Fin D → ℕ) where
  a : ℕ
  k : ℕ
  useNumpyFft : Bool
  nthreads : ℕ
  args : ConvArgs (Idx (sh k))

section
variable [∀ r d, NeZero (sh r d)]

/-- the call as a program -/
noncomputable def ConvCall.prog (isComplex : ℕ → Bool) (hasFftw : Bool) (c : ConvCall sh) : Prog sh (ConvOut D) :=
  convolvendP isComplex ⟨hasFftw, c.useNumpyFft, c.nthreads⟩ c.a c.k c.args

/-- what the call returns (or raises) when it is made alone, on arrays with the contents `m` -/
noncomputable def ConvCall.alone (hasFftw : Bool) (c : ConvCall sh) (m : ∀ r, Idx (sh r) → CPix) : Py (ConvOut D) :=
  convolvend ⟨hasFftw, c.useNumpyFft, c.nthreads⟩ c.args (m c.a) (m c.k)

/-- the contents of the arrays after the call, when it is made alone -/
noncomputable def ConvCall.after (isComplex : ℕ → Bool) (hasFftw : Bool) (c : ConvCall sh) (m : ∀ r, Idx (sh r) → CPix) :
    ∀ r, Idx (sh r) → CPix :=
  Function.update
    (Function.update m c.k
      (convolvendAfter ⟨hasFftw, c.useNumpyFft, c.nthreads⟩ (isComplex c.a) (isComplex c.k) c.args (m c.a) (m c.k)).2) c.a
    (convolvendAfter ⟨hasFftw, c.useNumpyFft, c.nthreads⟩ (isComplex c.a) (isComplex c.k) c.args (m c.a) (m c.k)).1

omit [∀ r d, NeZero (sh r d)] in
theorem initial_bound (hasFftw : Bool) (m : ∀ r, Idx (sh r) → CPix) :
    (Shared.initial hasFftw m).Bound (!hasFftw) (!hasFftw) ∧ (Shared.initial hasFftw m).mem = m ∧
      (hasFftw = false → (Shared.initial hasFftw m).Ready) := by
  cases hasFftw
  · exact ⟨⟨fun _ => rfl, fun _ => rfl⟩, rfl, fun _ => ⟨rfl, rfl⟩⟩
  · exact ⟨⟨(by rintro ⟨⟩), (by rintro ⟨⟩)⟩, rfl, (by rintro ⟨⟩)⟩

omit [∀ r d, NeZero (sh r d)] in
theorem safe_done {m0 : ∀ r, Idx (sh r) → CPix} {α : Type} {x y : Py α} {fb ib : Bool} {n : ℕ} (h : Safe m0 x fb ib n (.done y)) :
    y = x := by
  cases h
  rfl

omit [∀ r d, NeZero (sh r d)] in
theorem safe_zero {m0 : ∀ r, Idx (sh r) → CPix} {α : Type} {x : Py α} {fb ib : Bool} {p : Prog sh α} (h : Safe m0 x fb ib 0 p) :
    p = .done x := by
  cases h
  rfl

/-- C125: any number of calls, each with its own FFT settings, interleaved in any way after the module was imported: if the arrays of
complex dtype have no NaN, nothing is ever written that changes them, each call that has finished has returned (or raised) what it returns
alone, and a call has finished once it was scheduled 20 times. -/
theorem C125_any_schedule {ι : Type} [DecidableEq ι] (hasFftw : Bool) (isComplex : ℕ → Bool) (m : ∀ r, Idx (sh r) → CPix)
    (call : ι → ConvCall sh) (hnan : ∀ i r, r = (call i).a ∨ r = (call i).k → isComplex r = true → ∀ p, m r p ≠ none)
    (sched : List ι) :
    let final := runSchedule sched (Shared.initial hasFftw m, fun i => (call i).prog isComplex hasFftw)
    final.1.mem = m ∧ ∀ i,
      (∀ y, final.2 i = .done y → y = (call i).alone hasFftw m) ∧
      (20 ≤ sched.count i → final.2 i = .done ((call i).alone hasFftw m)) := by
  intro final
  obtain ⟨h1, h2⟩ := runSchedule_safe (m0 := m) (fun i => (call i).alone hasFftw m) sched
    (Shared.initial hasFftw m, fun i => (call i).prog isComplex hasFftw) (fun _ => 20) (initial_bound hasFftw m).2.1 (fun i =>
      ⟨_, _, (initial_bound hasFftw m).1, safe_convolvend isComplex ⟨hasFftw, (call i).useNumpyFft, (call i).nthreads⟩ (call i).a (call i).k
        (call i).args (hnan i _ (.inl rfl)) (hnan i _ (.inr rfl))⟩)
  refine ⟨h1, fun i => ?_⟩
  obtain ⟨fb, ib, -, hs⟩ := h2 i
  refine ⟨fun y hy => ?_, fun hc => ?_⟩
  · have hs' : Safe m _ fb ib _ (final.2 i) := hs
    rw [hy] at hs'
    exact safe_done hs'
  · rw [Nat.sub_eq_zero_of_le hc] at hs
    exact safe_zero hs

/-- C125: one call that is not interrupted, whatever calls were made before (`g` is any state of the module in which the names are
bound, or any state at all if `fftw3` is installed), NaNs or not, `array` and `kernel` the same object or not: it returns what it returns
after a fresh import, and leaves the arrays as described by `ConvCall.after`; the names are bound afterwards. -/
theorem C125_uninterrupted (hasFftw : Bool) (isComplex : ℕ → Bool) (c : ConvCall sh) (g : Shared sh)
    (hg : hasFftw = false → g.fftn.isSome ∧ g.ifftn.isSome) :
    ((c.prog isComplex hasFftw).run g).1 = c.alone hasFftw g.mem ∧
    ((c.prog isComplex hasFftw).run g).2.mem = c.after isComplex hasFftw g.mem ∧
    ((c.prog isComplex hasFftw).run g).2.fftn.isSome ∧ ((c.prog isComplex hasFftw).run g).2.ifftn.isSome := by
  obtain ⟨g', h1, h2, h3⟩ := run_call isComplex ⟨hasFftw, c.useNumpyFft, c.nthreads⟩ c.a c.k c.args g hg
  have e : (c.prog isComplex hasFftw).run g = _ := h1
  rw [e]
  exact ⟨rfl, h3, h2.1, h2.2⟩

/-- The memory after one call, spelled out: on success a complex array gets its NaNs back, and a complex kernel that is another object does
unless it was normalised; after an exception the NaNs of complex arrays are zeros; arrays of other dtype and all other objects are as they
were. When `array` and `kernel` are the same complex object, it is restored on success even if the kernel is normalised. -/
theorem C125_memory (hasFftw : Bool) (isComplex : ℕ → Bool) (c : ConvCall sh) (m : ∀ r, Idx (sh r) → CPix) :
    (∀ r, r ≠ c.a → r ≠ c.k → c.after isComplex hasFftw m r = m r) ∧
    (∀ r, isComplex r = false → c.after isComplex hasFftw m r = m r) ∧
    (∀ out, c.alone hasFftw m = .ok out → c.after isComplex hasFftw m c.a = m c.a ∧
      (c.k ≠ c.a → isComplex c.k = true → c.args.normalizeKernel ≠ .falsy → ∀ q, c.after isComplex hasFftw m c.k q = some ((m c.k q).getD 0)) ∧
      (c.args.normalizeKernel = .falsy → c.after isComplex hasFftw m = m)) ∧
    (∀ e, c.alone hasFftw m = .error e → ∀ r, r = c.a ∨ r = c.k → isComplex r = true →
      ∀ q, c.after isComplex hasFftw m r q = some ((m r q).getD 0)) := by
  obtain ⟨h1, h2, h3, h4⟩ := C80_caller_arrays ⟨hasFftw, c.useNumpyFft, c.nthreads⟩ (isComplex c.a) (isComplex c.k) c.args (m c.a) (m c.k)
  unfold ConvCall.after ConvCall.alone
  generalize convolvendAfter ⟨hasFftw, c.useNumpyFft, c.nthreads⟩ (isComplex c.a) (isComplex c.k) c.args (m c.a) (m c.k) = W at *
  refine ⟨fun r ha hk => ?_, fun r hr => ?_, fun out ho => ⟨?_, fun hka hc hn q => ?_, fun hn => ?_⟩, fun e he r hr hc q => ?_⟩
  · rw [Function.update_of_ne ha, Function.update_of_ne hk]
  · by_cases ha : r = c.a
    · subst ha
      rw [Function.update_self, h1 hr]
    · rw [Function.update_of_ne ha]
      by_cases hk : r = c.k
      · subst hk
        rw [Function.update_self, h2 hr]
      · rw [Function.update_of_ne hk]
  · rw [Function.update_self, (h3 out ho).1]
  · rw [Function.update_of_ne hka, Function.update_self]
    exact (h3 out ho).2.2 hc hn q
  · rw [(h3 out ho).1, (h3 out ho).2.1 hn, Function.update_eq_self, Function.update_eq_self]
  · by_cases ha : r = c.a
    · subst ha
      rw [Function.update_self]
      exact (h4 e he).1 hc q
    · rcases hr with hr | hr
      · exact absurd hr ha
      · rw [Function.update_of_ne ha]
        subst hr
        rw [Function.update_self]
        exact (h4 e he).2 hc q

/-- Calls made one after the other: what they return, and the state of the module at the end. -/
noncomputable def runCalls (isComplex : ℕ → Bool) (hasFftw : Bool) : List (ConvCall sh) → Shared sh → List (Py (ConvOut D)) × Shared sh
  | [], g => ([], g)
  | c :: cs, g =>
    (((c.prog isComplex hasFftw).run g).1 :: (runCalls isComplex hasFftw cs ((c.prog isComplex hasFftw).run g).2).1,
     (runCalls isComplex hasFftw cs ((c.prog isComplex hasFftw).run g).2).2)

/-- The same calls where each one is made in a freshly imported module without `fftw3`, with numpy's FFT, on the arrays the calls before it
left behind. -/
noncomputable def Spec.history (isComplex : ℕ → Bool) : List (ConvCall sh) → (∀ r, Idx (sh r) → CPix) →
    List (Py (ConvOut D)) × (∀ r, Idx (sh r) → CPix)
  | [], m => ([], m)
  | c :: cs, m =>
    let c' : ConvCall sh := { c with useNumpyFft := true, nthreads := 1 }
    (c'.alone false m :: (Spec.history isComplex cs (c'.after isComplex false m)).1,
     (Spec.history isComplex cs (c'.after isComplex false m)).2)

theorem convolvend_cfg {s t : Fin D → ℕ} [∀ d, NeZero (s d)] (cfg cfg' : FFTConfig) (o : ConvArgs (Idx t)) (array : Idx s → CPix)
    (kernel : Idx t → CPix) : convolvend cfg o array kernel = convolvend cfg' o array kernel := by
  rw [convolvend_eq, convolvend_eq]

theorem convolvendAfter_cfg {s t : Fin D → ℕ} [∀ d, NeZero (s d)] (cfg cfg' : FFTConfig) (ac kc : Bool) (o : ConvArgs (Idx t))
    (array : Idx s → CPix) (kernel : Idx t → CPix) :
    convolvendAfter cfg ac kc o array kernel = convolvendAfter cfg' ac kc o array kernel := by
  unfold convolvendAfter
  rw [convolvend_cfg cfg cfg']

/-- C125: any history of calls with any FFT settings, `fftw3` installed or not: results and arrays are those of calls with numpy's FFT in
fresh modules. -/
theorem C125_history (hasFftw : Bool) (isComplex : ℕ → Bool) (calls : List (ConvCall sh)) (m : ∀ r, Idx (sh r) → CPix) :
    (runCalls isComplex hasFftw calls (Shared.initial hasFftw m)).1 = (Spec.history isComplex calls m).1 ∧
    (runCalls isComplex hasFftw calls (Shared.initial hasFftw m)).2.mem = (Spec.history isComplex calls m).2 := by
  have key : ∀ (calls : List (ConvCall sh)) (g : Shared sh), (hasFftw = false → g.fftn.isSome ∧ g.ifftn.isSome) →
      (runCalls isComplex hasFftw calls g).1 = (Spec.history isComplex calls g.mem).1 ∧
      (runCalls isComplex hasFftw calls g).2.mem = (Spec.history isComplex calls g.mem).2 := by
    intro calls
    induction calls with
    | nil => intro g _; exact ⟨rfl, rfl⟩
    | cons c cs ih =>
      intro g hg
      obtain ⟨h1, h2, h3⟩ := C125_uninterrupted hasFftw isComplex c g hg
      obtain ⟨i1, i2⟩ := ih _ fun _ => h3
      have e1 : c.alone hasFftw g.mem = ({ c with useNumpyFft := true, nthreads := 1 } : ConvCall sh).alone false g.mem :=
        convolvend_cfg _ _ _ _ _
      have e2 : c.after isComplex hasFftw g.mem = ({ c with useNumpyFft := true, nthreads := 1 } : ConvCall sh).after isComplex false g.mem := by
        unfold ConvCall.after
        rw [convolvendAfter_cfg _ ⟨false, true, 1⟩]
      unfold runCalls Spec.history
      dsimp only
      rw [h2] at i1 i2
      rw [i1, i2, h1, e1, e2]
      exact ⟨rfl, rfl⟩
  have h := key calls (Shared.initial hasFftw m) (initial_bound hasFftw m).2.2
  rw [(initial_bound hasFftw m).2.1] at h
  exact h

/-! ### complex arrays with NaNs -/

open Classical in
/-- once the padded array has a NaN the call ends with ValueError -/
theorem pureRest_nan {s t : Fin D → ℕ} [∀ d, NeZero (s d)] (o : ConvArgs (Idx t)) (av av' : Idx s → CPix) (mask mask' : Idx s → Bool)
    (kv : Idx t → CPix) (nrm : Bool) (y : ConvOut D) (h : pureRest o av mask kv nrm = .ok y) (hN : ∃ i, av' i = none) :
    pureRest o av' mask' kv nrm = .error .valueError := by
  unfold pureRest at h ⊢
  cases hp : convPads o.boundary o.psfPad o.fftPad with
  | none => rw [hp] at h; cases h
  | some pf =>
    obtain ⟨p, f⟩ := pf
    rw [hp] at h
    dsimp only at h ⊢
    by_cases hs : Np.SlicesFit (convNewShape s t p f) s (fun d => convSlice (convNewShape s t p f d) (s d)) ∧
        Np.SlicesFit (convNewShape s t p f) t (fun d => convSlice (convNewShape s t p f d) (t d))
    · rw [dif_pos hs]
      unfold pureTail
      dsimp only
      refine if_pos ⟨fun _ => 0, ?_⟩
      obtain ⟨i, hi⟩ := hN
      have hnone : Np.fftn (Np.putSlices (fun d => convSlice (convNewShape s t p f d) (s d)) hs.1
          (fun _ => convFill o.boundary o.fillValue) av') = fun _ => Option.none := by
        unfold Np.fftn
        rw [if_neg]
        intro hall
        have := hall (emb _ hs.1 i)
        rw [putSlices_emb, hi] at this
        exact absurd this (by simp)
      rw [hnone]
      exact Option.map₂_none_left _ _
    · rw [dif_neg hs] at h
      cases h

/-- two calls `A` (thread `false`) and `B` (thread `true`) on the same array `a` -/
noncomputable def twoCalls (isComplex : ℕ → Bool) (cfgA cfgB : FFTConfig) (a kA kB : ℕ) (oA : ConvArgs (Idx (sh kA)))
    (oB : ConvArgs (Idx (sh kB))) : Bool → Prog sh (ConvOut D)
  | false => convolvendP isComplex cfgA a kA oA
  | true => convolvendP isComplex cfgB a kB oB

section
variable (isComplex : ℕ → Bool) (cfgA cfgB : FFTConfig) (m : ∀ r, Idx (sh r) → CPix) (a kA kB : ℕ)
  (oA : ConvArgs (Idx (sh kA))) (oB : ConvArgs (Idx (sh kB))) (ha : isComplex a = true) (hkA : isComplex kA = false)
  (hkB : isComplex kB = false)

include ha hkA in
omit [∀ r d, NeZero (sh r d)] in
/-- a call, up to the point where the NaNs of its array are zeros -/
theorem race_prefix (g : Shared sh) (hg : cfgA.hasFftw = false → g.Ready) :
    ∃ g' : Shared sh, (prefixP isComplex cfgA a kA).run g =
        (.ok ((none, fun i => (g.mem a i).isNone), some (g.mem kA)), g') ∧ g'.Ready ∧
      g'.mem = Function.update g.mem a (Np.nanToNum (g.mem a)) := by
  obtain ⟨g', h1, h2, h3⟩ := run_prefixP isComplex cfgA a kA g hg none (by rw [ha]; rfl)
  rw [hkA] at h1
  refine ⟨g', h1, h2, ?_⟩
  rw [h3, ← fillMask_isNone]
  rfl

/-- the rest of a call whose kernel is private -/
theorem race_rest (g : Shared sh) (hR : g.Ready) (mask : Idx (sh a) → Bool) (kv : Idx (sh kA) → CPix) :
    ∃ g' : Shared sh, (restP oA (none : LocalArr sh a) mask (some kv)).run g = ((do
        let kn ← convNormalize oA.normalizeKernel (Np.nanToNum kv)
        pureRest oA (g.mem a) mask kn.1 kn.2), g') ∧ g'.Ready ∧
      g'.mem = endMem g.mem (Function.update g.mem a (fillMask mask none (g.mem a))) (do
        let kn ← convNormalize oA.normalizeKernel (Np.nanToNum kv)
        pureRest oA (g.mem a) mask kn.1 kn.2) := by
  obtain ⟨g', zk, h1, h2, h3, h4⟩ := run_restP oA g hR (none : LocalArr sh a) mask (some kv) g.mem rfl _ rfl
  have e : valOf g.mem (Option.map (fillMask (fun i => (valOf g.mem (some kv : LocalArr sh kA) i).isNone) (some 0))
      (some kv : LocalArr sh kA)) = Np.nanToNum kv := fillMask_isNone kv
  have ea : valOf g.mem (none : LocalArr sh a) = g.mem a := rfl
  rw [e, ea] at h3 h4
  refine ⟨g', h3, h1, ?_⟩
  rw [h4]
  obtain ⟨w, rfl⟩ : ∃ w, zk = some w := by
    rcases h2 with ⟨_, h⟩ | ⟨_, h⟩
    · exact ⟨_, h⟩
    · exact Option.isSome_iff_exists.1 h
  rfl

include ha hkA hkB in
/-- C125: two overlapping calls on one complex array that has NaNs (kernels of another dtype, any arguments): there is a schedule in which
the second call silently treats the NaNs as zeros — its result is that of the array with zeros in their place — although the first call
gets its own result and the array is intact in the end. -/
theorem C125_race_silent (outA : ConvOut D) (hA : convolvend cfgA oA (m a) (m kA) = .ok outA) :
    ∃ sched, let final := runSchedule sched (Shared.initial cfgA.hasFftw m, twoCalls isComplex cfgA cfgB a kA kB oA oB)
      final.2 false = .done (.ok outA) ∧
      final.2 true = .done (convolvend cfgB oB (fun i => some ((m a i).getD 0)) (m kB)) ∧ final.1.mem = m := by
  have hkb : kB ≠ a := fun e => by rw [e, ha] at hkB; cases hkB
  obtain ⟨-, hm0, hR0⟩ := initial_bound cfgA.hasFftw m
  generalize Shared.initial cfgA.hasFftw m = g0 at hm0 hR0 ⊢
  subst hm0
  obtain ⟨g1, p1, p2, p3⟩ := race_prefix isComplex cfgA a kA ha hkA g0 hR0
  obtain ⟨N1, s1⟩ := runSchedule_bind false (prefixP isComplex cfgA a kA) (fun x => restP oA x.1.1 x.1.2 x.2) g0 g1 _
    (twoCalls isComplex cfgA cfgB a kA kB oA oB) (convolvendP_split _ _ _ _ _) p1
  obtain ⟨g2, q1, q2, q3⟩ := run_call isComplex cfgB a kB oB g1 fun _ => p2
  have e1 : g1.mem a = Np.nanToNum (g0.mem a) := by rw [p3, Function.update_self]
  have e2 : g1.mem kB = g0.mem kB := by rw [p3, Function.update_of_ne hkb]
  have q4 : g2.mem = g1.mem := by
    obtain ⟨c1, c2, c3, c4⟩ := C80_caller_arrays cfgB (isComplex a) (isComplex kB) oB (g1.mem a) (g1.mem kB)
    rw [q3, c2 hkB, Function.update_eq_self, Function.update_eq_iff]
    refine ⟨?_, fun _ _ => rfl⟩
    cases hr : convolvend cfgB oB (g1.mem a) (g1.mem kB) with
    | ok out => exact (c3 out hr).1
    | error e =>
      funext i
      rw [(c4 e hr).1 ha i, e1]
      rfl
  obtain ⟨N2, s2⟩ := runSchedule_run true (convolvendP isComplex cfgB a kB oB) g1
    (Function.update (twoCalls isComplex cfgA cfgB a kA kB oA oB) false (restP oA none (fun i => (g0.mem a i).isNone) (some (g0.mem kA))))
    (Function.update_of_ne (by decide) _ _)
  rw [q1] at s2
  obtain ⟨g3, r1, r2, r3⟩ := race_rest a kA oA g2 q2 (fun i => (g0.mem a i).isNone) (g0.mem kA)
  obtain ⟨N3, s3⟩ := runSchedule_run false (restP oA (none : LocalArr sh a) (fun i => (g0.mem a i).isNone) (some (g0.mem kA))) g2
    (Function.update (Function.update (twoCalls isComplex cfgA cfgB a kA kB oA oB) false
      (restP oA none (fun i => (g0.mem a i).isNone) (some (g0.mem kA)))) true (.done (convolvend cfgB oB (g1.mem a) (g1.mem kB))))
    (by rw [Function.update_of_ne (by decide), Function.update_self])
  rw [q4, e1, ← convolvend_eq cfgA, hA] at r1 r3
  rw [r1] at s3
  refine ⟨List.replicate N1 false ++ (List.replicate N2 true ++ List.replicate N3 false), ?_⟩
  intro final
  have hf : final = (g3, Function.update (Function.update (Function.update (twoCalls isComplex cfgA cfgB a kA kB oA oB) false
      (restP oA none (fun i => (g0.mem a i).isNone) (some (g0.mem kA)))) true (.done (convolvend cfgB oB (g1.mem a) (g1.mem kB)))) false
      (.done (.ok outA))) := by
    show runSchedule _ _ = _
    rw [runSchedule_append, runSchedule_append, s1]
    dsimp only
    rw [s2]
    exact s3
  rw [hf]
  dsimp only
  refine ⟨Function.update_self _ _ _, ?_, ?_⟩
  · rw [Function.update_of_ne (by decide), Function.update_self, e1, e2]
    rfl
  · show g3.mem = g0.mem
    rw [r3]
    show Function.update g1.mem a _ = _
    rw [fillMask_restore, p3, Function.update_idem, Function.update_eq_self]

include ha hkA hkB in
/-- C125: … and there is a schedule in which the second call raises ValueError ("Encountered NaNs in convolve") although alone both calls
succeed. -/
theorem C125_race_error (hN : ∃ i, m a i = none) (outA outB : ConvOut D) (hA : convolvend cfgA oA (m a) (m kA) = .ok outA)
    (hB : convolvend cfgB oB (m a) (m kB) = .ok outB) :
    ∃ sched, let final := runSchedule sched (Shared.initial cfgA.hasFftw m, twoCalls isComplex cfgA cfgB a kA kB oA oB)
      final.2 false = .done (.ok outA) ∧ final.2 true = .done (.error .valueError) ∧ final.1.mem = m := by
  have hkb : kB ≠ a := fun e => by rw [e, ha] at hkB; cases hkB
  obtain ⟨-, hm0, hR0⟩ := initial_bound cfgA.hasFftw m
  generalize Shared.initial cfgA.hasFftw m = g0 at hm0 hR0 ⊢
  subst hm0
  obtain ⟨g1, p1, p2, p3⟩ := race_prefix isComplex cfgA a kA ha hkA g0 hR0
  have e1 : g1.mem a = Np.nanToNum (g0.mem a) := by rw [p3, Function.update_self]
  have e2 : g1.mem kB = g0.mem kB := by rw [p3, Function.update_of_ne hkb]
  obtain ⟨g2, q1, q2, q3⟩ := race_prefix isComplex cfgB a kB ha hkB g1 fun _ => p2
  have q4 : g2.mem = g1.mem := by
    rw [q3, Function.update_eq_iff]
    refine ⟨?_, fun _ _ => rfl⟩
    rw [e1, nanToNum_nanToNum]
  rw [e2] at q1
  obtain ⟨N1, s1⟩ := runSchedule_bind false (prefixP isComplex cfgA a kA) (fun x => restP oA x.1.1 x.1.2 x.2) g0 g1 _
    (twoCalls isComplex cfgA cfgB a kA kB oA oB) (convolvendP_split _ _ _ _ _) p1
  obtain ⟨N2, s2⟩ := runSchedule_bind true (prefixP isComplex cfgB a kB) (fun x => restP oB x.1.1 x.1.2 x.2) g1 g2 _
    (Function.update (twoCalls isComplex cfgA cfgB a kA kB oA oB) false (restP oA none (fun i => (g0.mem a i).isNone) (some (g0.mem kA))))
    ((Function.update_of_ne (by decide) _ _).trans (convolvendP_split _ _ _ _ _)) q1
  obtain ⟨g3, r1, r2, r3⟩ := race_rest a kA oA g2 q2 (fun i => (g0.mem a i).isNone) (g0.mem kA)
  rw [q4, e1, ← convolvend_eq cfgA, hA] at r1 r3
  have r4 : g3.mem = g0.mem := by
    rw [r3]
    show Function.update g1.mem a _ = _
    rw [fillMask_restore, p3, Function.update_idem, Function.update_eq_self]
  obtain ⟨N3, s3⟩ := runSchedule_run false (restP oA (none : LocalArr sh a) (fun i => (g0.mem a i).isNone) (some (g0.mem kA))) g2
    (Function.update (Function.update (twoCalls isComplex cfgA cfgB a kA kB oA oB) false
      (restP oA none (fun i => (g0.mem a i).isNone) (some (g0.mem kA)))) true
      (restP oB none (fun i => (g1.mem a i).isNone) (some (g0.mem kB))))
    (by rw [Function.update_of_ne (by decide), Function.update_self])
  rw [r1] at s3
  obtain ⟨g4, t1, t2, t3⟩ := race_rest a kB oB g3 r2 (fun i => (g1.mem a i).isNone) (g0.mem kB)
  have hfail : (do
        let kn ← convNormalize oB.normalizeKernel (Np.nanToNum (g0.mem kB))
        pureRest oB (g3.mem a) (fun i => (g1.mem a i).isNone) kn.1 kn.2) = (.error .valueError : Py (ConvOut D)) := by
    rw [r4]
    rw [convolvend_eq] at hB
    cases hn : convNormalize oB.normalizeKernel (Np.nanToNum (g0.mem kB)) with
    | error e => rw [hn] at hB; cases hB
    | ok kn =>
      rw [hn] at hB
      exact pureRest_nan oB _ _ _ _ _ _ outB hB hN
  rw [hfail] at t1 t3
  obtain ⟨N4, s4⟩ := runSchedule_run true (restP oB (none : LocalArr sh a) (fun i => (g1.mem a i).isNone) (some (g0.mem kB))) g3
    (Function.update (Function.update (Function.update (twoCalls isComplex cfgA cfgB a kA kB oA oB) false
      (restP oA none (fun i => (g0.mem a i).isNone) (some (g0.mem kA)))) true
      (restP oB none (fun i => (g1.mem a i).isNone) (some (g0.mem kB)))) false (.done (.ok outA)))
    (by rw [Function.update_of_ne (by decide), Function.update_self])
  rw [t1] at s4
  refine ⟨List.replicate N1 false ++ (List.replicate N2 true ++ (List.replicate N3 false ++ List.replicate N4 true)), ?_⟩
  intro final
  have hf : final = (g4, Function.update (Function.update (Function.update (Function.update (twoCalls isComplex cfgA cfgB a kA kB oA oB)
      false (restP oA none (fun i => (g0.mem a i).isNone) (some (g0.mem kA)))) true
      (restP oB none (fun i => (g1.mem a i).isNone) (some (g0.mem kB)))) false (.done (.ok outA))) true (.done (.error .valueError))) := by
    show runSchedule _ _ = _
    rw [runSchedule_append, runSchedule_append, runSchedule_append, s1]
    dsimp only
    rw [s2]
    dsimp only
    rw [s3]
    exact s4
  rw [hf]
  dsimp only
  refine ⟨?_, Function.update_self _ _ _, ?_⟩
  · rw [Function.update_of_ne (by decide), Function.update_self]
  · show g4.mem = g0.mem
    rw [t3]
    exact r4

end

end

/-! ### Concrete cases -/

/-- object 0 has 2 pixels, the others one -/
def caseShape (r : ℕ) (_ : Fin 1) : ℕ := if r = 0 then 2 else 1

instance (r : ℕ) (d : Fin 1) : NeZero (caseShape r d) := ⟨by unfold caseShape; split_ifs <;> decide⟩

/-- `[5, NaN]` and `[1]` -/
noncomputable def caseMem (v : Pix) : ∀ r, Idx (caseShape r) → CPix := fun r =>
  if r = 0 then toC fun i => if (i 0 : ℕ) = 0 then some 5 else v else toC fun _ => some 1

/-- `boundary='wrap', interpolate_nan=True, min_wt=0.5` -/
noncomputable def caseArgs (κ : Type) : ConvArgs κ := { boundary := .wrap, interpolateNan := true, minWt := 1 / 2 }

/-- the second pixel -/
def casePix : Idx (caseShape 0) := fun _ => (1 : Fin 2)

/-- the kernel's pixel -/
def caseKer : Idx (caseShape 1) := fun _ => (0 : Fin 1)

theorem case_result (cfg : FFTConfig) (v : Pix) :
    ∃ out : Idx (caseShape 0) → Pix, convolvend cfg (caseArgs _) (caseMem v 0) (caseMem v 1) = .ok (.real (caseShape 0) out) ∧
      out casePix = v := by
  have e0 : caseMem v 0 = toC (fun i : Idx (caseShape 0) => if (i 0 : ℕ) = 0 then some 5 else v) := if_pos rfl
  have e1 : caseMem v 1 = rArr (fun _ : Idx (caseShape 1) => (1 : ℝ)) := if_neg (by decide)
  have hu : ∀ f : Idx (caseShape 1) → ℝ, ∑ q, f q = f caseKer := by
    intro f
    have : ∀ q : Idx (caseShape 1), q = caseKer := by
      intro q
      funext d
      exact Subsingleton.elim (α := Fin 1) _ _
    exact Fintype.sum_eq_single _ fun q hq => absurd (this q) hq
  rw [e0, e1]
  refine ⟨_, C63_weighted cfg (caseArgs _) .wrap ⟨rfl, by intro d; unfold caseShape; decide⟩ rfl rfl 0 (by simp [caseArgs]) rfl (.inl rfl) _ _
    (hu _), ?_⟩
  rw [hu, hu]
  have hi : (fun d => Spec.wrap (caseShape 0 d) (((casePix d : ℕ) : ℤ) + ((caseShape 1 d / 2 : ℕ) : ℤ) - ((caseKer d : ℕ) : ℤ))
      : Idx (caseShape 0)) = casePix := by
    funext d
    obtain rfl : d = 0 := Subsingleton.elim _ _
    rfl
  have hs : ∀ (f : Idx (caseShape 0) → ℝ) (c : ℝ), Spec.Edge.wrap.seen f c casePix caseKer
      = f casePix := by
    intro f c
    exact congrArg f hi
  rw [hs, hs]
  have h1 : ((casePix 0 : Fin (caseShape 0 0)) : ℕ) ≠ 0 := Nat.one_ne_zero
  cases v with
  | none =>
    have : max 0 ((if (caseArgs (Idx (caseShape 1))).interpolateNan = true ∧ (if ((casePix 0 : Fin (caseShape 0 0)) : ℕ) = 0 then some (5 : ℝ) else none) = none
        then (0 : ℝ) else 1) * 1) = 0 := by
      rw [if_pos ⟨rfl, if_neg h1⟩]
      norm_num
    refine Eq.trans (congrArg (fun w => Spec.divide _ w (1 / 2)) this) ?_
    unfold Spec.divide
    norm_num
  | some z =>
    have : max 0 ((if (caseArgs (Idx (caseShape 1))).interpolateNan = true ∧ (if ((casePix 0 : Fin (caseShape 0 0)) : ℕ) = 0 then some (5 : ℝ) else some z) = none
        then (0 : ℝ) else 1) * 1) = 1 := by
      rw [if_neg (by rintro ⟨-, h⟩; rw [if_neg h1] at h; cases h)]
      norm_num
    refine Eq.trans (congrArg (fun w => Spec.divide _ w (1 / 2)) this) ?_
    unfold Spec.divide
    norm_num [Spec.nan0]
    rfl

/-- Two overlapping calls on `[5, NaN]`, both with `interpolate_nan=True`: alone the second pixel is NaN (its weight is below `min_wt`); in
some schedule the second call returns 0 there, and in another one it raises ValueError. -/
example (cfg : FFTConfig) :
    (∃ out, convolvend cfg (caseArgs _) (caseMem none 0) (caseMem none 1) = .ok (.real (caseShape 0) out) ∧ out casePix = none) ∧
    (∃ sched out, (runSchedule sched (Shared.initial cfg.hasFftw (caseMem none),
        twoCalls (fun r => decide (r = 0)) cfg cfg 0 1 1 (caseArgs _) (caseArgs _))).2 true = .done (.ok (.real (caseShape 0) out)) ∧
      out casePix = some 0) ∧
    ∃ sched, (runSchedule sched (Shared.initial cfg.hasFftw (caseMem none),
        twoCalls (fun r => decide (r = 0)) cfg cfg 0 1 1 (caseArgs _) (caseArgs _))).2 true = .done (.error .valueError) := by
  obtain ⟨out, h1, h2⟩ := case_result cfg none
  refine ⟨⟨out, h1, h2⟩, ?_, ?_⟩
  · obtain ⟨sched, -, h3, -⟩ := C125_race_silent (fun r => decide (r = 0)) cfg cfg (caseMem none) 0 1 1 (caseArgs _) (caseArgs _) rfl rfl rfl _ h1
    obtain ⟨out', h4, h5⟩ := case_result cfg (some 0)
    refine ⟨sched, out', ?_, h5⟩
    rw [h3, ← h4]
    have e : (fun i => some ((caseMem none 0 i).getD 0)) = caseMem (some 0) 0 := by
      funext i
      have e0 : ∀ v, caseMem v 0 = toC (fun i : Idx (caseShape 0) => if (i 0 : ℕ) = 0 then some 5 else v) := fun v => if_pos rfl
      rw [e0, e0]
      unfold toC
      by_cases h : (i 0 : ℕ) = 0
      · simp [h]
      · simp [h]
    rw [e]
    rfl
  · obtain ⟨sched, -, h3, -⟩ := C125_race_error (fun r => decide (r = 0)) cfg cfg (caseMem none) 0 1 1 (caseArgs _) (caseArgs _) rfl rfl rfl
      ⟨casePix, by
        have e0 : caseMem none 0 = toC (fun i : Idx (caseShape 0) => if (i 0 : ℕ) = 0 then some 5 else none) := if_pos rfl
        rw [e0]
        rfl⟩ _ _ h1 h1
    exact ⟨sched, h3⟩

/-- Two threads on a complex array without NaN, one asking for numpy's FFT and one for fftw with 4 threads, one step each in turn: both get
what they get alone. -/
example (m : ∀ r, Idx (caseShape r) → CPix) (hm : ∀ p, m 0 p ≠ none) :
    let call : Bool → ConvCall caseShape := fun b => ⟨0, 1, b, 4, caseArgs _⟩
    ∀ b, (runSchedule ((List.replicate 20 [false, true]).flatten)
      (Shared.initial true m, fun b => (call b).prog (fun r => decide (r = 0)) true)).2 b = .done ((call b).alone true m) := by
  intro call b
  refine ((C125_any_schedule true (fun r => decide (r = 0)) m call ?_ _).2 b).2 ?_
  · intro i r _ hr p
    obtain rfl : r = 0 := of_decide_eq_true hr
    exact hm p
  · cases b <;> decide

end ImgReg
