import Verif.Model.ConvShared
import Verif.Lemmas.Convolve

/-!
# Lemmas about `convolvend` as a program over shared state
-/

open Finset

namespace ImgReg

section
variable {ι : Type} [AddCommGroup ι] [Fintype ι] [DecidableEq ι] [FFTIndex ι]

theorem Backend.fft_eq (b : Backend) : (b.fft : (ι → CPix) → ι → CPix) = Np.fftn := by
  cases b with
  | numpy => rfl
  | fftw n => exact congrArg Prod.fst (convFfts_eq (ι := ι) ⟨true, false, n⟩)

theorem Backend.ifft_eq (b : Backend) : (b.ifft : (ι → CPix) → ι → CPix) = Np.ifftn := by
  cases b with
  | numpy => rfl
  | fftw n => exact congrArg Prod.snd (convFfts_eq (ι := ι) ⟨true, false, n⟩)

end

section
variable {D : ℕ}

/-- the weights, as a function -/
noncomputable def pureWeights {s n : Fin D → ℕ} [∀ d, NeZero (n d)] (sa : Fin D → ℤ × ℤ) (hsa : Np.SlicesFit n s sa)
    (interpolateNan ignoreEdgeZeros : Bool) (mask : Idx s → Bool) (kernfft : Idx n → CPix) (ksum : CPix) : Idx n → Pix :=
  let base : Pix := if ignoreEdgeZeros then some 0 else some 1
  let m : Idx s → ℝ := fun i => if mask i && interpolateNan then 1 else 0
  let bigimwt : Idx n → Pix := Np.putSlices sa hsa (fun _ => base) fun i => some (1 - m i)
  let wtsm := Np.ifftn (Np.divC (Np.mul (Np.fftn (toC bigimwt)) kernfft) ksum)
  let bigimwt := Np.putSlices sa hsa bigimwt (Np.getSlices sa hsa (Np.real wtsm))
  fun i => match bigimwt i with
    | some w => if w < 0 then some 0 else some w
    | Option.none => Option.none

open Classical in
/-- the rest of `convolvend`, as a function of the values -/
noncomputable def pureTail {s t : Fin D → ℕ} (o : ConvArgs (Idx t)) {n : Fin D → ℕ} [∀ d, NeZero (n d)] (sa sk : Fin D → ℤ × ℤ)
    (hsa : Np.SlicesFit n s sa) (hsk : Np.SlicesFit n t sk) (av : Idx s → CPix) (mask : Idx s → Bool) (kv : Idx t → CPix)
    (normalized : Bool) : Py (ConvOut D) :=
  let arrayfft := Np.fftn (Np.putSlices sa hsa (fun _ => convFill o.boundary o.fillValue) av)
  let kernfft := Np.fftn (Np.ifftshiftN (Np.putSlices sk hsk (fun _ => some 0) kv))
  let fftmult := Np.mul arrayfft kernfft
  if Np.anyNaN fftmult then .error .valueError
  else if o.returnFft then
    .ok (if o.fftshift then
        if o.crop then .cplx s (Np.getSlices sa hsa (Np.fftshiftN fftmult)) else .cplx n (Np.fftshiftN fftmult)
      else .cplx n fftmult)
  else
    let rifft :=
      if (o.interpolateNan || o.ignoreEdgeZeros) && normalized then
        convDivide (Np.ifftn fftmult) (pureWeights sa hsa o.interpolateNan o.ignoreEdgeZeros mask kernfft (Np.sumC kv)) o.minWt
      else Np.ifftn fftmult
    .ok (if o.crop then .real s (Np.real (Np.getSlices sa hsa rifft)) else .real n (Np.real rifft))

open Classical in
/-- what follows the normalisation, as a function of the values -/
noncomputable def pureRest {s t : Fin D → ℕ} [∀ d, NeZero (s d)] (o : ConvArgs (Idx t)) (av : Idx s → CPix) (mask : Idx s → Bool)
    (kv : Idx t → CPix) (normalized : Bool) : Py (ConvOut D) :=
  match convPads o.boundary o.psfPad o.fftPad with
  | none => .error .notImplementedError
  | some (psfPad, fftPad) =>
    if h : Np.SlicesFit (convNewShape s t psfPad fftPad) s (fun d => convSlice (convNewShape s t psfPad fftPad d) (s d)) ∧
        Np.SlicesFit (convNewShape s t psfPad fftPad) t (fun d => convSlice (convNewShape s t psfPad fftPad d) (t d)) then
      pureTail o _ _ h.1 h.2 av mask kv normalized
    else .error .valueError

theorem convolvend_eq {s t : Fin D → ℕ} [∀ d, NeZero (s d)] (cfg : FFTConfig) (o : ConvArgs (Idx t)) (array : Idx s → CPix)
    (kernel : Idx t → CPix) :
    convolvend cfg o array kernel = (do
      let kn ← convNormalize o.normalizeKernel (Np.nanToNum kernel)
      pureRest o (Np.nanToNum array) (fun i => (array i).isNone) kn.1 kn.2) := by
  unfold convolvend pureRest
  dsimp only
  cases convNormalize o.normalizeKernel (Np.nanToNum kernel) with
  | error e => rfl
  | ok kn =>
    obtain ⟨k1, nrm⟩ := kn
    simp only [bind, Except.bind]
    cases convPads o.boundary o.psfPad o.fftPad with
    | none => rfl
    | some pf =>
      obtain ⟨p, f⟩ := pf
      simp only
      by_cases h : Np.SlicesFit (convNewShape s t p f) s (fun d => convSlice (convNewShape s t p f d) (s d)) ∧
        Np.SlicesFit (convNewShape s t p f) t (fun d => convSlice (convNewShape s t p f d) (t d))
      · rw [dif_pos h, dif_pos h]
        unfold pureTail convWeights pureWeights
        rw [convFfts_eq cfg]; dsimp only
        split_ifs <;> rfl
      · rw [dif_neg h, dif_neg h]

end

section
variable {D : ℕ} {sh : ℕ → Fin D → ℕ}

/-! ### calls that are not disturbed by others -/

/-- The call needs at most `n` more steps and ends with `x`, whatever the globals are bound to and provided the arrays are `m0`; it leaves
the arrays alone. `fb`, `ib`: the globals may be used. -/
inductive Safe (m0 : ∀ r, Idx (sh r) → CPix) {α : Type} (x : Py α) : Bool → Bool → ℕ → Prog sh α → Prop where
  | done (fb ib : Bool) (n : ℕ) : Safe m0 x fb ib n (.done x)
  | setFft {fb ib : Bool} {n : ℕ} (c : Backend) {k : Prog sh α} : Safe m0 x true ib n k → Safe m0 x fb ib (n + 1) (.setFft c k)
  | setIfft {fb ib : Bool} {n : ℕ} (c : Backend) {k : Prog sh α} : Safe m0 x fb true n k → Safe m0 x fb ib (n + 1) (.setIfft c k)
  | getFft {ib : Bool} {n : ℕ} {k : Backend → Prog sh α} : (∀ c, Safe m0 x true ib n (k c)) → Safe m0 x true ib (n + 1) (.getFft k)
  | getIfft {fb : Bool} {n : ℕ} {k : Backend → Prog sh α} : (∀ c, Safe m0 x fb true n (k c)) → Safe m0 x fb true (n + 1) (.getIfft k)
  | read {fb ib : Bool} {n : ℕ} (r : ℕ) {k : (Idx (sh r) → CPix) → Prog sh α} :
      Safe m0 x fb ib n (k (m0 r)) → Safe m0 x fb ib (n + 1) (.read r k)
  | fill {fb ib : Bool} {n : ℕ} (r : ℕ) (mask : Idx (sh r) → Bool) (v : CPix) {k : Prog sh α} :
      fillMask mask v (m0 r) = m0 r → Safe m0 x fb ib n k → Safe m0 x fb ib (n + 1) (.fill r mask v k)

variable {m0 : ∀ r, Idx (sh r) → CPix}

theorem Safe.mono {α : Type} {x : Py α} {fb ib : Bool} {n : ℕ} {p : Prog sh α} (h : Safe m0 x fb ib n p) :
    ∀ {fb' ib' : Bool} {n' : ℕ}, (fb = true → fb' = true) → (ib = true → ib' = true) → n ≤ n' → Safe m0 x fb' ib' n' p := by
  induction h with
  | done fb ib n => intros; exact .done _ _ _
  | setFft c _ ih =>
    intro fb' ib' n' h1 h2 h3
    obtain ⟨m, rfl⟩ : ∃ m, n' = m + 1 := ⟨n' - 1, by omega⟩
    exact .setFft c (ih (fun _ => rfl) h2 (by omega))
  | setIfft c _ ih =>
    intro fb' ib' n' h1 h2 h3
    obtain ⟨m, rfl⟩ : ∃ m, n' = m + 1 := ⟨n' - 1, by omega⟩
    exact .setIfft c (ih h1 (fun _ => rfl) (by omega))
  | getFft _ ih =>
    intro fb' ib' n' h1 h2 h3
    obtain ⟨m, rfl⟩ : ∃ m, n' = m + 1 := ⟨n' - 1, by omega⟩
    cases h1 rfl
    exact .getFft fun c => ih c (fun _ => rfl) h2 (by omega)
  | getIfft _ ih =>
    intro fb' ib' n' h1 h2 h3
    obtain ⟨m, rfl⟩ : ∃ m, n' = m + 1 := ⟨n' - 1, by omega⟩
    cases h2 rfl
    exact .getIfft fun c => ih c h1 (fun _ => rfl) (by omega)
  | read r _ ih =>
    intro fb' ib' n' h1 h2 h3
    obtain ⟨m, rfl⟩ : ∃ m, n' = m + 1 := ⟨n' - 1, by omega⟩
    exact .read r (ih h1 h2 (by omega))
  | fill r mask v e _ ih =>
    intro fb' ib' n' h1 h2 h3
    obtain ⟨m, rfl⟩ : ∃ m, n' = m + 1 := ⟨n' - 1, by omega⟩
    exact .fill r mask v e (ih h1 h2 (by omega))

theorem Safe.bind {α β : Type} {a : α} {x : Py β} {fb ib : Bool} {n m : ℕ} {p : Prog sh α} {f : α → Prog sh β}
    (h : Safe m0 (.ok a) fb ib n p) (hf : Safe m0 x fb ib m (f a)) : Safe m0 x fb ib (n + m) (p >>= f) := by
  show Safe m0 x fb ib (n + m) (p.bind f)
  induction h with
  | done fb ib n => exact hf.mono id id (by omega)
  | setFft c _ ih =>
    rw [Nat.add_right_comm]
    exact .setFft c (ih (hf.mono (fun _ => rfl) id le_rfl))
  | setIfft c _ ih =>
    rw [Nat.add_right_comm]
    exact .setIfft c (ih (hf.mono id (fun _ => rfl) le_rfl))
  | getFft _ ih => rw [Nat.add_right_comm]; exact .getFft fun c => ih c hf
  | getIfft _ ih => rw [Nat.add_right_comm]; exact .getIfft fun c => ih c hf
  | read r _ ih => rw [Nat.add_right_comm]; exact .read r (ih hf)
  | fill r mask v e _ ih => rw [Nat.add_right_comm]; exact .fill r mask v e (ih hf)

theorem Safe.bind_error {α β : Type} {e : PyErr} {fb ib : Bool} {n : ℕ} {p : Prog sh α} {f : α → Prog sh β}
    (h : Safe m0 (.error e) fb ib n p) : Safe m0 (.error e) fb ib n (p >>= f) := by
  show Safe m0 (.error e) fb ib n (p.bind f)
  induction h with
  | done fb ib n => exact .done _ _ _
  | setFft c _ ih => exact .setFft c ih
  | setIfft c _ ih => exact .setIfft c ih
  | getFft _ ih => exact .getFft ih
  | getIfft _ ih => exact .getIfft ih
  | read r _ ih => exact .read r ih
  | fill r mask v e _ ih => exact .fill r mask v e ih

/-- what holds of the globals -/
def Shared.Bound (g : Shared sh) (fb ib : Bool) : Prop := (fb = true → g.fftn.isSome) ∧ (ib = true → g.ifftn.isSome)

theorem Safe.step {α : Type} {x : Py α} {fb ib : Bool} {n : ℕ} {p : Prog sh α} (h : Safe m0 x fb ib n p) (g : Shared sh) (hg : g.mem = m0)
    (hb : g.Bound fb ib) :
    (p.step g).1.mem = m0 ∧ (g.fftn.isSome → (p.step g).1.fftn.isSome) ∧ (g.ifftn.isSome → (p.step g).1.ifftn.isSome) ∧
      ∃ fb' ib', (p.step g).1.Bound fb' ib' ∧ Safe m0 x fb' ib' (n - 1) (p.step g).2 := by
  cases h with
  | done => exact ⟨hg, id, id, fb, ib, hb, .done _ _ _⟩
  | setFft c h => exact ⟨hg, fun _ => rfl, id, true, ib, ⟨fun _ => rfl, hb.2⟩, h⟩
  | setIfft c h => exact ⟨hg, id, fun _ => rfl, fb, true, ⟨hb.1, fun _ => rfl⟩, h⟩
  | @getFft _ _ k h =>
    obtain ⟨c, hc⟩ := Option.isSome_iff_exists.1 (hb.1 rfl)
    have e : (Prog.getFft k).step g = (g, k c) := by unfold Prog.step; rw [hc]
    rw [e]
    exact ⟨hg, id, id, true, ib, hb, h c⟩
  | @getIfft _ _ k h =>
    obtain ⟨c, hc⟩ := Option.isSome_iff_exists.1 (hb.2 rfl)
    have e : (Prog.getIfft k).step g = (g, k c) := by unfold Prog.step; rw [hc]
    rw [e]
    exact ⟨hg, id, id, fb, true, hb, h c⟩
  | read r h =>
    refine ⟨hg, id, id, fb, ib, hb, ?_⟩
    subst hg
    exact h
  | fill r mask v e h =>
    refine ⟨?_, id, id, fb, ib, hb, h⟩
    subst hg
    show Function.update g.mem r (fillMask mask v (g.mem r)) = g.mem
    rw [e, Function.update_eq_self]

theorem runSchedule_safe {ι α : Type} [DecidableEq ι] (x : ι → Py α) (sched : List ι) :
    ∀ (c : Shared sh × (ι → Prog sh α)) (N : ι → ℕ), c.1.mem = m0 →
      (∀ i, ∃ fb ib, c.1.Bound fb ib ∧ Safe m0 (x i) fb ib (N i) (c.2 i)) →
      (runSchedule sched c).1.mem = m0 ∧
      ∀ i, ∃ fb ib, (runSchedule sched c).1.Bound fb ib ∧ Safe m0 (x i) fb ib (N i - sched.count i) ((runSchedule sched c).2 i) := by
  induction sched with
  | nil => intro c N h1 h2; exact ⟨h1, h2⟩
  | cons j rest ih =>
    intro c N h1 h2
    obtain ⟨fb, ib, hb, hs⟩ := h2 j
    obtain ⟨k1, k2, k3, fb', ib', k4, k5⟩ := hs.step c.1 h1 hb
    obtain ⟨r1, r2⟩ := ih (((c.2 j).step c.1).1, Function.update c.2 j ((c.2 j).step c.1).2)
      (fun i => if i = j then N i - 1 else N i) k1 (by
        intro i
        by_cases hij : i = j
        · subst hij
          refine ⟨fb', ib', k4, ?_⟩
          simp only [Function.update_self, if_true]
          exact k5
        · obtain ⟨f1, f2, hb', hs'⟩ := h2 i
          refine ⟨f1, f2, ⟨fun h => k2 (hb'.1 h), fun h => k3 (hb'.2 h)⟩, ?_⟩
          simp only [Function.update_of_ne hij, if_neg hij]
          exact hs')
    refine ⟨r1, fun i => ?_⟩
    obtain ⟨f1, f2, hb', hs'⟩ := r2 i
    refine ⟨f1, f2, hb', ?_⟩
    have e : (if i = j then N i - 1 else N i) - rest.count i = N i - (j :: rest).count i := by
      by_cases hij : i = j
      · subst hij; simp; omega
      · rw [if_neg hij, List.count_cons_of_ne (Ne.symm hij)]
    rw [← e]
    exact hs'

end

end ImgReg
