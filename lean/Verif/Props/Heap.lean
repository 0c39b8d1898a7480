import Verif.Model.Heap
import Verif.Lemmas.Correlate
import Verif.Lemmas.Register

/-!
# Property C110: the arrays of the caller are not modified
-/

open Finset

namespace ImgReg

variable {ny nx : ℕ}

open ArrM

theorem run_bind {α β : Type} (x : ArrM ny nx α) (f : α → ArrM ny nx β) (h : ArrHeap ny nx) :
    (x >>= f) h = match x h with
      | (.ok a, h') => f a h'
      | (.error e, h') => (.error e, h') := rfl

theorem run_pure {α : Type} (a : α) (h : ArrHeap ny nx) : (pure a : ArrM ny nx α) h = (.ok a, h) := rfl

theorem run_alloc (v : Fin ny × Fin nx → Pix) (h : ArrHeap ny nx) :
    alloc v h = (.ok h.size, ⟨h.size + 1, fun r => if r = h.size then v else h.arr r⟩) := rfl

theorem run_read (r : ℕ) (h : ArrHeap ny nx) : read r h = (.ok (h.arr r), h) := rfl

theorem run_write (r : ℕ) (v : Fin ny × Fin nx → Pix) (h : ArrHeap ny nx) :
    write r v h = (.ok (), ⟨h.size, fun q => if q = r then v else h.arr q⟩) := rfl

theorem run_lift {α : Type} (x : Py α) (h : ArrHeap ny nx) : (lift x : ArrM ny nx α) h = (x, h) := rfl

theorem run_true {α : Type} (x y : ArrM ny nx α) (h : ArrHeap ny nx) : (if true = true then x else y) h = x h := rfl

theorem run_false {α : Type} (x y : ArrM ny nx α) (h : ArrHeap ny nx) : (if false = true then x else y) h = y h := rfl

/-- the cross-correlation has no NaN -/
theorem correlate2dB_finite {my mx : ℕ} (cfg : FFTConfig) (bd : CorrBoundary) (ah : Bool) (a : Fin ny × Fin nx → Pix)
    (b : Fin my × Fin mx → Pix) (t : Fin ny × Fin nx → Pix) (h : correlate2dB cfg bd ah a b = .ok t) :
    ∃ c, t = realArr c := by
  unfold correlate2dB convolveFft convolveFftN at h
  split_ifs at h with h1 h2
  have : NeZero (bd.newShape (ny, nx) (my, mx)).1 := ⟨h2.2.1⟩
  have : NeZero (bd.newShape (ny, nx) (my, mx)).2 := ⟨h2.2.2⟩
  simp only [Except.ok.injEq, getFfts_eq, Np.fftn_cArr, Np.mul_cArr, Np.ifftn_cArr, Np.real_cArr] at h
  subst h
  exact ⟨_, rfl⟩

/-- `h'` has all the arrays of `h`, with the same contents. -/
def ArrHeap.Keeps (h h' : ArrHeap ny nx) : Prop := h.size ≤ h'.size ∧ ∀ r, r < h.size → h'.arr r = h.arr r

theorem nanToNum_real (x : Fin ny × Fin nx → Pix) : Np.nanToNum x = realArr (finiteVals x) := rfl

theorem finiteVals_real (x : Fin ny × Fin nx → ℝ) : finiteVals (realArr x) = x := rfl

/-- what `a[e==0] = v` leaves in `a` -/
noncomputable def zeroSet (e a : Fin ny × Fin nx → Pix) (v : ℝ) : Fin ny × Fin nx → Pix :=
  fun i => open Classical in if e i = some 0 then some v else a i

theorem run_setWhereZero (a e : ℕ) (v : ℝ) (h : ArrHeap ny nx) :
    setWhereZeroH a e v h = (.ok (), ⟨h.size, fun q => if q = a then zeroSet (h.arr e) (h.arr a) v else h.arr q⟩) := rfl

theorem zeroSet_real (e a : Fin ny × Fin nx → ℝ) (v : ℝ) :
    zeroSet (realArr e) (realArr a) v = realArr fun i => if e i = 0 then v else a i := by
  funext i
  simp only [zeroSet, realArr, Option.some.injEq]
  split_ifs <;> rfl

/-- an array object of the result: new, and with these contents -/
def ArrHeap.Fresh (h h' : ArrHeap ny nx) (r : ℕ) (v : Fin ny × Fin nx → ℝ) : Prop := h.size ≤ r ∧ r < h'.size ∧ h'.arr r = realArr v

/-- what the caller finds in the heap is the result `m` -/
def ArrHeap.Holds (h h' : ArrHeap ny nx) (m : Chi2Map ny nx) (r : Chi2Refs) : Prop :=
  h.Fresh h' r.chi2 m.chi2 ∧ r.term1 = m.term1 ∧ h.Fresh h' r.term2 m.term2 ∧ r.chi2 ≠ r.term2 ∧
    match m.term3, r.term3 with
    | .scalar t, .inl t' => t' = t
    | .image t, .inr q => h.Fresh h' q t ∧ q ≠ r.chi2 ∧ q ≠ r.term2
    | _, _ => False

/-- The value `v` of the map and the run `p` on array objects agree. -/
def ArrHeap.Agree (h : ArrHeap ny nx) (v : Py (Chi2Map ny nx)) (p : Py Chi2Refs × ArrHeap ny nx) : Prop :=
  h.Keeps p.2 ∧
    match v, p.1 with
    | .error e, .error e' => e' = e
    | .ok m, .ok r => h.Holds p.2 m r
    | _, _ => False

/-- the `err` argument as a value -/
def ErrRef.val (h : ArrHeap ny nx) : ErrRef → ErrArg ny nx
  | .none => .none
  | .scalar s => .scalar s
  | .ref r => .image (h.arr r)

theorem ArrHeap.Keeps.refl (h : ArrHeap ny nx) : h.Keeps h := ⟨le_rfl, fun _ _ => rfl⟩

theorem ArrHeap.Keeps.trans {h h' h'' : ArrHeap ny nx} (a : h.Keeps h') (b : h'.Keeps h'') : h.Keeps h'' :=
  ⟨a.1.trans b.1, fun r hr => (b.2 r (by have := a.1; omega)).trans (a.2 r hr)⟩

theorem ArrHeap.Keeps.alloc (h : ArrHeap ny nx) (v : Fin ny × Fin nx → Pix) :
    h.Keeps ⟨h.size + 1, fun r => if r = h.size then v else h.arr r⟩ :=
  ⟨by simp, fun r hr => if_neg (by omega)⟩

theorem zeromeanH_run (zm : Bool) (r : ℕ) (h : ArrHeap ny nx) (hr : r < h.size) :
    ∃ r' h', zeromeanH zm r h = (.ok r', h') ∧ h.Keeps h' ∧ r' < h'.size ∧
      h'.arr r' = if zm then subPix (h.arr r) (nanMean (h.arr r)) else h.arr r := by
  cases zm
  · exact ⟨r, h, rfl, .refl h, hr, rfl⟩
  · refine ⟨h.size, _, rfl, .alloc h _, by simp, ?_⟩
    simp

set_option linter.unusedSimpArgs false in
theorem chi2nMapH_agree (cfg : FFTConfig) (bd : CorrBoundary) (h : ArrHeap ny nx) (im1 im2 : ℕ) (err : ErrRef) (zm red ah : Bool)
    (h1 : im1 < h.size) (h2 : im2 < h.size) (he : ∀ r, err = .ref r → r < h.size) :
    h.Agree (chi2nMapBodyB cfg bd (h.arr im1) (h.arr im2) (err.val h) zm red ah) (chi2nMapH cfg bd im1 im2 err zm red ah h) := by
  obtain ⟨r1, g1, e1, k1, l1, v1⟩ := zeromeanH_run zm im1 h h1
  obtain ⟨r2, g, e2, k2, l2, v2⟩ := zeromeanH_run zm im2 g1 (by have := k1.1; omega)
  rw [k1.2 _ h2] at v2
  rw [← k2.2 _ l1] at v1
  have kk := k1.trans k2
  have l1' : r1 < g.size := by have := k2.1; omega
  have b10 : r1 ≠ g.size := by omega
  have b20 : r2 ≠ g.size := by omega
  have o : ∀ k, g.size + (k + 1) ≠ g.size := fun k => by omega
  have o' : ∀ k, g.size ≠ g.size + (k + 1) := fun k => by omega
  unfold chi2nMapH chi2nMapBodyB
  simp only [run_bind, e1, e2, nanToNumH, run_alloc, run_read, ← v1, ← v2]
  cases err with
  | none =>
    cases red <;>
    simp only [ErrRef.val, run_bind, run_alloc, run_read, run_pure, run_lift, run_true, run_false, run_write, Bool.false_eq_true,
        nanToNum_real, finiteVals_real, if_true, if_false, Nat.add_assoc, Nat.reduceAdd, b10, b20, o, o', Nat.add_eq_left, Nat.add_right_inj] <;>
    simp only [bind, Except.bind, pure, Except.pure]
    all_goals
      generalize hc : correlate2dB cfg bd ah _ _ = x
      rcases x with er | t
      · exact ⟨kk.trans ⟨by simp, fun r hr => by dsimp only; repeat rw [if_neg (by omega)]⟩, rfl⟩
      obtain ⟨c, rfl⟩ := correlate2dB_finite _ _ _ _ _ _ hc
      have := kk.1
      refine ⟨kk.trans ⟨by dsimp only; omega, fun r hr => by dsimp only; repeat rw [if_neg (by omega)]⟩,
        ⟨by dsimp only; omega, by dsimp only; omega, by simp [realArr, finiteVals, Term3.at]; try rfl⟩, rfl,
        ⟨by dsimp only; omega, by dsimp only; omega, by simp [realArr, finiteVals, Term3.at]; try rfl⟩, by dsimp only; omega, rfl⟩
  | scalar s =>
    cases red <;>
    simp only [ErrRef.val, run_bind, run_alloc, run_read, run_pure, run_lift, run_true, run_false, run_write, Bool.false_eq_true,
        nanToNum_real, finiteVals_real, if_true, if_false, Nat.add_assoc, Nat.reduceAdd, b10, b20, o, o', Nat.add_eq_left, Nat.add_right_inj] <;>
    simp only [bind, Except.bind, pure, Except.pure]
    all_goals
      generalize hc : correlate2dB cfg bd ah _ _ = x
      rcases x with er | t
      · exact ⟨kk.trans ⟨by simp, fun r hr => by dsimp only; repeat rw [if_neg (by omega)]⟩, rfl⟩
      obtain ⟨c, rfl⟩ := correlate2dB_finite _ _ _ _ _ _ hc
      have := kk.1
      refine ⟨kk.trans ⟨by dsimp only; omega, fun r hr => by dsimp only; repeat rw [if_neg (by omega)]⟩,
        ⟨by dsimp only; omega, by dsimp only; omega, by simp [realArr, finiteVals, Term3.at]; try rfl⟩, rfl,
        ⟨by dsimp only; omega, by dsimp only; omega, by simp [realArr, finiteVals, Term3.at]; try rfl⟩, by dsimp only; omega, rfl⟩
  | ref e =>
    have h3 := he e rfl
    have hE : g.arr e = h.arr e := kk.2 e h3
    have c10 : e ≠ g.size := by have := kk.1; omega
    have c1 : ∀ k, e ≠ g.size + k := by have := kk.1; omega
    cases red
    all_goals
      simp only [ErrRef.val, run_true, run_false, run_write, Bool.false_eq_true, run_bind, run_alloc, run_read, run_pure, run_lift,
          nanToNum_real, finiteVals_real, if_true, if_false, Nat.add_assoc, Nat.reduceAdd, b10, b20, o, o', Nat.add_eq_left, Nat.add_right_inj,
          run_setWhereZero, c10, c1, hE, zeroSet_real, Nat.reduceEqDiff]
      simp only [bind, Except.bind, pure, Except.pure]
      generalize hc : correlate2dB cfg bd ah (realArr _) (realArr _) = x
      generalize hc2 : correlate2dB cfg bd ah (realArr _) (realArr _) = x2
      obtain rfl : x = x2 := hc.symm.trans hc2
      rcases x with er | t
      · exact ⟨kk.trans ⟨by simp, fun r hr => by dsimp only; repeat rw [if_neg (by omega)]⟩, rfl⟩
      clear hc2
      obtain ⟨t, rfl⟩ := correlate2dB_finite _ _ _ _ _ _ hc
      simp only [run_bind, run_alloc, run_read, run_pure, run_lift,
          nanToNum_real, finiteVals_real, if_true, if_false, Nat.add_assoc, Nat.reduceAdd, b10, b20, o, o', Nat.add_eq_left, Nat.add_right_inj,
          run_setWhereZero, c10, c1, hE, zeroSet_real, Nat.reduceEqDiff]
      clear hc
      generalize hc : correlate2dB cfg bd ah (realArr _) (realArr _) = x
      generalize hc2 : correlate2dB cfg bd ah (realArr _) (realArr _) = x2
      obtain rfl : x = x2 := hc.symm.trans hc2
      clear hc2
      rcases x with er | c
      · exact ⟨kk.trans ⟨by simp, fun r hr => by dsimp only; repeat rw [if_neg (by omega)]⟩, rfl⟩
      obtain ⟨c, rfl⟩ := correlate2dB_finite _ _ _ _ _ _ hc
      clear hc
      have := kk.1
      simp only [run_true, run_false, run_write, run_bind, run_alloc, run_read, run_pure, run_lift,
          nanToNum_real, finiteVals_real, if_true, if_false, Nat.add_assoc, Nat.reduceAdd, b10, b20, o, o', Nat.add_eq_left, Nat.add_right_inj,
          run_setWhereZero, c10, c1, hE, zeroSet_real, Nat.reduceEqDiff]
      refine ⟨kk.trans ⟨by dsimp only; omega, fun r hr => by dsimp only; repeat rw [if_neg (by omega)]⟩,
          ⟨by dsimp only; omega, by dsimp only; omega, by simp [realArr, finiteVals, Term3.at]; try rfl⟩, rfl,
          ⟨by dsimp only; omega, by dsimp only; omega, by simp [realArr, finiteVals, Term3.at]; try rfl⟩, by dsimp only; omega,
          ⟨by omega, by dsimp only; omega, by simp [realArr, finiteVals]; try rfl⟩, by dsimp only; omega, by dsimp only; omega⟩

theorem chi2nMapB_all (cfg : FFTConfig) (bd : CorrBoundary) (im1 im2 : Fin ny × Fin nx → Pix) (err : ErrArg ny nx) (zm red ah : Bool) :
    chi2nMapB cfg bd im1 im2 err zm true red ah = (chi2nMapBodyB cfg bd im1 im2 err zm red ah).map Chi2Ret.all := by
  rw [chi2nMapB_same]
  cases chi2nMapBodyB cfg bd im1 im2 err zm red ah <;> rfl

/-- C110: `chi2n_map` leaves every array that exists when it is called as it was, also when it raises and also when the same array is passed as more
than one of `im1`, `im2`, `err`; what it returns are new arrays, none of them shared, with the contents that the value model gives. -/
theorem C110_chi2n_map (cfg : FFTConfig) (bd : CorrBoundary) (h : ArrHeap ny nx) (im1 im2 : ℕ) (err : ErrRef) (zm red ah : Bool)
    (h1 : im1 < h.size) (h2 : im2 < h.size) (he : ∀ r, err = .ref r → r < h.size) :
    (∀ r, r < h.size → (chi2nMapH cfg bd im1 im2 err zm red ah h).2.arr r = h.arr r) ∧
    (∀ e, (chi2nMapH cfg bd im1 im2 err zm red ah h).1 = .error e ↔
      chi2nMapB cfg bd (h.arr im1) (h.arr im2) (err.val h) zm true red ah = .error e) ∧
    ∀ r, (chi2nMapH cfg bd im1 im2 err zm red ah h).1 = .ok r →
      ∃ m, chi2nMapB cfg bd (h.arr im1) (h.arr im2) (err.val h) zm true red ah = .ok (.all m) ∧
        h.Holds (chi2nMapH cfg bd im1 im2 err zm red ah h).2 m r := by
  obtain ⟨hk, hm⟩ := chi2nMapH_agree cfg bd h im1 im2 err zm red ah h1 h2 he
  rw [chi2nMapB_all]
  generalize chi2nMapBodyB cfg bd (h.arr im1) (h.arr im2) (err.val h) zm red ah = v at *
  generalize chi2nMapH cfg bd im1 im2 err zm red ah h = p at *
  obtain ⟨q, h'⟩ := p
  rcases v with e | m <;> rcases q with e' | r <;> simp only at hm
  · subst hm
    exact ⟨hk.2, fun e => by simp [Except.map], fun r hr => by simp at hr⟩
  · refine ⟨hk.2, fun e => by simp [Except.map], fun q hq => ⟨m, rfl, ?_⟩⟩
    simp only [Except.ok.injEq] at hq
    subst hq
    exact hm

theorem chi2ShiftB_rest [NeZero ny] [NeZero nx] (cfg : FFTConfig) (bd : CorrBoundary) (st : Stats) (im1 im2 : Fin ny × Fin nx → Pix)
    (err : ErrArg ny nx) (us : UsFactor) (zm : Bool) (nf : ℝ) (vb re rc : Bool) (mas : ℕ) (mns : ℝ) (ah : Bool) :
    chi2ShiftB cfg bd st im1 im2 err us zm nf vb re rc mas mns ah
      = (chi2nMapBodyB cfg bd im1 im2 err zm false ah >>= fun m => chi2ShiftRest cfg st m.chi2 us nf vb re rc mas mns) := by
  unfold chi2ShiftB
  rw [chi2nMapB_all]
  cases chi2nMapBodyB cfg bd im1 im2 err zm false ah <;> rfl

/-- C110: `chi2_shift` leaves the caller's arrays as they were and returns what it returns for their values. -/
theorem C110_chi2_shift [NeZero ny] [NeZero nx] (cfg : FFTConfig) (bd : CorrBoundary) (st : Stats) (h : ArrHeap ny nx) (im1 im2 : ℕ) (err : ErrRef)
    (us : UsFactor) (zm : Bool) (nf : ℝ) (vb re rc : Bool) (mas : ℕ) (mns : ℝ) (ah : Bool)
    (h1 : im1 < h.size) (h2 : im2 < h.size) (he : ∀ r, err = .ref r → r < h.size) :
    (∀ r, r < h.size → (chi2ShiftH cfg bd st im1 im2 err us zm nf vb re rc mas mns ah h).2.arr r = h.arr r) ∧
    (chi2ShiftH cfg bd st im1 im2 err us zm nf vb re rc mas mns ah h).1
      = chi2ShiftB cfg bd st (h.arr im1) (h.arr im2) (err.val h) us zm nf vb re rc mas mns ah := by
  obtain ⟨hk, hm⟩ := chi2nMapH_agree cfg bd h im1 im2 err zm false ah h1 h2 he
  rw [chi2ShiftB_rest]
  unfold chi2ShiftH
  simp only [run_bind]
  generalize chi2nMapBodyB cfg bd (h.arr im1) (h.arr im2) (err.val h) zm false ah = v at *
  generalize chi2nMapH cfg bd im1 im2 err zm false ah h = p at *
  obtain ⟨q, h'⟩ := p
  rcases v with e | m <;> rcases q with e' | r <;> simp only at hm
  · subst hm
    exact ⟨hk.2, rfl⟩
  · have k2 : h.size ≤ h'.size := hk.1
    simp only [nanToNumH, run_bind, run_read, run_alloc, run_lift]
    obtain ⟨⟨f1, f2, f3⟩, -⟩ := hm
    refine ⟨fun r hr => ?_, ?_⟩
    · rw [if_neg (by omega), if_neg (by omega)]
      exact hk.2 r hr
    · rw [if_neg (by omega), if_neg (by omega), f3, finiteVals_real]
      rfl

theorem denanCopyH_run (r : ℕ) (h : ArrHeap ny nx) (hr : r < h.size) :
    ∃ r' h', denanCopyH r h = (.ok r', h') ∧ h.Keeps h' ∧ r' < h'.size ∧ h'.arr r' = Np.nanToNum (h.arr r) := by
  classical
  unfold denanCopyH
  simp only [run_bind, run_read]
  split_ifs with hn
  · simp only [run_bind, run_alloc, run_read, run_write, run_pure, if_true]
    refine ⟨_, _, rfl, ⟨by simp, fun q hq => ?_⟩, by simp, ?_⟩
    · dsimp only
      rw [if_neg (by omega), if_neg (by omega)]
    · dsimp only
      rw [if_pos rfl]
      funext i
      cases hv : h.arr r i <;> simp [Np.nanToNum, hv]
  · refine ⟨r, h, rfl, .refl h, hr, ?_⟩
    funext i
    cases hv : h.arr r i with
    | none => exact absurd ⟨i, hv⟩ hn
    | some v => simp [Np.nanToNum, hv]

/-- C110: `register_images` leaves the caller's arrays as they were and returns what it returns for their values. -/
theorem C110_register_images [NeZero ny] [NeZero nx] (cfg : FFTConfig) (h : ArrHeap ny nx) (im1 im2 us : ℕ) (rr re zm : Bool) (mo : Option ℕ)
    (h1 : im1 < h.size) (h2 : im2 < h.size) :
    (∀ r, r < h.size → (registerImagesH cfg im1 im2 us rr re zm mo h).2.arr r = h.arr r) ∧
    (registerImagesH cfg im1 im2 us rr re zm mo h).1 = registerImages cfg (h.arr im1) (h.arr im2) us rr re zm mo := by
  obtain ⟨r1, g1, e1, k1, l1, v1⟩ := zeromeanH_run zm im1 h h1
  obtain ⟨r2, g2, e2, k2, l2, v2⟩ := zeromeanH_run zm im2 g1 (by have := k1.1; omega)
  obtain ⟨r3, g3, e3, k3, l3, v3⟩ := denanCopyH_run r1 g2 (by have := k2.1; omega)
  obtain ⟨r4, g4, e4, k4, l4, v4⟩ := denanCopyH_run r2 g3 (by have := k3.1; omega)
  rw [k1.2 _ h2] at v2
  rw [k2.2 _ l1, v1] at v3
  rw [k3.2 _ l2, v2] at v4
  rw [← k4.2 _ l3] at v3
  unfold registerImagesH
  simp only [run_bind, run_read, run_lift, e1, e2, e3, e4]
  refine ⟨(((k1.trans k2).trans k3).trans k4).2, ?_⟩
  unfold registerImages
  rw [dif_pos ⟨rfl, rfl⟩, v3, v4]
  rfl

/-- C110: `cross_correlation_shifts` leaves the caller's arrays as they were and returns what it returns for their values. -/
theorem C110_cross_correlation_shifts [NeZero ny] [NeZero nx] (cfg : FFTConfig) (agpy : Agpy ny nx) (h : ArrHeap ny nx) (im1 im2 : ℕ)
    (errim1 errim2 mo : Option ℕ) (gf re zm ah : Bool) (h1 : im1 < h.size) (h2 : im2 < h.size)
    (he1 : ∀ r ∈ errim1, r < h.size) (he2 : ∀ r ∈ errim2, r < h.size) :
    (∀ r, r < h.size → (ccShiftsH cfg agpy im1 im2 errim1 errim2 mo gf re zm ah h).2.arr r = h.arr r) ∧
    (ccShiftsH cfg agpy im1 im2 errim1 errim2 mo gf re zm ah h).1
      = crossCorrelationShifts cfg agpy (h.arr im1) (h.arr im2) (errim1.map h.arr) (errim2.map h.arr) mo gf re zm ah := by
  obtain ⟨r1, g1, e1, k1, l1, v1⟩ := zeromeanH_run zm im1 h h1
  obtain ⟨r2, g, e2, k2, l2, v2⟩ := zeromeanH_run zm im2 g1 (by have := k1.1; omega)
  rw [k1.2 _ h2] at v2
  rw [← k2.2 _ l1] at v1
  have kk := k1.trans k2
  have b20 : r2 ≠ g.size := by omega
  have o : g.size ≠ g.size + 1 := by omega
  have hb : crossCorrelationShifts cfg agpy (h.arr im1) (h.arr im2) (errim1.map h.arr) (errim2.map h.arr) mo gf re zm ah
      = ccShiftsBody cfg agpy (h.arr im1) (h.arr im2) (errim1.map h.arr) (errim2.map h.arr) mo gf re zm ah := by
    unfold crossCorrelationShifts
    rw [dif_pos ⟨rfl, rfl⟩]
    rfl
  rw [hb]
  unfold ccShiftsH ccShiftsBody
  simp only [run_bind, run_read, run_alloc, run_lift, e1, e2, nanToNumH, ← v1, ← v2, if_true, if_false, o, b20]
  generalize hc : correlate2d cfg ah (Np.nanToNum (g.arr r1)) (Np.nanToNum (g.arr r2)) = x
  rcases x with er | t
  · refine ⟨fun r hr => ?_, rfl⟩
    have := kk.1
    dsimp only
    rw [if_neg (by omega), if_neg (by omega)]
    exact kk.2 r hr
  · have := kk.1
    simp only [run_write, readOpt]
    refine ⟨fun r hr => ?_, ?_⟩
    · repeat rw [if_neg (by omega)]
      exact kk.2 r hr
    · have o1 : g.size ≠ g.size + 1 + 1 := by omega
      have q1 : ∀ r : ℕ, r < h.size → r ≠ g.size := fun r hr => by omega
      have q2 : ∀ r : ℕ, r < h.size → r ≠ g.size + 1 := fun r hr => by omega
      have q3 : ∀ r : ℕ, r < h.size → r ≠ g.size + 1 + 1 := fun r hr => by omega
      have m : ∀ e : Option ℕ, (∀ r ∈ e, r < h.size) → ∀ u v w z : Fin ny × Fin nx → Pix,
          e.map (fun r => if r = g.size + 1 + 1 then u else if r = g.size + 1 + 1 then v else if r = g.size + 1 then w
            else if r = g.size then z else g.arr r) = e.map h.arr := by
        intro e hE u v w z
        cases e with
        | none => rfl
        | some r =>
          have := hE r rfl
          simp only [Option.map_some, q1 r this, q2 r this, q3 r this, if_false, kk.2 r this]
      rw [m _ he1, m _ he2]
      simp only [o, o1, if_true, if_false, Nat.add_eq_left, Nat.add_right_inj, Nat.add_assoc, Nat.reduceAdd, Nat.reduceEqDiff]
      have : (finiteVals fun i => some ((Option.map (fun c => c / ((ny * nx : ℕ) : ℝ)) (t i)).getD 0)) = fun i => finiteVals t i / ((ny * nx : ℕ) : ℝ) := by
        funext i
        simp only [finiteVals, Option.getD_some]
        cases t i <;> simp
      rw [this]
      rfl

/-- The same array, with a NaN and a zero pixel, passed as both images and as the error image: it is still the same afterwards although `chi2n_map` assigns to
`im1`, `im2` and `err`, and the map does not depend on the aliasing. -/
example (cfg : FFTConfig) : ∃ (h : ArrHeap 1 3) (r : Chi2Refs),
    (chi2nMapH cfg .wrap 0 0 (.ref 0) false false false h).1 = .ok r ∧
    h.arr 0 (0, 0) = none ∧ h.arr 0 (0, 1) = some 0 ∧
    (chi2nMapH cfg .wrap 0 0 (.ref 0) false false false h).2.arr 0 = h.arr 0 := by
  refine ⟨⟨1, fun _ i => if i.2 = 0 then none else if i.2 = 1 then some 0 else some 5⟩, ?_⟩
  have hC := C110_chi2n_map cfg .wrap (⟨1, fun _ i => if i.2 = 0 then none else if i.2 = 1 then some 0 else some 5⟩ : ArrHeap 1 3) 0 0 (.ref 0)
    false false false (by simp) (by simp) (fun r hr => by cases hr; simp)
  cases hq : (chi2nMapH cfg .wrap 0 0 (.ref 0) false false false
      (⟨1, fun _ i => if i.2 = 0 then none else if i.2 = 1 then some 0 else some 5⟩ : ArrHeap 1 3)).1 with
  | ok r => exact ⟨r, rfl, rfl, rfl, hC.1 0 (by simp)⟩
  | error e =>
    have := (hC.2.1 e).1 hq
    obtain ⟨m, hm, -⟩ := chi2nMapBody_eq cfg
      ((⟨1, fun _ i => if i.2 = 0 then none else if i.2 = 1 then some 0 else some 5⟩ : ArrHeap 1 3).arr 0)
      ((⟨1, fun _ i => if i.2 = 0 then none else if i.2 = 1 then some 0 else some 5⟩ : ArrHeap 1 3).arr 0)
      ((ErrRef.ref 0).val (⟨1, fun _ i => if i.2 = 0 then none else if i.2 = 1 then some 0 else some 5⟩ : ArrHeap 1 3))
      false false false (Or.inr (by norm_num))
    rw [chi2nMapB_wrap, chi2nMap_same, hm] at this
    cases this

end ImgReg
