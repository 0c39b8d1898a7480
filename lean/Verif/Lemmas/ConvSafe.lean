import Verif.Lemmas.ConvShared

/-!
# `convolvend` as a program: calls on arrays without NaNs are not disturbed by others
-/

open Finset

namespace ImgReg

section
variable {D : ℕ} {sh : ℕ → Fin D → ℕ} {m0 : ∀ r, Idx (sh r) → CPix}

/-- the local name has the values `v` when the memory is `m0` -/
def Loc (m0 : ∀ r, Idx (sh r) → CPix) {r : ℕ} (x : LocalArr sh r) (v : Idx (sh r) → CPix) : Prop :=
  x = some v ∨ (x = none ∧ m0 r = v)

theorem Safe.pure {α : Type} (a : α) (fb ib : Bool) (n : ℕ) : Safe m0 (.ok a) fb ib n (pure a : Prog sh α) := .done _ _ _

theorem Safe.getFftBind {α : Type} {x : Py α} {ib : Bool} {n : ℕ} {f : Backend → Prog sh α} (h : ∀ c, Safe m0 x true ib n (f c)) :
    Safe m0 x true ib (n + 1) (getFftP >>= f) := .getFft h

theorem Safe.getIfftBind {α : Type} {x : Py α} {fb : Bool} {n : ℕ} {f : Backend → Prog sh α} (h : ∀ c, Safe m0 x fb true n (f c)) :
    Safe m0 x fb true (n + 1) (getIfftP >>= f) := .getIfft h

theorem safe_asarray (b : Bool) (r : ℕ) (fb ib : Bool) :
    Safe m0 (.ok (if b then none else some (m0 r))) fb ib 1 (asarrayP b r : Prog sh (LocalArr sh r)) := by
  cases b
  · exact .read r (.done _ _ _)
  · exact .done _ _ _

theorem safe_get {r : ℕ} {x : LocalArr sh r} {v : Idx (sh r) → CPix} (h : Loc m0 x v) (fb ib : Bool) :
    Safe m0 (.ok v) fb ib 1 x.get := by
  rcases h with rfl | ⟨rfl, rfl⟩
  · exact .done _ _ _
  · exact .read r (.done _ _ _)

theorem safe_fill {r : ℕ} {x : LocalArr sh r} {v : Idx (sh r) → CPix} (h : Loc m0 x v) (mask : Idx (sh r) → Bool) (w : CPix)
    (hx : x = none → fillMask mask w v = v) (fb ib : Bool) :
    Safe m0 (.ok (x.map (fillMask mask w))) fb ib 1 (x.fill mask w) := by
  rcases h with rfl | ⟨rfl, rfl⟩
  · exact .done _ _ _
  · exact .fill r mask w (hx rfl) (.done _ _ _)

theorem loc_fill {r : ℕ} {x : LocalArr sh r} {v : Idx (sh r) → CPix} (h : Loc m0 x v) (mask : Idx (sh r) → Bool) (w : CPix)
    (hx : x = none → fillMask mask w v = v) : Loc m0 (x.map (fillMask mask w)) (fillMask mask w v) := by
  rcases h with rfl | ⟨rfl, rfl⟩
  · exact .inl rfl
  · exact .inr ⟨rfl, (hx rfl).symm⟩

theorem fillMask_isNone {ι : Type} (v : ι → CPix) : fillMask (fun i => (v i).isNone) (some 0) v = Np.nanToNum v := by
  funext i
  unfold fillMask Np.nanToNum
  beta_reduce
  cases v i <;> rfl

theorem nanToNum_of_some {ι : Type} {v : ι → CPix} (h : ∀ i, v i ≠ none) : Np.nanToNum v = v := by
  funext i
  unfold Np.nanToNum
  cases e : v i with
  | none => exact absurd e (h i)
  | some z => rfl

theorem fillMask_of_some {ι : Type} {v : ι → CPix} (h : ∀ i, v i ≠ none) (w : CPix) (u : ι → CPix) :
    fillMask (fun i => (v i).isNone) w u = u := by
  funext i
  unfold fillMask
  beta_reduce
  cases e : v i with
  | none => exact absurd e (h i)
  | some z => rfl

theorem safe_zeroNans {r : ℕ} {x : LocalArr sh r} {v : Idx (sh r) → CPix} (h : Loc m0 x v) (hx : x = none → ∀ i, v i ≠ none)
    (fb ib : Bool) :
    Safe m0 (.ok (x.map (fillMask (fun i => (v i).isNone) (some 0)), fun i => (v i).isNone)) fb ib 2 (zeroNansP x) := by
  unfold zeroNansP
  refine (safe_get h fb ib).bind (m := 1) ?_
  exact (safe_fill h _ _ (fun e => fillMask_of_some (hx e) _ _) fb ib).bind (m := 0) (.pure _ _ _ _)

theorem safe_normalize {r : ℕ} {x : LocalArr sh r} {v : Idx (sh r) → CPix} (h : Loc m0 x v) (nk : CNorm (Idx (sh r))) (fb ib : Bool) :
    (∀ e, convNormalize nk v = .error e → Safe m0 (.error e) fb ib 2 (normalizeP nk x)) ∧
    ∀ kn, convNormalize nk v = .ok kn → ∃ x' : LocalArr sh r, Loc m0 x' kn.1 ∧ (x' = none → x = none) ∧
      Safe m0 (.ok (x', kn.2)) fb ib 2 (normalizeP nk x) := by
  cases nk with
  | isTrue =>
    refine ⟨fun e he => by simp [convNormalize] at he, fun kn hk => ?_⟩
    simp only [convNormalize, Except.ok.injEq] at hk
    subst hk
    refine ⟨some (Np.divC v (Np.sumC v)), .inl rfl, (by intro e; cases e), ?_⟩
    exact (safe_get h fb ib).bind (m := 1) ((safe_get h fb ib).bind (m := 0) (.pure _ _ _ _))
  | fn f =>
    refine ⟨fun e he => by simp [convNormalize] at he, fun kn hk => ?_⟩
    simp only [convNormalize, Except.ok.injEq] at hk
    subst hk
    refine ⟨some (Np.divC v (f v)), .inl rfl, (by intro e; cases e), ?_⟩
    exact (safe_get h fb ib).bind (m := 1) ((safe_get h fb ib).bind (m := 0) (.pure _ _ _ _))
  | notCallable =>
    refine ⟨fun e he => ?_, fun kn hk => by simp [convNormalize] at hk⟩
    simp only [convNormalize, Except.error.injEq] at he
    subst he
    exact .done _ _ _
  | falsy =>
    refine ⟨fun e he => by simp [convNormalize] at he, fun kn hk => ?_⟩
    simp only [convNormalize, Except.ok.injEq] at hk
    subst hk
    refine ⟨x, h, id, ?_⟩
    exact ((safe_get h fb ib).bind (m := 1) (.pure _ _ _ _))

theorem safe_weights {s n : Fin D → ℕ} [∀ d, NeZero (n d)] (sa : Fin D → ℤ × ℤ) (hsa : Np.SlicesFit n s sa) (ip ig : Bool)
    (mask : Idx s → Bool) (kernfft : Idx n → CPix) {r : ℕ} {x : LocalArr sh r} {v : Idx (sh r) → CPix} (h : Loc m0 x v) :
    Safe m0 (.ok (pureWeights sa hsa ip ig mask kernfft (Np.sumC v))) true true 3 (weightsP sa hsa ip ig mask kernfft x) := by
  unfold weightsP
  refine .getFftBind fun c => ?_
  refine (safe_get h true true).bind (m := 1) ?_
  refine .getIfftBind fun c' => ?_
  rw [Backend.fft_eq, Backend.ifft_eq]
  exact .done _ _ _

theorem safe_tail {a k : ℕ} (o : ConvArgs (Idx (sh k))) {n : Fin D → ℕ} [∀ d, NeZero (n d)] (sa sk : Fin D → ℤ × ℤ)
    (hsa : Np.SlicesFit n (sh a) sa) (hsk : Np.SlicesFit n (sh k) sk) {array : LocalArr sh a} {av : Idx (sh a) → CPix}
    (ha : Loc m0 array av) (maskA : Idx (sh a) → Bool) {kernel : LocalArr sh k} {kv : Idx (sh k) → CPix} (hk : Loc m0 kernel kv)
    (maskK : Idx (sh k) → Bool) (nrm : Bool) (hA : array = none → fillMask maskA none av = av)
    (hK : kernel = none → fillMask maskK none kv = kv) :
    Safe m0 (pureTail o sa sk hsa hsk av maskA kv nrm) true true 10 (convTailP o sa sk hsa hsk array maskA kernel maskK nrm) := by
  unfold convTailP
  refine (safe_get ha true true).bind (m := 9) ?_
  refine (safe_get hk true true).bind (m := 8) ?_
  refine .getFftBind fun c => ?_
  refine .getFftBind fun c' => ?_
  rw [Backend.fft_eq, Backend.fft_eq]
  unfold pureTail
  dsimp only
  generalize Np.putSlices sa hsa (fun _ => convFill o.boundary o.fillValue) av = A
  generalize Np.fftn (Np.ifftshiftN (Np.putSlices sk hsk (fun _ => some 0) kv)) = K
  generalize Np.mul (Np.fftn A) K = F
  have hw : Safe m0 (.ok (if (o.interpolateNan || o.ignoreEdgeZeros) && nrm then
      some (pureWeights sa hsa o.interpolateNan o.ignoreEdgeZeros maskA K (Np.sumC kv)) else none)) true true 3
      (if (o.interpolateNan || o.ignoreEdgeZeros) && nrm then
        some <$> weightsP sa hsa o.interpolateNan o.ignoreEdgeZeros maskA K kernel else pure none : Prog sh (Option (Idx n → Pix))) := by
    split_ifs
    · exact (safe_weights sa hsa o.interpolateNan o.ignoreEdgeZeros maskA K hk).bind (m := 0) (.pure _ _ _ _)
    · exact .pure _ _ _ _
  refine hw.bind (m := 3) ?_
  by_cases hN : Np.anyNaN F
  · rw [if_pos hN, if_pos hN]
    exact .done _ _ _
  · rw [if_neg hN, if_neg hN]
    refine (safe_fill ha maskA none hA true true).bind (m := 2) ?_
    refine (safe_fill hk maskK none hK true true).bind (m := 1) ?_
    by_cases hr : o.returnFft = true
    · rw [if_pos hr, if_pos hr]
      exact .done _ _ _
    · rw [if_neg hr, if_neg hr]
      refine .getIfftBind fun c => ?_
      rw [Backend.ifft_eq]
      split_ifs <;> exact .done _ _ _

theorem safe_bindFfts {α : Type} {x : Py α} {n : ℕ} (cfg : FFTConfig) {f : Unit → Prog sh α} (h : Safe m0 x true true n (f ())) :
    Safe m0 x (!cfg.hasFftw) (!cfg.hasFftw) (n + 2) (bindFftsP cfg >>= f) := by
  obtain ⟨b, u, t⟩ := cfg
  cases b <;> cases u
  · exact h.mono (fun _ => rfl) (fun _ => rfl) (by omega)
  · exact .setFft _ (.setIfft _ h)
  · exact .setFft _ (.setIfft _ h)
  · exact .setFft _ (.setIfft _ h)

variable [∀ r d, NeZero (sh r d)]

theorem safe_convolvend (isComplex : ℕ → Bool) (cfg : FFTConfig) (a k : ℕ) (o : ConvArgs (Idx (sh k)))
    (hA : isComplex a = true → ∀ i, m0 a i ≠ none) (hK : isComplex k = true → ∀ i, m0 k i ≠ none) :
    Safe m0 (convolvend cfg o (m0 a) (m0 k)) (!cfg.hasFftw) (!cfg.hasFftw) 20 (convolvendP isComplex cfg a k o) := by
  have lA : Loc m0 (if isComplex a then none else some (m0 a) : LocalArr sh a) (m0 a) := by
    split_ifs
    · exact .inr ⟨rfl, rfl⟩
    · exact .inl rfl
  have lK : Loc m0 (if isComplex k then none else some (m0 k) : LocalArr sh k) (m0 k) := by
    split_ifs
    · exact .inr ⟨rfl, rfl⟩
    · exact .inl rfl
  have nA : (if isComplex a then none else some (m0 a) : LocalArr sh a) = none → ∀ i, m0 a i ≠ none := by
    intro h
    split_ifs at h with hc
    exact hA hc
  have nK : (if isComplex k then none else some (m0 k) : LocalArr sh k) = none → ∀ i, m0 k i ≠ none := by
    intro h
    split_ifs at h with hc
    exact hK hc
  unfold convolvendP
  refine (safe_asarray (isComplex a) a _ _).bind (m := 19) ?_
  refine (safe_asarray (isComplex k) k _ _).bind (m := 18) ?_
  generalize (if isComplex a then none else some (m0 a) : LocalArr sh a) = xa at lA nA
  generalize (if isComplex k then none else some (m0 k) : LocalArr sh k) = xk at lK nK
  refine safe_bindFfts (n := 16) cfg ?_
  refine (safe_zeroNans lA nA true true).bind (m := 14) ?_
  refine (safe_zeroNans lK nK true true).bind (m := 12) ?_
  have lA' := loc_fill lA (fun i => (m0 a i).isNone) (some 0) fun e => fillMask_of_some (nA e) _ _
  have lK' := loc_fill lK (fun i => (m0 k i).isNone) (some 0) fun e => fillMask_of_some (nK e) _ _
  have nA' : xa.map (fillMask (fun i => (m0 a i).isNone) (some 0)) = none → ∀ i, m0 a i ≠ none := by
    intro h; exact nA (Option.map_eq_none_iff.1 h)
  have nK' : xk.map (fillMask (fun i => (m0 k i).isNone) (some 0)) = none → ∀ i, m0 k i ≠ none := by
    intro h; exact nK (Option.map_eq_none_iff.1 h)
  rw [fillMask_isNone] at lA' lK'
  generalize xa.map (fillMask (fun i => (m0 a i).isNone) (some 0)) = ya at lA' nA'
  generalize xk.map (fillMask (fun i => (m0 k i).isNone) (some 0)) = yk at lK' nK'
  rw [convolvend_eq]
  obtain ⟨e1, e2⟩ := safe_normalize lK' o.normalizeKernel true true
  cases hn : convNormalize o.normalizeKernel (Np.nanToNum (m0 k)) with
  | error e => exact ((e1 e hn).mono id id (by omega)).bind_error
  | ok kn =>
    obtain ⟨zk, l, hz, hs⟩ := e2 kn hn
    refine hs.bind (m := 10) ?_
    show Safe m0 (pureRest o (Np.nanToNum (m0 a)) (fun i => (m0 a i).isNone) kn.1 kn.2) true true 10 _
    unfold pureRest
    dsimp only
    cases convPads o.boundary o.psfPad o.fftPad with
    | none => exact .done _ _ _
    | some pf =>
      obtain ⟨p, f⟩ := pf
      dsimp only
      by_cases h : Np.SlicesFit (convNewShape (sh a) (sh k) p f) (sh a) (fun d => convSlice (convNewShape (sh a) (sh k) p f d) (sh a d)) ∧
          Np.SlicesFit (convNewShape (sh a) (sh k) p f) (sh k) (fun d => convSlice (convNewShape (sh a) (sh k) p f d) (sh k d))
      · rw [dif_pos h, dif_pos h]
        exact safe_tail o _ _ h.1 h.2 lA' _ l _ kn.2 (fun e => fillMask_of_some (nA' e) _ _) fun e => fillMask_of_some (nK' (hz e)) _ _
      · rw [dif_neg h, dif_neg h]
        exact .done _ _ _

end

end ImgReg
