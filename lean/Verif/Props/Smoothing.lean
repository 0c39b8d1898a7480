import Verif.Props.Convolve
import Verif.Props.Shift
import Verif.Props.Register

/-!
# Smoothing with `convolvend` (C149)
-/

open Finset

namespace ImgReg

section
variable {D : ℕ} {s t : Fin D → ℕ} [∀ d, NeZero (s d)]

/-- The displacement of kernel pixel `q` from the centre `t//2` of the kernel. -/
def Spec.fromCentre (q : Idx t) (d : Fin D) : ℤ := ((q d : ℕ) : ℤ) - ((t d / 2 : ℕ) : ℤ)

theorem seenWrap_roll {α : Type} (a : Idx s → α) (i : Idx s) (q : Idx t) :
    Spec.seenWrap a i q = Spec.rollND (Spec.fromCentre q) a i := by
  unfold Spec.seenWrap Spec.rollND Spec.fromCentre
  congr 1
  funext d
  congr 1
  ring

theorem rollND_sum (z : Fin D → ℤ) (x : Idx s → ℝ) : ∑ i, Spec.rollND z x i = ∑ i, x i := by
  rw [rollND_eq]
  exact Equiv.sum_comp (Equiv.subRight (fun d => Spec.wrap (s d) (z d))) x

theorem rollND_comm {α : Type} (z w : Fin D → ℤ) (x : Idx s → α) : Spec.rollND z (Spec.rollND w x) = Spec.rollND w (Spec.rollND z x) := by
  rw [rollND_eq, rollND_eq, rollND_eq, rollND_eq]
  funext i
  beta_reduce
  rw [sub_right_comm]

/-- plain smoothing with periodic boundaries -/
theorem smooth_wrap (cfg : FFTConfig) (o : ConvArgs (Idx t)) (ho : Spec.Plain o) (hb : o.boundary = .wrap)
    (ht : ∀ d, t d ≤ s d) (c : ℝ) (hc : o.fillValue = some (c : ℂ)) (x : Idx s → Pix) (κ : Idx t → ℝ) :
    convolvend cfg o (toC x) (toC (realArr κ)) = .ok (.real s fun i => some (∑ q : Idx t, Spec.rollND (Spec.fromCentre q) (Spec.nan0 x) i * κ q)) := by
  rw [plain_real cfg o ho .wrap ⟨hb, ht⟩ c hc x (realArr κ)]
  congr 2
  funext i
  congr 1
  refine Finset.sum_congr rfl fun q _ => ?_
  rw [← seenWrap_roll]
  rfl

/-- smoothing with the one-pixel kernel `[1]` replaces NaN by 0 -/
theorem smooth_delta (cfg : FFTConfig) (o : ConvArgs (Idx fun _ : Fin D => 1)) (ho : Spec.Plain o) (hb : o.boundary = .wrap)
    (c : ℝ) (hc : o.fillValue = some (c : ℂ)) (x : Idx s → Pix) :
    convolvend cfg o (toC x) (rArr fun _ => 1) = .ok (.real s fun i => some ((x i).getD 0)) := by
  refine (smooth_wrap (t := fun _ => 1) cfg o ho hb (fun d => Nat.one_le_iff_ne_zero.2 (NeZero.ne (s d))) c hc x (fun _ => 1)).trans ?_
  congr 2
  funext i
  refine congrArg some ?_
  rw [Fintype.sum_unique, mul_one]
  have hz : Spec.fromCentre (default : Idx fun _ : Fin D => 1) = fun _ => 0 := by
    funext d; simp [Spec.fromCentre]
  rw [hz, rollND_eq]
  have h0 : (fun d => Spec.wrap (s d) 0) = (0 : Idx s) := by
    funext d
    apply Fin.ext
    simp [Spec.wrap]
  rw [h0]
  beta_reduce
  rw [sub_zero]
  rfl

/-- C149: with `boundary='wrap'` (plain arguments, kernel not larger than the array) the result has total `(total of the array)·(total of the kernel)`,
and its norm is at most that of the array times the sum of the moduli of the kernel: smoothing with a normalised non-negative kernel conserves
the flux and never increases the noise. -/
theorem C149_flux_and_norm (cfg : FFTConfig) (o : ConvArgs (Idx t)) (ho : Spec.Plain o) (hb : o.boundary = .wrap)
    (ht : ∀ d, t d ≤ s d) (c : ℝ) (hc : o.fillValue = some (c : ℂ)) (x : Idx s → Pix) (κ : Idx t → ℝ) :
    ∃ out : Idx s → ℝ, convolvend cfg o (toC x) (toC (realArr κ)) = .ok (.real s (realArr out)) ∧
      ∑ i, out i = (∑ i, (x i).getD 0) * ∑ q, κ q ∧
      ∑ i, out i ^ 2 ≤ (∑ q, |κ q|) ^ 2 * ∑ i, (x i).getD 0 ^ 2 := by
  refine ⟨_, smooth_wrap cfg o ho hb ht c hc x κ, ?_, ?_⟩
  · rw [Finset.sum_comm, Finset.mul_sum]
    refine Finset.sum_congr rfl fun q _ => ?_
    rw [← Finset.sum_mul, rollND_sum]
    rfl
  · have h1 : ∀ i : Idx s, (∑ q : Idx t, Spec.rollND (Spec.fromCentre q) (Spec.nan0 x) i * κ q) ^ 2
        ≤ (∑ q, |κ q|) * ∑ q : Idx t, |κ q| * Spec.rollND (Spec.fromCentre q) (Spec.nan0 x) i ^ 2 := by
      intro i
      refine Finset.sum_sq_le_sum_mul_sum_of_sq_le_mul _ (fun q _ => abs_nonneg _) (fun q _ => mul_nonneg (abs_nonneg _) (sq_nonneg _))
        (fun q _ => le_of_eq ?_)
      rw [mul_pow, ← sq_abs (κ q)]; ring
    refine (Finset.sum_le_sum fun i _ => h1 i).trans (le_of_eq ?_)
    rw [← Finset.mul_sum, Finset.sum_comm, sq, mul_assoc]
    congr 1
    rw [Finset.sum_mul]
    refine Finset.sum_congr rfl fun q _ => ?_
    rw [← Finset.mul_sum]
    congr 1
    exact rollND_sum (Spec.fromCentre q) (fun i => Spec.nan0 x i ^ 2)

/-- C149: smoothing commutes with whole-pixel displacements (`boundary='wrap'`), whatever the NaN treatment: plain, `interpolate_nan`,
`ignore_edge_zeros` and `min_wt` included (kernel of sum 1). -/
theorem C149_roll (cfg : FFTConfig) (o : ConvArgs (Idx t)) (hb : o.boundary = .wrap) (ht : ∀ d, t d ≤ s d)
    (hcrop : o.crop = true) (hret : o.returnFft = false) (c : ℝ) (hc : o.fillValue = some (c : ℂ)) (hnk : o.normalizeKernel = .falsy)
    (x : Idx s → Pix) (κ : Idx t → ℝ) (hκ : ∑ q, κ q = 1) (z : Fin D → ℤ) :
    ∃ out : Idx s → Pix, convolvend cfg o (toC x) (rArr κ) = .ok (.real s out) ∧
      convolvend cfg o (toC (Spec.rollND z x)) (rArr κ) = .ok (.real s (Spec.rollND z out)) := by
  by_cases hw : o.interpolateNan = true ∨ o.ignoreEdgeZeros = true
  · refine ⟨_, C63_weighted cfg o .wrap ⟨hb, ht⟩ hcrop hret c hc hnk hw x κ hκ, ?_⟩
    rw [C63_weighted cfg o .wrap ⟨hb, ht⟩ hcrop hret c hc hnk hw (Spec.rollND z x) κ hκ]
    congr 2
    funext i
    have e1 : ∀ q : Idx t, Spec.Edge.wrap.seen (Spec.nan0 (Spec.rollND z x)) c i q
        = Spec.rollND z (fun i => Spec.Edge.wrap.seen (Spec.nan0 x) c i q) i := by
      intro q
      show Spec.seenWrap (Spec.rollND z (Spec.nan0 x)) i q = Spec.rollND z (fun i => Spec.seenWrap (Spec.nan0 x) i q) i
      simp only [seenWrap_roll]
      exact congrFun (rollND_comm _ _ _) i
    have e2 : ∀ (b : ℝ) (q : Idx t), Spec.Edge.wrap.seen (fun j => if o.interpolateNan = true ∧ Spec.rollND z x j = Option.none then (0 : ℝ) else 1) b i q
        = Spec.rollND z (fun i => Spec.Edge.wrap.seen (fun j => if o.interpolateNan = true ∧ x j = Option.none then (0 : ℝ) else 1) b i q) i := by
      intro b q
      show Spec.seenWrap (Spec.rollND z fun j => if o.interpolateNan = true ∧ x j = Option.none then (0 : ℝ) else 1) i q
        = Spec.rollND z (fun i => Spec.seenWrap (fun j => if o.interpolateNan = true ∧ x j = Option.none then (0 : ℝ) else 1) i q) i
      simp only [seenWrap_roll]
      exact congrFun (rollND_comm _ _ _) i
    simp only [e1, e2]
    rfl
  · have ho : Spec.Plain o := ⟨hcrop, hret, by simpa using fun h => hw (.inl h), by simpa using fun h => hw (.inr h), hnk⟩
    have hκr : rArr κ = toC (realArr κ) := rfl
    rw [hκr]
    refine ⟨_, smooth_wrap cfg o ho hb ht c hc x κ, ?_⟩
    rw [smooth_wrap cfg o ho hb ht c hc (Spec.rollND z x) κ]
    congr 2
    funext i
    have e1 : ∀ q : Idx t, Spec.rollND (Spec.fromCentre q) (Spec.nan0 (Spec.rollND z x)) i
        = Spec.rollND z (fun i => Spec.rollND (Spec.fromCentre q) (Spec.nan0 x) i) i := by
      intro q
      show Spec.rollND (Spec.fromCentre q) (Spec.rollND z (Spec.nan0 x)) i = _
      exact congrFun (rollND_comm _ _ _) i
    simp only [e1]
    rfl

/-- C149: with a non-negative kernel of sum 1 and `interpolate_nan=True` (`boundary='wrap'`, or `'fill'` with value 0 and `ignore_edge_zeros=True`)
smoothing never leaves the range of the data: if all pixels that are not NaN lie between `lo` and `hi`, so does every output pixel whose kernel
weight on pixels that count is positive and not below `min_wt`. -/
theorem C149_range (cfg : FFTConfig) (o : ConvArgs (Idx t)) (e : Spec.Edge) (he : e.Selected s t o.boundary)
    (hcrop : o.crop = true) (hret : o.returnFft = false) (hc : o.fillValue = some ((0 : ℝ) : ℂ))
    (hnk : o.normalizeKernel = .falsy) (hint : o.interpolateNan = true)
    (hedge : o.boundary = .wrap ∨ o.ignoreEdgeZeros = true)
    (lo hi : ℝ) (x : Idx s → Pix) (hx : ∀ j v, x j = some v → lo ≤ v ∧ v ≤ hi)
    (κ : Idx t → ℝ) (hκ : ∑ q, κ q = 1) (hκ0 : ∀ q, 0 ≤ κ q) :
    ∃ out : Idx s → Pix, convolvend cfg o (toC x) (rArr κ) = .ok (.real s out) ∧
      ∀ i, (let W := ∑ q : Idx t, e.seen (fun j => if x j = Option.none then (0 : ℝ) else 1) 0 i q * κ q
        (0 < W → o.minWt ≤ W → ∃ v, out i = some v ∧ lo ≤ v ∧ v ≤ hi)) := by
  refine ⟨_, C63_weighted cfg o e he hcrop hret 0 hc hnk (Or.inl hint) x κ hκ, fun i => ?_⟩
  intro W h1 h2
  have hbase : ∀ q : Idx t, e.seen (fun j => if o.interpolateNan = true ∧ x j = Option.none then (0 : ℝ) else 1)
      (if o.ignoreEdgeZeros then (0 : ℝ) else 1) i q = e.seen (fun j => if x j = Option.none then (0 : ℝ) else 1) 0 i q := by
    intro q
    simp only [hint, true_and]
    rcases hedge with h | h
    · cases e with
      | wrap => rfl
      | fill => rcases he with he | he <;> rw [he] at h <;> simp at h
    · rw [h]; rfl
  simp only [hbase]
  -- a single term lies between `lo` and `hi` times its weight
  have hterm : ∀ q : Idx t, lo * e.seen (fun j => if x j = Option.none then (0 : ℝ) else 1) 0 i q ≤ e.seen (Spec.nan0 x) 0 i q ∧
      e.seen (Spec.nan0 x) 0 i q ≤ hi * e.seen (fun j => if x j = Option.none then (0 : ℝ) else 1) 0 i q := by
    intro q
    have m1 := seen_map (fun r : Pix => if r = Option.none then (0 : ℝ) else 1) e x none i q
    have m2 := seen_map (fun r : Pix => r.getD 0) e x none i q
    simp only [if_true, Option.getD_none] at m1 m2
    have m2' : e.seen (Spec.nan0 x) 0 i q = (e.seen x none i q).getD 0 := m2
    rw [m1, m2']
    have hs : ∀ v, e.seen x none i q = some v → lo ≤ v ∧ v ≤ hi := by
      intro v hv
      cases e with
      | wrap => exact hx _ v hv
      | fill =>
        simp only [Spec.Edge.seen, Spec.seenFill, Spec.extend] at hv
        split_ifs at hv with h
        exact hx _ v hv
    rcases h : e.seen x none i q with _ | v
    · simp
    · obtain ⟨a, b⟩ := hs v h
      simp [a, b]
  have hl : lo * W ≤ ∑ q : Idx t, e.seen (Spec.nan0 x) 0 i q * κ q := by
    rw [Finset.mul_sum]
    refine Finset.sum_le_sum fun q _ => ?_
    rw [← mul_assoc]
    exact mul_le_mul_of_nonneg_right (hterm q).1 (hκ0 q)
  have hh : ∑ q : Idx t, e.seen (Spec.nan0 x) 0 i q * κ q ≤ hi * W := by
    rw [Finset.mul_sum]
    refine Finset.sum_le_sum fun q _ => ?_
    rw [← mul_assoc]
    exact mul_le_mul_of_nonneg_right (hterm q).2 (hκ0 q)
  refine ⟨(∑ q : Idx t, e.seen (Spec.nan0 x) 0 i q * κ q) / W, ?_, (le_div_iff₀ h1).2 hl, (div_le_iff₀ h1).2 hh⟩
  rw [max_eq_right h1.le]
  unfold Spec.divide
  rw [if_neg (by rintro ⟨_, h⟩; exact h1.ne' h), if_neg (by rintro (h | h); exact absurd h (not_lt.2 h2); exact h1.ne' h)]

/-- C149: the order of two smoothings does not matter (`boundary='wrap'`, plain arguments, kernels of any two sizes not larger than the array). -/
theorem C149_order {t' : Fin D → ℕ} (cfg cfg' : FFTConfig) (o : ConvArgs (Idx t)) (o' : ConvArgs (Idx t')) (ho : Spec.Plain o) (ho' : Spec.Plain o')
    (hb : o.boundary = .wrap) (hb' : o'.boundary = .wrap) (ht : ∀ d, t d ≤ s d) (ht' : ∀ d, t' d ≤ s d)
    (c c' : ℝ) (hc : o.fillValue = some (c : ℂ)) (hc' : o'.fillValue = some (c' : ℂ)) (x : Idx s → Pix) (κ : Idx t → ℝ) (κ' : Idx t' → ℝ) :
    ∃ a b both : Idx s → ℝ,
      convolvend cfg o (toC x) (toC (realArr κ)) = .ok (.real s (realArr a)) ∧
      convolvend cfg' o' (toC x) (toC (realArr κ')) = .ok (.real s (realArr b)) ∧
      convolvend cfg' o' (toC (realArr a)) (toC (realArr κ')) = .ok (.real s (realArr both)) ∧
      convolvend cfg o (toC (realArr b)) (toC (realArr κ)) = .ok (.real s (realArr both)) := by
  refine ⟨_, _, _, smooth_wrap cfg o ho hb ht c hc x κ, smooth_wrap cfg' o' ho' hb' ht' c' hc' x κ',
    smooth_wrap cfg' o' ho' hb' ht' c' hc' _ κ', ?_⟩
  refine (smooth_wrap cfg o ho hb ht c hc _ κ).trans ?_
  congr 2
  funext i
  refine congrArg some ?_
  have l1 : ∀ q : Idx t, Spec.rollND (Spec.fromCentre q)
      (Spec.nan0 (realArr fun i => ∑ r : Idx t', Spec.rollND (Spec.fromCentre r) (Spec.nan0 x) i * κ' r)) i
      = ∑ r : Idx t', Spec.rollND (Spec.fromCentre q) (Spec.rollND (Spec.fromCentre r) (Spec.nan0 x)) i * κ' r := fun _ => rfl
  have l2 : ∀ r : Idx t', Spec.rollND (Spec.fromCentre r)
      (Spec.nan0 (realArr fun i => ∑ q : Idx t, Spec.rollND (Spec.fromCentre q) (Spec.nan0 x) i * κ q)) i
      = ∑ q : Idx t, Spec.rollND (Spec.fromCentre r) (Spec.rollND (Spec.fromCentre q) (Spec.nan0 x)) i * κ q := fun _ => rfl
  have g : ∑ q : Idx t, (∑ r : Idx t', Spec.rollND (Spec.fromCentre q) (Spec.rollND (Spec.fromCentre r) (Spec.nan0 x)) i * κ' r) * κ q
      = ∑ r : Idx t', (∑ q : Idx t, Spec.rollND (Spec.fromCentre r) (Spec.rollND (Spec.fromCentre q) (Spec.nan0 x)) i * κ q) * κ' r := by
    simp only [Finset.sum_mul]
    rw [Finset.sum_comm]
    refine Finset.sum_congr rfl fun r _ => Finset.sum_congr rfl fun q _ => ?_
    rw [rollND_comm]; ring
  exact g

end

/-! ### smoothing two images before registering them -/

section
variable {ny nx : ℕ} [NeZero ny] [NeZero nx]

/-- C149: smoothing before registration. Two images, the second a whole-pixel roll of the first (NaNs included), smoothed by the same call of
`convolvend` (`boundary='wrap'`, kernel of sum 1, any NaN treatment); if the smoothed first image has no NaN left and is identifiable (differs from its
other displacements, as in C44), `register_images` finds the displacement in the smoothed images. -/
theorem C149_smooth_then_register {t : Fin 2 → ℕ} (cfg cfg' : FFTConfig) (o : ConvArgs (Idx t)) (hb : o.boundary = .wrap)
    (ht : ∀ d, t d ≤ (![ny, nx] : Fin 2 → ℕ) d)
    (hcrop : o.crop = true) (hret : o.returnFft = false) (c : ℝ) (hc : o.fillValue = some (c : ℂ)) (hnk : o.normalizeKernel = .falsy)
    (x : Fin ny × Fin nx → Pix) (κ : Idx t → ℝ) (hκ : ∑ q, κ q = 1) (dy dx : ℤ)
    (a : Fin ny × Fin nx → ℝ)
    (ha : convolvend cfg o (toC fun i => x (pairIdx i)) (rArr κ) = .ok (.real ![ny, nx] fun i => some (a (pairIdx i))))
    (usfac : ℕ) (hu : 1 ≤ usfac) (hsz : usfac = 1 ∨ (2 ≤ ny ∧ 2 ≤ nx)) (zm : Bool)
    (hid : Spec.identifiable (Spec.candidates usfac) fun p => a p - if zm then Spec.mean a else 0) :
    ∃ b : Fin ny × Fin nx → ℝ,
      convolvend cfg o (toC fun i => Spec.roll2 dy dx x (pairIdx i)) (rArr κ) = .ok (.real ![ny, nx] fun i => some (b (pairIdx i))) ∧
      ∃ dx' dy' : ℤ, registerImages cfg' (realArr a) (realArr b) usfac false false zm none = .ok [.num dx', .num dy'] ∧
        dx' ≡ dx [ZMOD nx] ∧ -(nx : ℤ) ≤ 2 * dx' ∧ 2 * dx' < nx ∧
        dy' ≡ dy [ZMOD ny] ∧ -(ny : ℤ) ≤ 2 * dy' ∧ 2 * dy' < ny := by
  refine ⟨Spec.roll2 dy dx a, ?_, C44_recovers_roll cfg' a dy dx usfac hu hsz zm hid⟩
  obtain ⟨out, h1, h2⟩ := C149_roll cfg o hb ht hcrop hret c hc hnk (fun i => x (pairIdx i)) κ hκ ![dy, dx]
  rw [ha] at h1
  have ho : out = fun i => some (a (pairIdx i)) := by
    have := Except.ok.inj h1
    injection this with _ h
    exact h.symm
  have er : ∀ {α : Type} (y : Fin ny × Fin nx → α), (fun i => Spec.roll2 dy dx y (pairIdx i))
      = Spec.rollND ![dy, dx] (fun i => y (pairIdx i)) := fun y => rfl
  rw [er x, h2, ho]
  rfl

end

/-! ### concrete cases -/

/-- the mean of three pixels, one of them NaN and ignored: every pixel of the result lies between 1 and 3 -/
example (cfg : FFTConfig) : ∃ out : Idx (fun _ : Fin 1 => 3) → Pix,
    convolvend (s := fun _ : Fin 1 => 3) (t := fun _ : Fin 1 => 3) cfg { boundary := .wrap, interpolateNan := true }
      (toC fun i => ![some 1, Option.none, some 3] (i 0)) (rArr fun _ => 1 / 3) = .ok (.real _ out) ∧
    ∀ i, ∃ v, out i = some v ∧ 1 ≤ v ∧ v ≤ 3 := by
  obtain ⟨out, h1, h2⟩ := C149_range (s := fun _ : Fin 1 => 3) (t := fun _ : Fin 1 => 3) cfg
    { boundary := .wrap, interpolateNan := true } .wrap ⟨rfl, fun _ => le_rfl⟩ rfl rfl (by simp) rfl rfl (Or.inl rfl) 1 3
    (fun i => ![some 1, Option.none, some 3] (i 0))
    (by
      intro j v hv
      have : ∀ k : Fin 3, (![some 1, Option.none, some 3] : Fin 3 → Pix) k = some v → 1 ≤ v ∧ v ≤ 3 := by
        intro k hk
        fin_cases k
        · have := Option.some.inj hk; subst this; norm_num
        · simp at hk
        · have := Option.some.inj hk; subst this; norm_num
      exact this _ hv)
    (fun _ => 1 / 3)
    (by rw [← Equiv.sum_comp (Equiv.funUnique (Fin 1) (Fin 3)).symm, Fin.sum_univ_three]; norm_num)
    (fun _ => by norm_num)
  refine ⟨out, h1, fun i => ?_⟩
  have hW : ∑ q : Idx (fun _ : Fin 1 => 3), Spec.Edge.wrap.seen
      (fun j : Idx (fun _ : Fin 1 => 3) => if (![some 1, Option.none, some 3] : Fin 3 → Pix) (j 0) = Option.none then (0 : ℝ) else 1) 0 i q * (1 / 3)
      = 2 / 3 := by
    obtain ⟨k, rfl⟩ : ∃ k : Fin 3, i = fun _ => k := ⟨i 0, by funext d; fin_cases d; rfl⟩
    rw [← Equiv.sum_comp (Equiv.funUnique (Fin 1) (Fin 3)).symm, Fin.sum_univ_three]
    fin_cases k <;> simp [Spec.Edge.seen, Spec.seenWrap, Spec.wrap] <;> norm_num
  have := h2 i
  simp only at this
  rw [hW] at this
  exact this (by norm_num) (by norm_num)

/-- a 4×5 frame with a single bright pixel and a NaN -/
def Spec.nanStar (p : Fin 4 × Fin 5) : Pix := if p = (2, 2) then Option.none else some (if p = 0 then (1 : ℝ) else 0)

/-- the single bright pixel -/
def Spec.star45 (p : Fin 4 × Fin 5) : ℝ := if p = 0 then (1 : ℝ) else 0

theorem nanStar_getD (p : Fin 4 × Fin 5) : (Spec.nanStar p).getD 0 = Spec.star45 p := by
  unfold Spec.nanStar Spec.star45
  by_cases hp : p = (2, 2)
  · rw [if_pos hp, hp]; rfl
  · rw [if_neg hp]; rfl

theorem nanStar_smooth (cfg : FFTConfig) (o : ConvArgs (Idx fun _ : Fin 2 => 1)) (ho : Spec.Plain o) (hb : o.boundary = .wrap)
    (c : ℝ) (hc : o.fillValue = some (c : ℂ)) :
    convolvend cfg o (toC fun i => Spec.nanStar (pairIdx i)) (rArr fun _ => 1)
      = .ok (.real ![4, 5] fun i => some (Spec.star45 (pairIdx i))) := by
  refine (smooth_delta cfg o ho hb c hc fun i => Spec.nanStar (pairIdx i)).trans ?_
  congr 2
  funext i
  exact congrArg some (nanStar_getD _)

/-- a star in a 4×5 frame with a NaN pixel, "smoothed" by a one-pixel kernel, rolled by (1,-2): found in the smoothed images -/
example (cfg cfg' : FFTConfig) (o : ConvArgs (Idx fun _ : Fin 2 => 1)) (ho : o = { boundary := .wrap }) :
    ∃ (b : Fin 4 × Fin 5 → ℝ) (dx dy : ℤ),
    convolvend cfg o (toC fun i => Spec.nanStar (pairIdx i)) (rArr fun _ => 1) = .ok (.real ![4, 5] fun i => some (Spec.star45 (pairIdx i))) ∧
    convolvend cfg o (toC fun i => Spec.roll2 1 (-2) Spec.nanStar (pairIdx i)) (rArr fun _ => 1) = .ok (.real ![4, 5] fun i => some (b (pairIdx i))) ∧
    registerImages cfg' (realArr Spec.star45) (realArr b) 10 false false false none = .ok [.num dx, .num dy] ∧ dx = -2 ∧ dy = 1 := by
  have hd : ∀ k : Fin 4 × Fin 5, dft (fun p : Fin 4 × Fin 5 => ((Spec.star45 p : ℝ) : ℂ)) k ≠ 0 := by
    intro k
    have h1 : dft (fun p : Fin 4 × Fin 5 => ((Spec.star45 p : ℝ) : ℂ)) k = 1 := by
      unfold dft Spec.star45
      rw [Finset.sum_eq_single 0]
      · simp [FFTIndex.e_zero]
      · intro b _ hb; simp [hb]
      · simp
    rw [h1]; exact one_ne_zero
  have hid := identifiable_of_dft (Spec.candidates 10) Spec.star45
    (by norm_num) (by norm_num) (hd _) (hd _) (Or.inl (hd _))
  have ht : ∀ d : Fin 2, (fun _ : Fin 2 => 1) d ≤ (![4, 5] : Fin 2 → ℕ) d := fun d => by fin_cases d <;> simp
  have hb : o.boundary = .wrap := by rw [ho]
  have hpl : Spec.Plain o := by rw [ho]; exact ⟨rfl, rfl, rfl, rfl, rfl⟩
  have hc : o.fillValue = some ((0 : ℝ) : ℂ) := by rw [ho]; simp
  have hcr : o.crop = true := by rw [ho]
  have hrf : o.returnFft = false := by rw [ho]
  have hnk : o.normalizeKernel = .falsy := by rw [ho]
  have ha := nanStar_smooth cfg o hpl hb 0 hc
  have hid' : Spec.identifiable (Spec.candidates 10) fun p => Spec.star45 p - if false = true then Spec.mean Spec.star45 else 0 := by
    simpa using hid
  obtain ⟨b, h1, dx, dy, h2, m1, a1, a2, m2, b1, b2⟩ := C149_smooth_then_register (ny := 4) (nx := 5) cfg cfg' o hb ht
    hcr hrf 0 hc hnk Spec.nanStar (fun _ => 1) (by simp) 1 (-2) Spec.star45 ha 10 (by norm_num) (Or.inr ⟨by norm_num, by norm_num⟩) false hid'
  refine ⟨b, dx, dy, ha, h1, h2, ?_, ?_⟩
  · clear h1 h2 ha; obtain ⟨k, hk⟩ := m1.symm.dvd; push_cast at hk; omega
  · clear h1 h2 ha; obtain ⟨k, hk⟩ := m2.symm.dvd; push_cast at hk; omega

end ImgReg
