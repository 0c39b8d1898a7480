import Verif.Props.Smoothing

/-!
# The algebra of `convolvend` (C153)
-/

open Finset

namespace ImgReg

variable {D : ℕ} {s t : Fin D → ℕ} [∀ d, NeZero (s d)]

/-! ## Specification -/

/-- `α·x + β·y`, NaN if one of the two is NaN -/
def Spec.lin (α β : ℝ) : Pix → Pix → Pix
  | some a, some b => some (α * a + β * b)
  | _, _ => Option.none

/-- the pixel mirrored along the axes that `f` marks -/
def Spec.flipIdx {D : ℕ} {s : Fin D → ℕ} (f : Fin D → Bool) (i : Idx s) : Idx s := fun d => if f d then (i d).rev else i d

/-- the array mirrored along the axes that `f` marks -/
def Spec.flipND {D : ℕ} {s : Fin D → ℕ} {α : Type} (f : Fin D → Bool) (x : Idx s → α) : Idx s → α := fun i => x (Spec.flipIdx f i)

/-- Output pixel `i` lies at the displacement `z` from input pixel `j`: up to whole array lengths with periodic boundaries,
exactly with an array that ends at its edges. -/
def Spec.Edge.apart {D : ℕ} {s : Fin D → ℕ} (e : Spec.Edge) (i j : Idx s) (z : Fin D → ℤ) : Prop :=
  match e with
  | .wrap => ∀ d, ((i d : ℕ) : ℤ) - ((j d : ℕ) : ℤ) ≡ z d [ZMOD s d]
  | .fill => ∀ d, ((i d : ℕ) : ℤ) - ((j d : ℕ) : ℤ) = z d

open Classical in
/-- the kernel that does in one call what two calls with `κ` and `κ'` do: pixel `r` is the sum of `κ q · κ' q'` over all `q + q' = r` -/
noncomputable def Spec.composed {D : ℕ} {t t' : Fin D → ℕ} (κ : Idx t → ℝ) (κ' : Idx t' → ℝ) (r : Idx fun d => t d + t' d - 1) : ℝ :=
  ∑ q : Idx t, ∑ q' : Idx t', if ∀ d, (r d : ℕ) = (q d : ℕ) + (q' d : ℕ) then κ q * κ' q' else 0

/-! ## Lemmas -/

theorem wrap_plus {n : ℕ} [NeZero n] (z w : ℤ) : Spec.wrap n (z + w) = Spec.wrap n z + Spec.wrap n w := by
  rw [Spec.wrap_eq_iff]
  have h1 := Spec.wrap_modEq n z
  have h2 := Spec.wrap_modEq n w
  rw [Fin.val_add]
  push_cast
  exact (h1.add h2).symm.trans (Int.mod_modEq _ _).symm

omit [∀ d, NeZero (s d)] in
theorem apart_symm (e : Spec.Edge) (i j : Idx s) (z : Fin D → ℤ) : e.apart i j z ↔ e.apart j i fun d => -z d := by
  cases e with
  | wrap =>
    refine forall_congr' fun d => ?_
    rw [← Int.neg_modEq_neg]
    rw [neg_sub]
  | fill =>
    refine forall_congr' fun d => ?_
    constructor <;> intro h <;> linarith

open Classical in
/-- what the kernel pixel `q` sees is the one pixel at the displacement of `q`, if there is one -/
theorem seen_apart (e : Spec.Edge) (x : Idx s → ℝ) (i : Idx s) (q : Idx t) :
    e.seen x 0 i q = ∑ j : Idx s, if e.apart i j (Spec.fromCentre q) then x j else 0 := by
  cases e with
  | wrap =>
    show Spec.seenWrap x i q = _
    unfold Spec.seenWrap
    generalize hJ : (fun d => Spec.wrap (s d) (((i d : ℕ) : ℤ) + ((t d / 2 : ℕ) : ℤ) - ((q d : ℕ) : ℤ)) : Idx s) = J
    have key : ∀ j : Idx s, Spec.Edge.wrap.apart i j (Spec.fromCentre q) ↔ j = J := by
      intro j
      rw [← hJ, funext_iff]
      refine forall_congr' fun d => ?_
      rw [eq_comm (a := j d), Spec.wrap_eq_iff]
      unfold Spec.fromCentre
      rw [Int.modEq_iff_dvd, Int.modEq_iff_dvd]
      rw [show ((q d : ℕ) : ℤ) - ((t d / 2 : ℕ) : ℤ) - (((i d : ℕ) : ℤ) - ((j d : ℕ) : ℤ))
        = -(((i d : ℕ) : ℤ) + ((t d / 2 : ℕ) : ℤ) - ((q d : ℕ) : ℤ) - ((j d : ℕ) : ℤ)) by ring, dvd_neg, ← dvd_neg]
      rw [neg_sub]
    simp only [key]
    rw [Finset.sum_ite_eq' Finset.univ J]
    simp
  | fill =>
    show Spec.seenFill x 0 i q = _
    unfold Spec.seenFill Spec.extend
    split_ifs with h
    · rw [Finset.sum_eq_single (fun d => ⟨(((i d : ℕ) : ℤ) + ((t d / 2 : ℕ) : ℤ) - ((q d : ℕ) : ℤ)).toNat, by have := h d; beta_reduce at this; omega⟩ : Idx s)]
      · rw [if_pos]
        intro d
        have := h d
        beta_reduce at this
        unfold Spec.fromCentre
        show ((i d : ℕ) : ℤ) - (((((i d : ℕ) : ℤ) + ((t d / 2 : ℕ) : ℤ) - ((q d : ℕ) : ℤ)).toNat : ℕ) : ℤ) = _
        omega
      · intro j _ hj
        rw [if_neg]
        intro ha
        refine hj (funext fun d => Fin.ext ?_)
        have h1 := ha d
        have h2 := h d
        beta_reduce at h2
        unfold Spec.fromCentre at h1
        show (j d : ℕ) = (((i d : ℕ) : ℤ) + ((t d / 2 : ℕ) : ℤ) - ((q d : ℕ) : ℤ)).toNat
        omega
      · intro hn; exact absurd (Finset.mem_univ _) hn
    · symm
      refine Finset.sum_eq_zero fun j _ => ?_
      rw [if_neg]
      intro ha
      refine h fun d => ?_
      have h1 := ha d
      have h2 := (j d).isLt
      unfold Spec.fromCentre at h1
      beta_reduce
      omega

theorem seen_lin (e : Spec.Edge) (α β : ℝ) (x y : Idx s → ℝ) (i : Idx s) (q : Idx t) :
    e.seen (fun j => α * x j + β * y j) 0 i q = α * e.seen x 0 i q + β * e.seen y 0 i q := by
  cases e with
  | wrap => rfl
  | fill =>
    simp only [Spec.Edge.seen, Spec.seenFill, Spec.extend]
    split_ifs <;> ring

theorem flipIdx_flipIdx {s : Fin D → ℕ} (f : Fin D → Bool) (i : Idx s) : Spec.flipIdx f (Spec.flipIdx f i) = i := by
  funext d
  unfold Spec.flipIdx
  split_ifs <;> simp

theorem sum_flipIdx {s : Fin D → ℕ} (f : Fin D → Bool) (g : Idx s → ℝ) : ∑ i, g (Spec.flipIdx f i) = ∑ i, g i :=
  Equiv.sum_comp ⟨Spec.flipIdx f, Spec.flipIdx f, flipIdx_flipIdx f, flipIdx_flipIdx f⟩ g

/-- mirroring array and kernel mirrors what is seen -/
theorem seen_flip {α : Type} (f : Fin D → Bool) (hf : ∀ d, f d = true → Odd (t d)) (e : Spec.Edge) (a : Idx s → α) (c : α) (i : Idx s) (q : Idx t) :
    e.seen (Spec.flipND f a) c i q = e.seen a c (Spec.flipIdx f i) (Spec.flipIdx f q) := by
  have hv : ∀ (n : ℕ) (k : Fin n), ((k.rev : ℕ) : ℤ) = n - 1 - ((k : ℕ) : ℤ) := by
    intro n k; have := k.isLt; rw [Fin.val_rev]; omega
  have hz : ∀ d, f d = true → (((i d).rev : ℕ) : ℤ) + ((t d / 2 : ℕ) : ℤ) - (((q d).rev : ℕ) : ℤ)
      = s d - 1 - (((i d : ℕ) : ℤ) + ((t d / 2 : ℕ) : ℤ) - ((q d : ℕ) : ℤ)) := by
    intro d hd
    obtain ⟨m, hm⟩ := hf d hd
    rw [hv, hv]
    omega
  cases e with
  | wrap =>
    show a _ = a _
    congr 1
    funext d
    unfold Spec.flipIdx
    by_cases hd : f d = true
    · simp only [hd, if_true]
      rw [hz d hd]
      symm
      rw [Spec.wrap_eq_iff, hv]
      exact Int.ModEq.sub_left _ (Spec.wrap_modEq (s d) _).symm
    · simp only [hd]
      rfl
  | fill =>
    show Spec.extend (Spec.flipND f a) c _ = Spec.extend a c _
    unfold Spec.extend
    have hx : ∀ d, (((Spec.flipIdx f i) d : ℕ) : ℤ) + ((t d / 2 : ℕ) : ℤ) - (((Spec.flipIdx f q) d : ℕ) : ℤ)
        = if f d then s d - 1 - (((i d : ℕ) : ℤ) + ((t d / 2 : ℕ) : ℤ) - ((q d : ℕ) : ℤ))
          else ((i d : ℕ) : ℤ) + ((t d / 2 : ℕ) : ℤ) - ((q d : ℕ) : ℤ) := by
      intro d
      unfold Spec.flipIdx
      by_cases hd : f d = true
      · simp only [hd, if_true]; exact hz d hd
      · simp only [hd]; rfl
    have hiff : (∀ d, 0 ≤ ((i d : ℕ) : ℤ) + ((t d / 2 : ℕ) : ℤ) - ((q d : ℕ) : ℤ) ∧
          ((i d : ℕ) : ℤ) + ((t d / 2 : ℕ) : ℤ) - ((q d : ℕ) : ℤ) < s d) ↔
        (∀ d, 0 ≤ (((Spec.flipIdx f i) d : ℕ) : ℤ) + ((t d / 2 : ℕ) : ℤ) - (((Spec.flipIdx f q) d : ℕ) : ℤ) ∧
          (((Spec.flipIdx f i) d : ℕ) : ℤ) + ((t d / 2 : ℕ) : ℤ) - (((Spec.flipIdx f q) d : ℕ) : ℤ) < s d) := by
      refine forall_congr' fun d => ?_
      rw [hx]
      split_ifs <;> omega
    split_ifs with h1 h2 h2
    · show a _ = a _
      congr 1
      funext d
      have hh := h1 d
      beta_reduce at hh
      have hxd := hx d
      apply Fin.ext
      show ((if f d then (_ : Fin (s d)).rev else _ : Fin (s d)) : ℕ) = _
      by_cases hd : f d = true
      · simp only [hd, if_true] at hxd ⊢
        rw [Fin.val_rev, hxd]
        show s d - ((((i d : ℕ) : ℤ) + ((t d / 2 : ℕ) : ℤ) - ((q d : ℕ) : ℤ)).toNat + 1) = _
        omega
      · simp only [hd] at hxd ⊢
        show (((i d : ℕ) : ℤ) + ((t d / 2 : ℕ) : ℤ) - ((q d : ℕ) : ℤ)).toNat = _
        rw [hxd]
        rfl
    · exact absurd (hiff.1 h1) h2
    · exact absurd (hiff.2 h2) h1
    · rfl

/-- one pixel of the result, whatever the NaN treatment -/
private noncomputable def pix (o : ConvArgs (Idx t)) (e : Spec.Edge) (c : ℝ) (x : Idx s → Pix) (κ : Idx t → ℝ) (i : Idx s) : Pix :=
  if o.interpolateNan = true ∨ o.ignoreEdgeZeros = true then
    Spec.divide (∑ q : Idx t, e.seen (Spec.nan0 x) c i q * κ q)
      (max 0 (∑ q : Idx t, e.seen (fun j => if o.interpolateNan = true ∧ x j = Option.none then (0 : ℝ) else 1)
        (if o.ignoreEdgeZeros then 0 else 1) i q * κ q)) o.minWt
  else some (∑ q : Idx t, e.seen (Spec.nan0 x) c i q * κ q)

private theorem any_nan (cfg : FFTConfig) (o : ConvArgs (Idx t)) (e : Spec.Edge) (he : e.Selected s t o.boundary)
    (hcrop : o.crop = true) (hret : o.returnFft = false) (c : ℝ) (hc : o.fillValue = some (c : ℂ)) (hnk : o.normalizeKernel = .falsy)
    (x : Idx s → Pix) (κ : Idx t → ℝ) (hκ : ∑ q, κ q = 1) :
    convolvend cfg o (toC x) (rArr κ) = .ok (.real s (pix o e c x κ)) := by
  by_cases hw : o.interpolateNan = true ∨ o.ignoreEdgeZeros = true
  · rw [C63_weighted cfg o e he hcrop hret c hc hnk hw x κ hκ]
    congr 2
    funext i
    unfold pix
    rw [if_pos hw]
  · have ho : Spec.Plain o := ⟨hcrop, hret, by simpa using fun h => hw (.inl h), by simpa using fun h => hw (.inr h), hnk⟩
    have hκr : rArr κ = toC (realArr κ) := rfl
    rw [hκr, plain_real cfg o ho e he c hc x (realArr κ)]
    congr 2
    funext i
    unfold pix
    rw [if_neg hw]
    rfl

/-! ## The properties -/

/-- C153: linear in the array, for every NaN treatment, `min_wt` included (kernel of sum 1, NaNs of the two arrays at the same pixels;
`boundary='wrap'` with a kernel not larger than the array, or `'fill'`/`None` with value 0): the result for `α·x + β·y` is `α` times the result
for `x` plus `β` times the result for `y`, and its NaNs are theirs. -/
theorem C153_linear (cfg : FFTConfig) (o : ConvArgs (Idx t)) (e : Spec.Edge) (he : e.Selected s t o.boundary)
    (hcrop : o.crop = true) (hret : o.returnFft = false) (hc : o.fillValue = some ((0 : ℝ) : ℂ)) (hnk : o.normalizeKernel = .falsy)
    (x y : Idx s → Pix) (hxy : ∀ j, x j = Option.none ↔ y j = Option.none) (κ : Idx t → ℝ) (hκ : ∑ q, κ q = 1) (α β : ℝ) :
    ∃ u v : Idx s → Pix, convolvend cfg o (toC x) (rArr κ) = .ok (.real s u) ∧ convolvend cfg o (toC y) (rArr κ) = .ok (.real s v) ∧
      convolvend cfg o (toC fun j => Spec.lin α β (x j) (y j)) (rArr κ) = .ok (.real s fun i => Spec.lin α β (u i) (v i)) := by
  refine ⟨_, _, any_nan cfg o e he hcrop hret 0 hc hnk x κ hκ, any_nan cfg o e he hcrop hret 0 hc hnk y κ hκ, ?_⟩
  rw [any_nan cfg o e he hcrop hret 0 hc hnk _ κ hκ]
  congr 2
  funext i
  have h1 : Spec.nan0 (fun j => Spec.lin α β (x j) (y j)) = fun j => α * Spec.nan0 x j + β * Spec.nan0 y j := by
    funext j
    unfold Spec.nan0
    have := hxy j
    rcases hx : x j with _ | a <;> rcases hy : y j with _ | b <;> simp_all [Spec.lin]
  have h2 : ∀ j, (Spec.lin α β (x j) (y j) = Option.none) = (x j = Option.none) := by
    intro j
    have := hxy j
    rcases hx : x j with _ | a <;> rcases hy : y j with _ | b <;> simp_all [Spec.lin]
  have h3 : ∀ j, (y j = Option.none) = (x j = Option.none) := fun j => propext (hxy j).symm
  have h4 : ∑ q : Idx t, e.seen (Spec.nan0 fun j => Spec.lin α β (x j) (y j)) 0 i q * κ q
      = α * (∑ q : Idx t, e.seen (Spec.nan0 x) 0 i q * κ q) + β * ∑ q : Idx t, e.seen (Spec.nan0 y) 0 i q * κ q := by
    rw [h1, Finset.mul_sum, Finset.mul_sum, ← Finset.sum_add_distrib]
    refine Finset.sum_congr rfl fun q _ => ?_
    rw [seen_lin]; ring
  unfold pix
  rw [h4]
  simp only [h2, h3]
  generalize max 0 (∑ q : Idx t, e.seen (fun j => if o.interpolateNan = true ∧ x j = Option.none then (0 : ℝ) else 1)
        (if o.ignoreEdgeZeros = true then 0 else 1) i q * κ q) = W
  split_ifs
  · unfold Spec.divide
    split_ifs
    · simp [Spec.lin]
    · rfl
    · show some _ = some _
      congr 1
      ring
  · rfl

/-- C153: linear in the kernel (plain arguments, any fill value). -/
theorem C153_kernel_linear (cfg : FFTConfig) (o : ConvArgs (Idx t)) (ho : Spec.Plain o) (e : Spec.Edge) (he : e.Selected s t o.boundary)
    (c : ℝ) (hc : o.fillValue = some (c : ℂ)) (x : Idx s → Pix) (κ κ' : Idx t → ℝ) (α β : ℝ) :
    ∃ u v : Idx s → ℝ, convolvend cfg o (toC x) (rArr κ) = .ok (.real s (realArr u)) ∧
      convolvend cfg o (toC x) (rArr κ') = .ok (.real s (realArr v)) ∧
      convolvend cfg o (toC x) (rArr fun q => α * κ q + β * κ' q) = .ok (.real s (realArr fun i => α * u i + β * v i)) := by
  refine ⟨_, _, plain_real cfg o ho e he c hc x (realArr κ), plain_real cfg o ho e he c hc x (realArr κ'), ?_⟩
  refine (plain_real cfg o ho e he c hc x (realArr fun q => α * κ q + β * κ' q)).trans ?_
  congr 2
  funext i
  refine congrArg some ?_
  beta_reduce
  rw [Finset.mul_sum, Finset.mul_sum, ← Finset.sum_add_distrib]
  refine Finset.sum_congr rfl fun q _ => ?_
  show _ * (α * κ q + β * κ' q) = α * (_ * κ q) + β * (_ * κ' q)
  ring

open Classical in
/-- C153: a single bright pixel `p` of value 1 comes back as the image of the kernel, not mirrored, its pixel `t//2` at `p`: output pixel `i` is the sum of
the kernel pixels whose displacement from the centre is that of `i` from `p` (at most one pixel; modulo the array lengths with `boundary='wrap'`). -/
theorem C153_impulse (cfg : FFTConfig) (o : ConvArgs (Idx t)) (ho : Spec.Plain o) (e : Spec.Edge) (he : e.Selected s t o.boundary)
    (hc : o.fillValue = some ((0 : ℝ) : ℂ)) (p : Idx s) (κ : Idx t → ℝ) :
    ∃ out : Idx s → ℝ, convolvend cfg o (toC (realArr fun j => if j = p then 1 else 0)) (rArr κ) = .ok (.real s (realArr out)) ∧
      (∀ (i : Idx s) (q : Idx t), e.apart i p (Spec.fromCentre q) → out i = κ q) ∧
      ∀ i : Idx s, (∀ q : Idx t, ¬ e.apart i p (Spec.fromCentre q)) → out i = 0 := by
  have hval : ∀ (i : Idx s) (q : Idx t), e.seen (Spec.nan0 (realArr fun j : Idx s => if j = p then (1 : ℝ) else 0)) 0 i q
      = if e.apart i p (Spec.fromCentre q) then 1 else 0 := by
    intro i q
    rw [seen_apart, Finset.sum_eq_single p]
    · show (if _ then (if p = p then (1 : ℝ) else 0) else 0) = _
      rw [if_pos rfl]
    · intro j _ hj
      show (if _ then (if j = p then (1 : ℝ) else 0) else 0) = _
      rw [if_neg hj, ite_self]
    · intro h; exact absurd (Finset.mem_univ _) h
  refine ⟨_, plain_real cfg o ho e he 0 hc _ (realArr κ), fun i q hq => ?_, fun i hi => ?_⟩
  · show ∑ r : Idx t, _ * κ r = _
    rw [Finset.sum_eq_single q]
    · rw [hval, if_pos hq, one_mul]
    · intro r _ hr
      rw [hval, if_neg, zero_mul]
      intro h
      refine hr (funext fun d => Fin.ext ?_)
      cases e with
      | wrap =>
        have h1 := ((hq d).symm.trans (h d))
        have hts := he.2 d
        unfold Spec.fromCentre at h1
        have h2 : ((q d : ℕ) : ℤ) ≡ ((r d : ℕ) : ℤ) [ZMOD s d] := by
          have := h1.add_right ((t d / 2 : ℕ) : ℤ)
          simpa using this
        have h3 := Int.natCast_modEq_iff.1 h2
        have hq' := (q d).isLt
        have hr' := (r d).isLt
        exact (Nat.ModEq.eq_of_lt_of_lt h3 (by omega) (by omega)).symm
      | fill =>
        have h1 := hq d
        have h2 := h d
        unfold Spec.fromCentre at h1 h2
        omega
    · intro h; exact absurd (Finset.mem_univ _) h
  · refine Finset.sum_eq_zero fun r _ => ?_
    rw [hval, if_neg (hi r), zero_mul]

/-- C153: the transposed operation is the same call with the mirrored kernel (odd kernel sizes, plain arguments): the sum of `w` times the smoothed `x` is the
sum of `x` times `w` smoothed with the mirrored kernel.  (`f` marks all axes.) -/
theorem C153_adjoint (cfg : FFTConfig) (o : ConvArgs (Idx t)) (ho : Spec.Plain o) (e : Spec.Edge) (he : e.Selected s t o.boundary)
    (hc : o.fillValue = some ((0 : ℝ) : ℂ)) (hodd : ∀ d, Odd (t d)) (x w : Idx s → ℝ) (κ : Idx t → ℝ) :
    ∃ u v : Idx s → ℝ, convolvend cfg o (rArr x) (rArr κ) = .ok (.real s (realArr u)) ∧
      convolvend cfg o (rArr w) (rArr (Spec.flipND (fun _ => true) κ)) = .ok (.real s (realArr v)) ∧
      ∑ i, w i * u i = ∑ i, x i * v i := by
  classical
  refine ⟨_, _, plain_real cfg o ho e he 0 hc (realArr x) (realArr κ),
    plain_real cfg o ho e he 0 hc (realArr w) (realArr (Spec.flipND (fun _ => true) κ)), ?_⟩
  have hz : ∀ q : Idx t, Spec.fromCentre (Spec.flipIdx (fun _ => true) q) = fun d => -Spec.fromCentre q d := by
    intro q
    funext d
    unfold Spec.fromCentre Spec.flipIdx
    obtain ⟨m, hm⟩ := hodd d
    have := (q d).isLt
    simp only [if_true, Fin.val_rev]
    omega
  have h1 : ∑ i : Idx s, w i * (∑ q : Idx t, e.seen x 0 i q * κ q)
      = ∑ q : Idx t, ∑ i : Idx s, ∑ j : Idx s, if e.apart i j (Spec.fromCentre q) then w i * x j * κ q else 0 := by
    rw [Finset.sum_comm]
    refine Finset.sum_congr rfl fun i _ => ?_
    rw [Finset.mul_sum]
    refine Finset.sum_congr rfl fun q _ => ?_
    rw [seen_apart, Finset.sum_mul, Finset.mul_sum]
    refine Finset.sum_congr rfl fun j _ => ?_
    split_ifs <;> ring
  have h2 : ∑ i : Idx s, x i * (∑ q : Idx t, e.seen w 0 i q * Spec.flipND (fun _ => true) κ q)
      = ∑ q : Idx t, ∑ i : Idx s, ∑ j : Idx s, if e.apart i j (Spec.fromCentre q) then w i * x j * κ q else 0 := by
    have h3 : ∀ i : Idx s, ∑ q : Idx t, e.seen w 0 i q * Spec.flipND (fun _ => true) κ q
        = ∑ q : Idx t, e.seen w 0 i (Spec.flipIdx (fun _ => true) q) * κ q := by
      intro i
      rw [← sum_flipIdx (fun _ => true)]
      refine Finset.sum_congr rfl fun q _ => ?_
      unfold Spec.flipND
      rw [flipIdx_flipIdx]
    simp only [h3]
    have h4 : ∀ i : Idx s, x i * (∑ q : Idx t, e.seen w 0 i (Spec.flipIdx (fun _ => true) q) * κ q)
        = ∑ q : Idx t, ∑ j : Idx s, if e.apart j i (Spec.fromCentre q) then w j * x i * κ q else 0 := by
      intro i
      rw [Finset.mul_sum]
      refine Finset.sum_congr rfl fun q _ => ?_
      rw [seen_apart, Finset.sum_mul, Finset.mul_sum]
      refine Finset.sum_congr rfl fun j _ => ?_
      rw [hz]
      have := apart_symm e j i (Spec.fromCentre q)
      simp only [this]
      split_ifs <;> ring
    simp only [h4]
    rw [Finset.sum_comm]
    refine Finset.sum_congr rfl fun q _ => ?_
    rw [Finset.sum_comm]
  exact h1.trans h2.symm

/-- C153: mirroring array and kernel along some axes mirrors the result, for every NaN treatment (kernel of sum 1 and of odd size along these axes; any fill value). -/
theorem C153_mirror (cfg : FFTConfig) (o : ConvArgs (Idx t)) (e : Spec.Edge) (he : e.Selected s t o.boundary)
    (hcrop : o.crop = true) (hret : o.returnFft = false) (c : ℝ) (hc : o.fillValue = some (c : ℂ)) (hnk : o.normalizeKernel = .falsy)
    (f : Fin D → Bool) (hf : ∀ d, f d = true → Odd (t d)) (x : Idx s → Pix) (κ : Idx t → ℝ) (hκ : ∑ q, κ q = 1) :
    ∃ out : Idx s → Pix, convolvend cfg o (toC x) (rArr κ) = .ok (.real s out) ∧
      convolvend cfg o (toC (Spec.flipND f x)) (rArr (Spec.flipND f κ)) = .ok (.real s (Spec.flipND f out)) := by
  refine ⟨_, any_nan cfg o e he hcrop hret c hc hnk x κ hκ, ?_⟩
  rw [any_nan cfg o e he hcrop hret c hc hnk (Spec.flipND f x) (Spec.flipND f κ) ((sum_flipIdx f κ).trans hκ)]
  congr 2
  funext i
  have key : ∀ (a : Idx s → ℝ) (b : ℝ), ∑ q : Idx t, e.seen (Spec.flipND f a) b i q * Spec.flipND f κ q
      = ∑ q : Idx t, e.seen a b (Spec.flipIdx f i) q * κ q := by
    intro a b
    rw [← sum_flipIdx f fun q => e.seen a b (Spec.flipIdx f i) q * κ q]
    refine Finset.sum_congr rfl fun q _ => ?_
    rw [seen_flip f hf]
    rfl
  have h1 := key (Spec.nan0 x) c
  have h2 := key (fun j => if o.interpolateNan = true ∧ x j = Option.none then (0 : ℝ) else 1) (if o.ignoreEdgeZeros then 0 else 1)
  show pix o e c (Spec.flipND f x) (Spec.flipND f κ) i = pix o e c x κ (Spec.flipIdx f i)
  unfold pix
  rw [← h1, ← h2]
  rfl

/-- C153: order is kept (plain arguments, non-negative kernel): if no pixel of `x` exceeds that of `y`, no pixel of the result does. -/
theorem C153_monotone (cfg : FFTConfig) (o : ConvArgs (Idx t)) (ho : Spec.Plain o) (e : Spec.Edge) (he : e.Selected s t o.boundary)
    (c : ℝ) (hc : o.fillValue = some (c : ℂ)) (x y : Idx s → ℝ) (hxy : ∀ j, x j ≤ y j) (κ : Idx t → ℝ) (hκ : ∀ q, 0 ≤ κ q) :
    ∃ u v : Idx s → ℝ, convolvend cfg o (rArr x) (rArr κ) = .ok (.real s (realArr u)) ∧
      convolvend cfg o (rArr y) (rArr κ) = .ok (.real s (realArr v)) ∧ ∀ i, u i ≤ v i := by
  refine ⟨_, _, plain_real cfg o ho e he c hc (realArr x) (realArr κ), plain_real cfg o ho e he c hc (realArr y) (realArr κ), fun i => ?_⟩
  refine Finset.sum_le_sum fun q _ => mul_le_mul_of_nonneg_right ?_ (hκ q)
  cases e with
  | wrap => exact hxy _
  | fill =>
    simp only [Spec.Edge.seen, Spec.seenFill, Spec.extend]
    split_ifs
    · exact hxy _
    · exact le_rfl

/-- C153: two calls are one call with the composed kernel (`boundary='wrap'`, plain arguments; along each axis one of the kernels has odd size; the composed kernel,
of size `t + t' - 1`, not larger than the array). -/
theorem C153_twice {t' : Fin D → ℕ} (cfg cfg' cfg'' : FFTConfig) (o : ConvArgs (Idx t)) (o' : ConvArgs (Idx t')) (o'' : ConvArgs (Idx fun d => t d + t' d - 1))
    (ho : Spec.Plain o) (ho' : Spec.Plain o') (ho'' : Spec.Plain o'')
    (hb : o.boundary = .wrap) (hb' : o'.boundary = .wrap) (hb'' : o''.boundary = .wrap)
    (ht : ∀ d, 1 ≤ t d) (ht' : ∀ d, 1 ≤ t' d) (hsz : ∀ d, t d + t' d - 1 ≤ s d) (hpar : ∀ d, Odd (t d) ∨ Odd (t' d))
    (c c' c'' : ℝ) (hc : o.fillValue = some (c : ℂ)) (hc' : o'.fillValue = some (c' : ℂ)) (hc'' : o''.fillValue = some (c'' : ℂ))
    (x : Idx s → Pix) (κ : Idx t → ℝ) (κ' : Idx t' → ℝ) :
    ∃ a both : Idx s → ℝ,
      convolvend cfg o (toC x) (rArr κ) = .ok (.real s (realArr a)) ∧
      convolvend cfg' o' (rArr a) (rArr κ') = .ok (.real s (realArr both)) ∧
      convolvend cfg'' o'' (toC x) (rArr (Spec.composed κ κ')) = .ok (.real s (realArr both)) := by
  classical
  have l : ∀ d, t d ≤ s d := fun d => by have := ht d; have := ht' d; have := hsz d; omega
  have l' : ∀ d, t' d ≤ s d := fun d => by have := ht d; have := ht' d; have := hsz d; omega
  refine ⟨_, _, smooth_wrap cfg o ho hb l c hc x κ, smooth_wrap cfg' o' ho' hb' l' c' hc' (realArr _) κ', ?_⟩
  refine (smooth_wrap cfg'' o'' ho'' hb'' hsz c'' hc'' x (Spec.composed κ κ')).trans ?_
  congr 2
  funext i
  refine congrArg some ?_
  show ∑ r : Idx fun d => t d + t' d - 1, Spec.rollND (Spec.fromCentre r) (Spec.nan0 x) i * Spec.composed κ κ' r
    = ∑ q' : Idx t', (∑ q : Idx t, Spec.rollND (Spec.fromCentre q') (Spec.rollND (Spec.fromCentre q) (Spec.nan0 x)) i * κ q) * κ' q'
  have h1 : ∀ r : Idx fun d => t d + t' d - 1, Spec.rollND (Spec.fromCentre r) (Spec.nan0 x) i * Spec.composed κ κ' r
      = ∑ q' : Idx t', ∑ q : Idx t, if ∀ d, (r d : ℕ) = (q d : ℕ) + (q' d : ℕ) then
          Spec.rollND (Spec.fromCentre r) (Spec.nan0 x) i * (κ q * κ' q') else 0 := by
    intro r
    unfold Spec.composed
    rw [Finset.sum_comm, Finset.mul_sum]
    refine Finset.sum_congr rfl fun q' _ => ?_
    rw [Finset.mul_sum]
    refine Finset.sum_congr rfl fun q _ => ?_
    split_ifs
    · rfl
    · rw [mul_zero]
  rw [Finset.sum_congr rfl fun r _ => h1 r, Finset.sum_comm]
  refine Finset.sum_congr rfl fun q' _ => ?_
  rw [Finset.sum_comm, Finset.sum_mul]
  refine Finset.sum_congr rfl fun q _ => ?_
  have hlt : ∀ d, (q d : ℕ) + (q' d : ℕ) < t d + t' d - 1 := fun d => by have := (q d).isLt; have := (q' d).isLt; omega
  rw [Finset.sum_eq_single (fun d => ⟨(q d : ℕ) + (q' d : ℕ), hlt d⟩ : Idx fun d => t d + t' d - 1)]
  · rw [if_pos fun d => rfl]
    have hz : Spec.rollND (Spec.fromCentre (fun d => ⟨(q d : ℕ) + (q' d : ℕ), hlt d⟩ : Idx fun d => t d + t' d - 1)) (Spec.nan0 x)
        = Spec.rollND (Spec.fromCentre q') (Spec.rollND (Spec.fromCentre q) (Spec.nan0 x)) := by
      rw [rollND_eq, rollND_eq, rollND_eq]
      funext k
      beta_reduce
      rw [sub_sub]
      congr 2
      funext d
      have hc : Spec.fromCentre (fun d => ⟨(q d : ℕ) + (q' d : ℕ), hlt d⟩ : Idx fun d => t d + t' d - 1) d
          = Spec.fromCentre q' d + Spec.fromCentre q d := by
        unfold Spec.fromCentre
        have h1 := hpar d
        have h2 := ht d
        have h3 := ht' d
        have h4 : (t d + t' d - 1) / 2 = t d / 2 + t' d / 2 := by
          rcases h1 with ⟨m, hm⟩ | ⟨m, hm⟩ <;> omega
        show (((q d : ℕ) + (q' d : ℕ) : ℕ) : ℤ) - (((t d + t' d - 1) / 2 : ℕ) : ℤ) = _
        rw [h4]
        push_cast
        ring
      show Spec.wrap (s d) _ = Spec.wrap (s d) _ + Spec.wrap (s d) _
      rw [hc]
      rw [wrap_plus]
    rw [hz]
    ring
  · intro r _ hr
    rw [if_neg]
    intro h
    exact hr (funext fun d => Fin.ext (h d))
  · intro h; exact absurd (Finset.mem_univ _) h

/-! ## Cases that meet the conditions -/

/-- the kernel `[1/4, 1/2, 1/4]` -/
noncomputable def Spec.hat3 (q : Idx fun _ : Fin 1 => 3) : ℝ := if (q 0 : ℕ) = 1 then 1 / 2 else 1 / 4

theorem hat3_sum : ∑ q, Spec.hat3 q = 1 := by
  rw [← Equiv.sum_comp (Equiv.funUnique (Fin 1) (Fin 3)).symm, Fin.sum_univ_three]
  unfold Spec.hat3
  norm_num [Equiv.funUnique]

/-- seven pixels, the fourth NaN, interpolated over by `[1/4, 1/2, 1/4]`: `2·x - y` -/
example (cfg : FFTConfig) (o : ConvArgs (Idx fun _ : Fin 1 => 3)) (ho : o = { boundary := .wrap, interpolateNan := true }) (a b : ℕ → ℝ) :
    let x : (ℕ → ℝ) → Idx (fun _ : Fin 1 => 7) → Pix := fun a j => if (j 0 : ℕ) = 3 then Option.none else some (a (j 0))
    ∃ u v : Idx (fun _ : Fin 1 => 7) → Pix, convolvend cfg o (toC (x a)) (rArr Spec.hat3) = .ok (.real (fun _ => 7) u) ∧
      convolvend cfg o (toC (x b)) (rArr Spec.hat3) = .ok (.real (fun _ => 7) v) ∧
      convolvend cfg o (toC fun j => Spec.lin 2 (-1) (x a j) (x b j)) (rArr Spec.hat3) = .ok (.real (fun _ => 7) fun i => Spec.lin 2 (-1) (u i) (v i)) :=
  C153_linear cfg o .wrap ⟨by rw [ho], fun _ => by norm_num⟩ (by rw [ho]) (by rw [ho]) (by rw [ho]; simp) (by rw [ho]) _ _
    (fun j => by by_cases h : (j 0 : ℕ) = 3 <;> simp [h]) _ hat3_sum 2 (-1)

/-- the mirrored array and kernel of the same kind -/
example (cfg : FFTConfig) (o : ConvArgs (Idx fun _ : Fin 1 => 3)) (ho : o = { boundary := .fill, interpolateNan := true }) (x : Idx (fun _ : Fin 1 => 7) → Pix) :
    ∃ out : Idx (fun _ : Fin 1 => 7) → Pix, convolvend cfg o (toC x) (rArr Spec.hat3) = .ok (.real (fun _ => 7) out) ∧
      convolvend cfg o (toC (Spec.flipND (fun _ => true) x)) (rArr (Spec.flipND (fun _ => true) Spec.hat3)) = .ok (.real (fun _ => 7) (Spec.flipND (fun _ => true) out)) :=
  C153_mirror cfg o .fill (Or.inl (by rw [ho])) (by rw [ho]) (by rw [ho]) 0 (by rw [ho]; simp) (by rw [ho]) _ (fun _ _ => ⟨1, by norm_num⟩) _ _ hat3_sum

/-- pixel 2 of seven, smoothed by `[1/4, 1/2, 1/4]` without wrapping: a quarter of it arrives in pixel 3, nothing in pixel 5 -/
example (cfg : FFTConfig) (o : ConvArgs (Idx fun _ : Fin 1 => 3)) (ho : o = { boundary := .fill }) :
    ∃ out : Idx (fun _ : Fin 1 => 7) → ℝ, convolvend cfg o (toC (realArr fun j => if j = (fun _ => (2 : Fin 7)) then 1 else 0)) (rArr Spec.hat3) = .ok (.real (fun _ => 7) (realArr out)) ∧
      out (fun _ => (3 : Fin 7)) = 1 / 4 ∧ out (fun _ => (5 : Fin 7)) = 0 := by
  obtain ⟨out, h1, h2, h3⟩ := C153_impulse cfg o (by rw [ho]; exact ⟨rfl, rfl, rfl, rfl, rfl⟩) .fill (Or.inl (by rw [ho])) (by rw [ho]; simp)
    (fun _ => (2 : Fin 7)) Spec.hat3
  refine ⟨out, ?_, ?_, h3 _ ?_⟩
  · rw [← h1]
  · rw [h2 (fun _ => (3 : Fin 7)) (fun _ => (2 : Fin 3)) (fun d => by simp [Spec.fromCentre])]
    simp [Spec.hat3]
  · intro q hq
    have h4 := hq 0
    have : (q 0 : ℕ) < 3 := (q 0).isLt
    unfold Spec.fromCentre at h4
    simp at h4
    omega

/-- twice by `[1/4, 1/2, 1/4]` is once by the composed kernel of five pixels, in an array of seven -/
example (cfg : FFTConfig) (o : ConvArgs (Idx fun _ : Fin 1 => 3)) (ho : o = { boundary := .wrap })
    (o' : ConvArgs (Idx fun _ : Fin 1 => 3 + 3 - 1)) (ho' : o' = { boundary := .wrap }) (x : Idx (fun _ : Fin 1 => 7) → Pix) :
    ∃ a both : Idx (fun _ : Fin 1 => 7) → ℝ, convolvend cfg o (toC x) (rArr Spec.hat3) = .ok (.real (fun _ => 7) (realArr a)) ∧
      convolvend cfg o (rArr a) (rArr Spec.hat3) = .ok (.real (fun _ => 7) (realArr both)) ∧
      convolvend cfg o' (toC x) (rArr (Spec.composed Spec.hat3 Spec.hat3)) = .ok (.real (fun _ => 7) (realArr both)) :=
  C153_twice cfg cfg cfg o o o' (by rw [ho]; exact ⟨rfl, rfl, rfl, rfl, rfl⟩) (by rw [ho]; exact ⟨rfl, rfl, rfl, rfl, rfl⟩)
    (by rw [ho']; exact ⟨rfl, rfl, rfl, rfl, rfl⟩) (by rw [ho]) (by rw [ho]) (by rw [ho']) (fun _ => by norm_num) (fun _ => by norm_num)
    (fun _ => by norm_num) (fun _ => Or.inl ⟨1, by norm_num⟩) 0 0 0 (by rw [ho]; simp) (by rw [ho]; simp) (by rw [ho']; simp) x _ _

/-- the remaining statements, for the same sizes -/
example (cfg : FFTConfig) (o : ConvArgs (Idx fun _ : Fin 1 => 3)) (ho : o = { boundary := .wrap }) (x w : Idx (fun _ : Fin 1 => 7) → ℝ) (h : ∀ j, x j ≤ w j) :
    ∃ u v : Idx (fun _ : Fin 1 => 7) → ℝ, convolvend cfg o (rArr x) (rArr Spec.hat3) = .ok (.real (fun _ => 7) (realArr u)) ∧
      convolvend cfg o (rArr w) (rArr Spec.hat3) = .ok (.real (fun _ => 7) (realArr v)) ∧ ∀ i, u i ≤ v i :=
  C153_monotone cfg o (by rw [ho]; exact ⟨rfl, rfl, rfl, rfl, rfl⟩) .wrap ⟨by rw [ho], fun _ => by norm_num⟩ 0 (by rw [ho]; simp) x w h _
    (fun q => by unfold Spec.hat3; split_ifs <;> norm_num)

example (cfg : FFTConfig) (o : ConvArgs (Idx fun _ : Fin 1 => 3)) (ho : o = { boundary := .fill }) (x w : Idx (fun _ : Fin 1 => 7) → ℝ) :
    ∃ u v : Idx (fun _ : Fin 1 => 7) → ℝ, convolvend cfg o (rArr x) (rArr Spec.hat3) = .ok (.real (fun _ => 7) (realArr u)) ∧
      convolvend cfg o (rArr w) (rArr (Spec.flipND (fun _ => true) Spec.hat3)) = .ok (.real (fun _ => 7) (realArr v)) ∧ ∑ i, w i * u i = ∑ i, x i * v i :=
  C153_adjoint cfg o (by rw [ho]; exact ⟨rfl, rfl, rfl, rfl, rfl⟩) .fill (Or.inl (by rw [ho])) (by rw [ho]; simp) (fun _ => ⟨1, by norm_num⟩) x w _

example (cfg : FFTConfig) (o : ConvArgs (Idx fun _ : Fin 1 => 3)) (ho : o = { boundary := .fill }) (x : Idx (fun _ : Fin 1 => 7) → Pix) (κ : Idx (fun _ : Fin 1 => 3) → ℝ) :
    ∃ u v : Idx (fun _ : Fin 1 => 7) → ℝ, convolvend cfg o (toC x) (rArr Spec.hat3) = .ok (.real (fun _ => 7) (realArr u)) ∧
      convolvend cfg o (toC x) (rArr κ) = .ok (.real (fun _ => 7) (realArr v)) ∧
      convolvend cfg o (toC x) (rArr fun q => 1 * Spec.hat3 q + (-2) * κ q) = .ok (.real (fun _ => 7) (realArr fun i => 1 * u i + (-2) * v i)) :=
  C153_kernel_linear cfg o (by rw [ho]; exact ⟨rfl, rfl, rfl, rfl, rfl⟩) .fill (Or.inl (by rw [ho])) 0 (by rw [ho]; simp) x _ κ 1 (-2)

end ImgReg
