import Verif.Model.FitsMatch
import Mathlib.Algebra.Order.BigOperators.Group.Finset
import Mathlib.Algebra.BigOperators.Group.List.Basic
import Mathlib.Data.Fin.VecNotation
import Mathlib.Algebra.BigOperators.Fin
import Mathlib.Tactic.FinCases
import Mathlib.Tactic.NormNum

/-!
# Specification of the noise estimates (standard deviation, scaled median absolute deviation), and the model's list
statistics
-/

open Finset

namespace ImgReg

section spec
variable {ι : Type} [Fintype ι]

open Classical in
/-- number of pixels that are not NaN and satisfy `P` -/
noncomputable def Spec.count (v : ι → Pix) (P : ℝ → Prop) : ℕ := (univ.filter fun i => ∃ x, v i = some x ∧ P x).card

/-- number of pixels that are not NaN -/
noncomputable def Spec.size (v : ι → Pix) : ℕ := Spec.count v fun _ => True

/-- `x` is the value number `k` (counted from 0) of the valid pixels in increasing order -/
def Spec.IsRank (v : ι → Pix) (k : ℕ) (x : ℝ) : Prop :=
  Spec.count v (fun u => u < x) ≤ k ∧ k < Spec.count v fun u => u ≤ x

/-- `m` is the median of the valid pixels: the mean of the two middle values (one and the same for an odd number) -/
def Spec.IsMedian (v : ι → Pix) (m : ℝ) : Prop :=
  ∃ lo hi, Spec.IsRank v ((Spec.size v - 1) / 2) lo ∧ Spec.IsRank v (Spec.size v / 2) hi ∧ m = (lo + hi) / 2

/-- `s` is the noise estimated from the median absolute deviation of the valid pixels from their median (NaN if there are
none) -/
def Spec.IsMadStd (v : ι → Pix) (s : Pix) : Prop :=
  ((∀ i, v i = none) ∧ s = none) ∨
  ∃ m d, Spec.IsMedian v m ∧ Spec.IsMedian (fun i => (v i).map fun u => |u - m|) d ∧ s = some (1.482602218505602 * d)

/-- mean of the valid pixels -/
noncomputable def Spec.meanValid (v : ι → Pix) : ℝ := (∑ i, (v i).getD 0) / Spec.size v

/-- `s` is the (population) standard deviation of the valid pixels, NaN if there are none -/
def Spec.IsNanStd (v : ι → Pix) (s : Pix) : Prop :=
  ((∀ i, v i = none) ∧ s = none) ∨ ((∃ i, v i ≠ none) ∧
    s = some (Real.sqrt ((∑ i, ((v i).map fun u => (u - Spec.meanValid v) ^ 2).getD 0) / Spec.size v)))

/-- `s` is the standard deviation of all the pixels: NaN if any of them is -/
def Spec.IsStd (v : ι → Pix) (s : Pix) : Prop :=
  ((∃ i, v i = none) ∧ s = none) ∨ ((∀ i, v i ≠ none) ∧ Spec.IsNanStd v s)

/-! ## Uniqueness -/

theorem count_mono (v : ι → Pix) {P Q : ℝ → Prop} (h : ∀ x, P x → Q x) : Spec.count v P ≤ Spec.count v Q := by
  classical
  refine Finset.card_le_card fun i hi => ?_
  simp only [mem_filter, mem_univ, true_and] at hi ⊢
  obtain ⟨x, hx, hp⟩ := hi
  exact ⟨x, hx, h x hp⟩

theorem rank_unique {v : ι → Pix} {k : ℕ} {x y : ℝ} (hx : Spec.IsRank v k x) (hy : Spec.IsRank v k y) : x = y := by
  rcases lt_trichotomy x y with h | h | h
  · have := count_mono v (P := fun u => u ≤ x) (Q := fun u => u < y) fun u hu => lt_of_le_of_lt hu h
    have := hx.2; have := hy.1; omega
  · exact h
  · have := count_mono v (P := fun u => u ≤ y) (Q := fun u => u < x) fun u hu => lt_of_le_of_lt hu h
    have := hy.2; have := hx.1; omega

theorem median_unique {v : ι → Pix} {x y : ℝ} (hx : Spec.IsMedian v x) (hy : Spec.IsMedian v y) : x = y := by
  obtain ⟨a, b, ha, hb, rfl⟩ := hx
  obtain ⟨c, d, hc, hd, rfl⟩ := hy
  rw [rank_unique ha hc, rank_unique hb hd]

theorem median_valid {v : ι → Pix} {x : ℝ} (hx : Spec.IsMedian v x) : ¬ ∀ i, v i = none := by
  obtain ⟨a, b, ha, -, -⟩ := hx
  intro h
  have h2 := ha.2
  have : Spec.count v (fun u => u ≤ a) = 0 := by
    unfold Spec.count
    rw [Finset.card_eq_zero, Finset.filter_eq_empty_iff]
    rintro i - ⟨x, hx, -⟩
    rw [h i] at hx; cases hx
  omega

theorem madStd_unique {v : ι → Pix} {s t : Pix} (hs : Spec.IsMadStd v s) (ht : Spec.IsMadStd v t) : s = t := by
  rcases hs with ⟨h, rfl⟩ | ⟨m, d, hm, hd, rfl⟩ <;> rcases ht with ⟨h', rfl⟩ | ⟨m', d', hm', hd', rfl⟩
  · rfl
  · exact absurd h (median_valid hm')
  · exact absurd h' (median_valid hm)
  · obtain rfl := median_unique hm hm'
    rw [median_unique hd hd']

/-- `s` is the noise estimate of `match_fits`: from the median absolute deviation if `use_mad_std`, else the standard
deviation -/
def Spec.IsNoise (useMadStd : Bool) (v : ι → Pix) (s : Pix) : Prop :=
  if useMadStd then Spec.IsMadStd v s else Spec.IsNanStd v s

theorem nanStd_unique {v : ι → Pix} {s t : Pix} (hs : Spec.IsNanStd v s) (ht : Spec.IsNanStd v t) : s = t := by
  rcases hs with ⟨h, rfl⟩ | ⟨⟨i, hi⟩, rfl⟩ <;> rcases ht with ⟨h', rfl⟩ | ⟨⟨i', hi'⟩, rfl⟩
  · rfl
  · exact absurd (h i') hi'
  · exact absurd (h' i) hi
  · rfl

theorem noise_unique {mad : Bool} {v : ι → Pix} {s t : Pix} (hs : Spec.IsNoise mad v s) (ht : Spec.IsNoise mad v t) :
    s = t := by
  cases mad
  · exact nanStd_unique hs ht
  · exact madStd_unique hs ht

end spec

/-! ## The model's statistics -/

section model
variable {ny nx : ℕ}

theorem ravel_sum {α : Type} [AddCommMonoid α] (a : Fin ny × Fin nx → Pix) (f : Pix → α) :
    ((ravel a).map f).sum = ∑ i, f (a i) := by
  unfold ravel
  rw [Fintype.sum_prod_type, Fin.sum_univ_def, List.map_flatMap]
  induction List.finRange ny with
  | nil => rfl
  | cons i l ih =>
    rw [List.flatMap_cons, List.sum_append, ih, List.map_cons, List.sum_cons, Fin.sum_univ_def, List.map_map]
    rfl

theorem filterMap_sum (l : List Pix) (f : ℝ → ℝ) :
    ((l.filterMap id).map f).sum = (l.map fun p : Pix => (p.map f).getD 0).sum := by
  induction l with
  | nil => rfl
  | cons p l ih => cases p <;> simp [← ih]

theorem filterMap_countP (l : List Pix) (q : ℝ → Bool) :
    (l.filterMap id).countP q = (l.map fun p : Pix => if p.any q then 1 else 0).sum := by
  induction l with
  | nil => rfl
  | cons p l ih =>
    cases p with
    | none => simp [← ih]
    | some v => cases h : q v <;> simp [← ih, h, Nat.add_comm]

theorem countP_ravel (a : Fin ny × Fin nx → Pix) (P : ℝ → Prop) [DecidablePred P] :
    ((ravel a).filterMap id).countP (fun x => decide (P x)) = Spec.count a P := by
  classical
  rw [filterMap_countP, ravel_sum, Spec.count, Finset.card_filter]
  refine Finset.sum_congr rfl fun i _ => ?_
  cases h : a i with
  | none => simp
  | some v => simp

theorem length_ravel (a : Fin ny × Fin nx → Pix) : ((ravel a).filterMap id).length = Spec.size a := by
  rw [Spec.size, ← countP_ravel a fun _ => True]
  simp

theorem mem_ravel (a : Fin ny × Fin nx → Pix) (p : Pix) : p ∈ ravel a ↔ ∃ i, a i = p := by
  unfold ravel
  simp

theorem size_eq_zero (a : Fin ny × Fin nx → Pix) : Spec.size a = 0 ↔ ∀ i, a i = none := by
  classical
  have e : Spec.size a = (univ.filter fun i => ∃ x, a i = some x ∧ True).card := by
    unfold Spec.size Spec.count; congr!
  rw [e, Finset.card_eq_zero, Finset.filter_eq_empty_iff]
  constructor
  · intro h i
    cases hi : a i with
    | none => rfl
    | some v => exact absurd ⟨v, hi, trivial⟩ (h (mem_univ i))
  · rintro h i - ⟨x, hx, -⟩
    rw [h i] at hx; cases hx

theorem valid_nil (a : Fin ny × Fin nx → Pix) : (ravel a).filterMap id = [] ↔ ∀ i, a i = none := by
  rw [← size_eq_zero, ← length_ravel, List.length_eq_zero_iff]

theorem nanstd_spec (a : Fin ny × Fin nx → Pix) : Spec.IsNanStd a (Np.nanstd (ravel a)) := by
  unfold Np.nanstd
  simp only [valid_nil]
  by_cases h : ∀ i, a i = none
  · rw [if_pos h]; exact .inl ⟨h, rfl⟩
  · rw [if_neg h]
    refine .inr ⟨by simpa using h, ?_⟩
    have hs : ((ravel a).filterMap id).sum = ∑ i, (a i).getD 0 := by
      have := filterMap_sum (ravel a) id
      rw [List.map_id] at this
      rw [this, ravel_sum]
      simp
    rw [hs, length_ravel, filterMap_sum, ravel_sum]
    rfl

theorem std_spec (a : Fin ny × Fin nx → Pix) : Spec.IsStd a (Np.std (ravel a)) := by
  unfold Np.std
  by_cases h : ∃ i, a i = none
  · rw [if_pos ((mem_ravel a none).2 h)]; exact .inl ⟨h, rfl⟩
  · rw [if_neg (fun h' => h ((mem_ravel a none).1 h'))]; exact .inr ⟨by simpa using h, nanstd_spec a⟩

theorem sorted_rank (l : List ℝ) (hl : l.Pairwise (· ≤ ·)) (k : ℕ) (hk : k < l.length) :
    l.countP (fun u => decide (u < l.getD k 0)) ≤ k ∧ k < l.countP (fun u => decide (u ≤ l.getD k 0)) := by
  have hg : l.getD k 0 = l[k] := by simp [hk]
  rw [hg]
  generalize hx : l[k] = x
  constructor
  · conv_lhs => rw [← List.take_append_drop k l]
    rw [List.countP_append]
    have h1 : (l.take k).countP (fun u => decide (u < x)) ≤ k :=
      le_trans List.countP_le_length (by simp)
    have h2 : (l.drop k).countP (fun u => decide (u < x)) = 0 := by
      rw [List.countP_eq_zero]
      intro y hy
      simp only [decide_eq_true_eq, not_lt]
      obtain ⟨j, hj, rfl⟩ := List.mem_iff_getElem.1 hy
      rw [List.getElem_drop, ← hx]
      rw [List.length_drop] at hj
      rcases Nat.eq_zero_or_pos j with rfl | hj0
      · exact le_of_eq (by simp)
      · exact List.pairwise_iff_getElem.1 hl k (k + j) hk (by omega) (by omega)
    omega
  · conv_rhs => rw [← List.take_append_drop (k + 1) l]
    rw [List.countP_append]
    have h1 : (l.take (k + 1)).countP (fun u => decide (u ≤ x)) = (l.take (k + 1)).length := by
      rw [List.countP_eq_length]
      intro y hy
      simp only [decide_eq_true_eq]
      obtain ⟨j, hj, rfl⟩ := List.mem_iff_getElem.1 hy
      rw [List.getElem_take, ← hx]
      rw [List.length_take] at hj
      rcases Nat.lt_or_ge j k with hjk | hjk
      · exact List.pairwise_iff_getElem.1 hl j k (by omega) hk hjk
      · have : j = k := by omega
        subst this; exact le_refl _
    rw [h1, List.length_take]
    omega

theorem nanmedian_spec (a : Fin ny × Fin nx → Pix) :
    ((∀ i, a i = none) ∧ Np.nanmedian (ravel a) = none) ∨
      ∃ m, Spec.IsMedian a m ∧ Np.nanmedian (ravel a) = some m := by
  classical
  unfold Np.nanmedian
  simp only
  set vs := ((ravel a).filterMap id).mergeSort (fun a b => decide (a ≤ b)) with hvs
  have hperm : vs.Perm ((ravel a).filterMap id) := List.mergeSort_perm _ _
  have hlen : vs.length = Spec.size a := by rw [hperm.length_eq, length_ravel]
  have hsort : vs.Pairwise (· ≤ ·) := by
    have := List.pairwise_mergeSort (le := fun a b : ℝ => decide (a ≤ b)) (by intro a b c; simpa using le_trans)
      (by intro a b; simpa using le_total a b) ((ravel a).filterMap id)
    rw [← hvs] at this
    exact this.imp fun h => by simpa using h
  have hrank : ∀ k, k < vs.length → Spec.IsRank a k (vs.getD k 0) := by
    intro k hk
    have := sorted_rank vs hsort k hk
    rw [hperm.countP_eq, hperm.countP_eq, countP_ravel, countP_ravel] at this
    exact this
  by_cases h : vs = []
  · left
    rw [if_pos h]
    refine ⟨(size_eq_zero a).1 (by rw [← hlen, h]; rfl), rfl⟩
  · right
    have hpos : 0 < vs.length := List.length_pos_iff.2 h
    rw [if_neg h]
    split
    · rename_i ho
      have e : (Spec.size a - 1) / 2 = vs.length / 2 := by omega
      refine ⟨_, ⟨vs.getD (vs.length / 2) 0, vs.getD (vs.length / 2) 0, ?_, ?_, ?_⟩, rfl⟩
      · rw [e]; exact hrank _ (by omega)
      · rw [← hlen]; exact hrank _ (by omega)
      · ring
    · rename_i ho
      have e : (Spec.size a - 1) / 2 = vs.length / 2 - 1 := by omega
      refine ⟨_, ⟨vs.getD (vs.length / 2 - 1) 0, vs.getD (vs.length / 2) 0, ?_, ?_, ?_⟩, rfl⟩
      · rw [e]; exact hrank _ (by omega)
      · rw [← hlen]; exact hrank _ (by omega)
      · ring

theorem ravel_map (a : Fin ny × Fin nx → Pix) (f : Pix → Pix) : (ravel a).map f = ravel fun i => f (a i) := by
  unfold ravel
  rw [List.map_flatMap]
  simp only [List.map_map]
  rfl

theorem madStd_spec (a : Fin ny × Fin nx → Pix) : Spec.IsMadStd a (madStd (ravel a)) := by
  unfold madStd
  rcases nanmedian_spec a with ⟨h, e⟩ | ⟨m, hm, e⟩
  · rw [e]; exact .inl ⟨h, rfl⟩
  · rw [e]
    simp only [ravel_map]
    rcases nanmedian_spec fun i => (a i).map fun v => |v - m| with ⟨h, -⟩ | ⟨d, hd, e'⟩
    · exfalso
      refine median_valid hm fun i => ?_
      simpa using h i
    · rw [e']
      exact .inr ⟨m, d, hm, hd, by rw [mul_comm]; rfl⟩

end model

/-! ## Concrete case: the pixels 1, 4, NaN, 2, 9 have median 3 and median absolute deviation 3/2 -/

theorem median_example : Spec.IsMedian (![some 1, some 4, none, some 2, some 9] : Fin 5 → Pix) 3 := by
  have hs : Spec.size (![some 1, some 4, none, some 2, some 9] : Fin 5 → Pix) = 4 := by
    simp [Spec.size, Spec.count, Finset.card_filter, Fin.sum_univ_five]
  refine ⟨2, 4, ?_, ?_, by norm_num⟩
  · rw [hs]
    constructor <;> simp [Spec.count, Finset.card_filter, Fin.sum_univ_five, -Finset.sum_boole] <;> norm_num
  · rw [hs]
    constructor <;> simp [Spec.count, Finset.card_filter, Fin.sum_univ_five, -Finset.sum_boole] <;> norm_num

example : Spec.IsMadStd (![some 1, some 4, none, some 2, some 9] : Fin 5 → Pix) (some (1.482602218505602 * (3 / 2))) := by
  refine .inr ⟨3, 3 / 2, median_example, ?_, rfl⟩
  have e : (fun i => ((![some 1, some 4, none, some 2, some 9] : Fin 5 → Pix) i).map fun u => |u - 3|)
      = ![some 2, some 1, none, some 1, some 6] := by
    funext i
    fin_cases i <;> simp <;> norm_num
  rw [e]
  have hs : Spec.size (![some 2, some 1, none, some 1, some 6] : Fin 5 → Pix) = 4 := by
    simp [Spec.size, Spec.count, Finset.card_filter, Fin.sum_univ_five]
  refine ⟨1, 2, ?_, ?_, by norm_num⟩
  · rw [hs]
    constructor <;> simp [Spec.count, Finset.card_filter, Fin.sum_univ_five, -Finset.sum_boole]
  · rw [hs]
    constructor <;> simp [Spec.count, Finset.card_filter, Fin.sum_univ_five, -Finset.sum_boole] <;> norm_num

end ImgReg
