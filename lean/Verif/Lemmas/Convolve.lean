import Verif.Model.Convolve
import Verif.Spec
import Verif.Lemmas.Shift
import Mathlib.Tactic.Ring
import Mathlib.Tactic.Linarith

/-!
# Lemmas about `convolvend`
-/

open Finset

namespace ImgReg

variable {D : ℕ}

theorem convFfts_eq {ι : Type} [AddCommGroup ι] [Fintype ι] [DecidableEq ι] [FFTIndex ι] (cfg : FFTConfig) :
    convFfts (ι := ι) cfg = (Np.fftn, Np.ifftn) := getFfts_eq cfg

theorem convSlice_eq (n a : ℕ) (h : a ≤ n) :
    convSlice n a = ((((n / 2 - a / 2 : ℕ) : ℕ) : ℤ), (((n / 2 - a / 2 + a : ℕ) : ℕ) : ℤ)) := by
  unfold convSlice
  ext <;> simp only <;> omega

theorem slicesFit (n a : Fin D → ℕ) (h : ∀ d, a d ≤ n d) : Np.SlicesFit n a fun d => convSlice (n d) (a d) := by
  intro d
  simp only [convSlice_eq _ _ (h d)]
  have := h d
  omega

theorem le_clog (m : ℕ) : m ≤ 2 ^ Nat.clog 2 m := Nat.le_pow_clog (by norm_num) m

theorem newShape_ge (s t : Fin D → ℕ) (p f : Bool) (d : Fin D) :
    s d ≤ convNewShape s t p f d ∧ t d ≤ convNewShape s t p f d := by
  unfold convNewShape
  cases p <;> cases f <;> simp only [Bool.false_eq_true, if_false, if_true]
  · exact ⟨le_max_left _ _, le_max_right _ _⟩
  · have h := le_clog (Finset.univ.sup fun d => max (s d) (t d))
    have h2 : max (s d) (t d) ≤ Finset.univ.sup fun d => max (s d) (t d) :=
      Finset.le_sup (f := fun d => max (s d) (t d)) (Finset.mem_univ d)
    exact ⟨((le_max_left _ _).trans h2).trans h, ((le_max_right _ _).trans h2).trans h⟩
  · omega
  · have h := le_clog (Finset.univ.sup fun d => s d + t d)
    have h2 : s d + t d ≤ Finset.univ.sup fun d => s d + t d :=
      Finset.le_sup (f := fun d => s d + t d) (Finset.mem_univ d)
    omega

theorem newShape_psf_ge (s t : Fin D → ℕ) (f : Bool) (d : Fin D) : s d + t d ≤ convNewShape s t true f d := by
  unfold convNewShape
  cases f <;> simp only [Bool.false_eq_true, if_false, if_true]
  · exact le_rfl
  · exact (Finset.le_sup (f := fun d => s d + t d) (Finset.mem_univ d)).trans (le_clog _)

/-- position in the big array of the element `q` of the block -/
def emb {n a : Fin D → ℕ} (sl : Fin D → ℤ × ℤ) (hsl : Np.SlicesFit n a sl) (q : Idx a) : Idx n :=
  fun d => ⟨((sl d).1 + ((q d : ℕ) : ℤ)).toNat, by have := hsl d; have := (q d).isLt; omega⟩

theorem getSlices_eq {α : Type} {n a : Fin D → ℕ} (sl : Fin D → ℤ × ℤ) (hsl : Np.SlicesFit n a sl) (big : Idx n → α)
    (q : Idx a) : Np.getSlices sl hsl big q = big (emb sl hsl q) := rfl

theorem emb_val {n a : Fin D → ℕ} (sl : Fin D → ℤ × ℤ) (hsl : Np.SlicesFit n a sl) (q : Idx a) (d : Fin D) :
    (((emb sl hsl q d : Fin (n d)) : ℕ) : ℤ) = (sl d).1 + ((q d : ℕ) : ℤ) := by
  have := hsl d
  simp only [emb]
  omega

theorem emb_injective {n a : Fin D → ℕ} (sl : Fin D → ℤ × ℤ) (hsl : Np.SlicesFit n a sl) :
    Function.Injective (emb sl hsl) := by
  intro q r h
  funext d
  have h1 := emb_val sl hsl q d
  have h2 := emb_val sl hsl r d
  rw [h] at h1
  apply Fin.ext
  omega

theorem putSlices_emb {α : Type} {n a : Fin D → ℕ} (sl : Fin D → ℤ × ℤ) (hsl : Np.SlicesFit n a sl) (big : Idx n → α)
    (x : Idx a → α) (q : Idx a) : Np.putSlices sl hsl big x (emb sl hsl q) = x q := by
  unfold Np.putSlices
  rw [dif_pos]
  · congr 1
    funext d
    apply Fin.ext
    have := emb_val sl hsl q d
    simp only
    omega
  · intro d
    have := emb_val sl hsl q d
    have := hsl d
    have := (q d).isLt
    omega

theorem getSlices_putSlices {α : Type} {n a : Fin D → ℕ} (sl : Fin D → ℤ × ℤ) (hsl : Np.SlicesFit n a sl)
    (big : Idx n → α) (x : Idx a → α) : Np.getSlices sl hsl (Np.putSlices sl hsl big x) = x := by
  funext q
  rw [getSlices_eq, putSlices_emb]

theorem putSlices_not_emb {α : Type} {n a : Fin D → ℕ} (sl : Fin D → ℤ × ℤ) (hsl : Np.SlicesFit n a sl)
    (big : Idx n → α) (x : Idx a → α) (u : Idx n) (hu : ∀ q, emb sl hsl q ≠ u) :
    Np.putSlices sl hsl big x u = big u := by
  unfold Np.putSlices
  rw [dif_neg]
  intro h
  refine hu (fun d => ⟨(((u d : ℕ) : ℤ) - (sl d).1).toNat, by have := h d; have := hsl d; omega⟩) ?_
  funext d
  apply Fin.ext
  have := h d
  have := hsl d
  simp only [emb]
  omega

theorem putSlices_cArr {n a : Fin D → ℕ} (sl : Fin D → ℤ × ℤ) (hsl : Np.SlicesFit n a sl) (c : ℂ) (x : Idx a → ℂ) :
    Np.putSlices sl hsl (fun _ => some c) (cArr x) = cArr (Np.putSlices sl hsl (fun _ => c) x) := by
  funext i
  unfold cArr
  by_cases h : ∀ d, (sl d).1 ≤ (i d : ℕ) ∧ ((i d : ℕ) : ℤ) < (sl d).2
  · unfold Np.putSlices
    rw [dif_pos h, dif_pos h]
  · unfold Np.putSlices
    rw [dif_neg h, dif_neg h]

theorem sum_putSlices {n a : Fin D → ℕ} (sl : Fin D → ℤ × ℤ) (hsl : Np.SlicesFit n a sl) (g : Idx n → ℂ) (k : Idx a → ℂ) :
    ∑ u, g u * Np.putSlices sl hsl (fun _ => 0) k u = ∑ q, g (emb sl hsl q) * k q := by
  symm
  refine Finset.sum_of_injOn (emb sl hsl) (emb_injective sl hsl).injOn (by simp [Set.MapsTo]) ?_ ?_
  · intro u _ hu
    rw [putSlices_not_emb sl hsl _ _ u, mul_zero]
    intro q hq
    exact hu ⟨q, by simp, hq⟩
  · intro q _
    rw [putSlices_emb]

section core
variable {n t : Fin D → ℕ} [∀ d, NeZero (n d)]

/-- the convolution computed with FFTs, anywhere in the padded array -/
theorem conv_core (ht : ∀ d, t d ≤ n d) (hsl : Np.SlicesFit n t fun d => convSlice (n d) (t d)) (big : Idx n → ℂ)
    (k : Idx t → ℂ) (i : Idx n) :
    idft (fun u => dft big u
        * dft (Np.ifftshiftN (Np.putSlices (fun d => convSlice (n d) (t d)) hsl (fun _ => (0 : ℂ)) k)) u) i
      = ∑ q : Idx t, big (fun d => Spec.wrap (n d) (((i d : ℕ) : ℤ) + ((t d / 2 : ℕ) : ℤ) - ((q d : ℕ) : ℤ))) * k q := by
  rw [idft_mul_dft]
  simp only
  set h : Idx n := fun d => Fin.ofNat (n d) (n d / 2) with hh
  rw [← Equiv.sum_comp (Equiv.subLeft (i + h))]
  have e1 : ∀ u : Idx n, Np.ifftshiftN (Np.putSlices (fun d => convSlice (n d) (t d)) hsl (fun _ => (0 : ℂ)) k)
      (i - (Equiv.subLeft (i + h)) u) = Np.putSlices (fun d => convSlice (n d) (t d)) hsl (fun _ => (0 : ℂ)) k u := by
    intro u
    unfold Np.ifftshiftN
    congr 1
    funext d
    simp only [Equiv.subLeft_apply, Np.ifftshiftIdx, Pi.sub_apply, Pi.add_apply, hh]
    abel
  simp only [e1]
  rw [sum_putSlices]
  refine Finset.sum_congr rfl fun q _ => ?_
  congr 2
  funext d
  simp only [Equiv.subLeft_apply, Pi.sub_apply, Pi.add_apply, hh]
  symm
  rw [Spec.wrap_eq_iff]
  have hv := emb_val (fun d => convSlice (n d) (t d)) hsl q d
  simp only [convSlice_eq _ _ (ht d)] at hv
  have h1 := Fin.val_sub_modEq (i d + Fin.ofNat (n d) (n d / 2)) (emb (fun d => convSlice (n d) (t d)) hsl q d)
  have h2 := Fin.val_add_modEq (i d) (Fin.ofNat (n d) (n d / 2))
  have h3 : ((Fin.ofNat (n d) (n d / 2) : Fin (n d)) : ℕ) = n d / 2 := by
    simp only [Fin.ofNat]
    exact Nat.mod_eq_of_lt (Nat.div_lt_self (Nat.pos_of_ne_zero (NeZero.ne _)) (by norm_num))
  rw [h3] at h2
  have h4 := h1.trans (h2.sub_right _)
  rw [hv] at h4
  refine Int.ModEq.symm (h4.trans ?_)
  have := ht d
  have e : ((i d : ℕ) : ℤ) + ((n d / 2 : ℕ) : ℤ) - (((n d / 2 - t d / 2 : ℕ) : ℤ) + ((q d : ℕ) : ℤ))
      = ((i d : ℕ) : ℤ) + ((t d / 2 : ℕ) : ℤ) - ((q d : ℕ) : ℤ) := by omega
  rw [e]

end core

/-! ### what the convolution sees outside of the array -/

/-- an array continued by the constant `c` -/
noncomputable def Spec.extend {α : Type} {s : Fin D → ℕ} (a : Idx s → α) (c : α) (x : Fin D → ℤ) : α :=
  open Classical in
  if h : ∀ d, 0 ≤ x d ∧ x d < s d then a fun d => ⟨(x d).toNat, by have := h d; omega⟩ else c

section ext
variable {n s t : Fin D → ℕ} [∀ d, NeZero (n d)]

theorem put_wrap_fill {α : Type} (hn : ∀ d, s d + t d ≤ n d) (hsl : Np.SlicesFit n s fun d => convSlice (n d) (s d)) (a : Idx s → α)
    (c : α) (i : Idx s) (q : Idx t) :
    Np.putSlices (fun d => convSlice (n d) (s d)) hsl (fun _ => c) a
      (fun d => Spec.wrap (n d) (((emb (fun d => convSlice (n d) (s d)) hsl i d : Fin (n d)) : ℕ) + ((t d / 2 : ℕ) : ℤ)
        - ((q d : ℕ) : ℤ)))
      = Spec.extend a c fun d => ((i d : ℕ) : ℤ) + ((t d / 2 : ℕ) : ℤ) - ((q d : ℕ) : ℤ) := by
  have hsn : ∀ d, s d ≤ n d := fun d => by have := hn d; omega
  unfold Spec.extend
  split_ifs with h
  · have : (fun d => Spec.wrap (n d) (((emb (fun d => convSlice (n d) (s d)) hsl i d : Fin (n d)) : ℕ)
        + ((t d / 2 : ℕ) : ℤ) - ((q d : ℕ) : ℤ)))
        = emb (fun d => convSlice (n d) (s d)) hsl (fun d =>
          (⟨(((i d : ℕ) : ℤ) + ((t d / 2 : ℕ) : ℤ) - ((q d : ℕ) : ℤ)).toNat, by
            have hd := h d; simp only at hd; omega⟩ : Fin (s d))) := by
      funext d
      rw [Spec.wrap_eq_iff, emb_val, emb_val]
      have := h d
      simp only
      rw [Int.toNat_of_nonneg this.1]
      ring_nf
      rfl
    rw [this, putSlices_emb]
  · apply putSlices_not_emb
    intro r hr
    apply h
    intro d
    have h1 := congrFun hr d
    have h2 := (Spec.wrap_eq_iff (n d) _ _).1 h1.symm
    rw [emb_val, emb_val] at h2
    have h3 : ((i d : ℕ) : ℤ) + ((t d / 2 : ℕ) : ℤ) - ((q d : ℕ) : ℤ) ≡ ((r d : ℕ) : ℤ) [ZMOD n d] := by
      refine Int.ModEq.add_left_cancel' (convSlice (n d) (s d)).1 ?_
      refine Int.ModEq.trans ?_ h2
      rw [show (convSlice (n d) (s d)).1 + (((i d : ℕ) : ℤ) + ((t d / 2 : ℕ) : ℤ) - ((q d : ℕ) : ℤ))
        = (convSlice (n d) (s d)).1 + ((i d : ℕ) : ℤ) + ((t d / 2 : ℕ) : ℤ) - ((q d : ℕ) : ℤ) by ring]
    have hi := (i d).isLt
    have hq := (q d).isLt
    have hr' := (r d).isLt
    have hnd := hn d
    have hd := h3.dvd
    have hz : ((r d : ℕ) : ℤ) - (((i d : ℕ) : ℤ) + ((t d / 2 : ℕ) : ℤ) - ((q d : ℕ) : ℤ)) = 0 := by
      apply Int.eq_zero_of_abs_lt_dvd hd
      rw [abs_lt]
      constructor <;> omega
    simp only
    omega

theorem put_wrap_wrap {α : Type} [∀ d, NeZero (s d)] (hn : ∀ d, n d = s d)
    (hsl : Np.SlicesFit n s fun d => convSlice (n d) (s d)) (a : Idx s → α) (c : α) (i : Idx s) (q : Idx t) :
    Np.putSlices (fun d => convSlice (n d) (s d)) hsl (fun _ => c) a
      (fun d => Spec.wrap (n d) (((emb (fun d => convSlice (n d) (s d)) hsl i d : Fin (n d)) : ℕ) + ((t d / 2 : ℕ) : ℤ)
        - ((q d : ℕ) : ℤ)))
      = a fun d => Spec.wrap (s d) (((i d : ℕ) : ℤ) + ((t d / 2 : ℕ) : ℤ) - ((q d : ℕ) : ℤ)) := by
  have : (fun d => Spec.wrap (n d) (((emb (fun d => convSlice (n d) (s d)) hsl i d : Fin (n d)) : ℕ)
        + ((t d / 2 : ℕ) : ℤ) - ((q d : ℕ) : ℤ)))
        = emb (fun d => convSlice (n d) (s d)) hsl (fun d =>
          Spec.wrap (s d) (((i d : ℕ) : ℤ) + ((t d / 2 : ℕ) : ℤ) - ((q d : ℕ) : ℤ))) := by
    funext d
    rw [Spec.wrap_eq_iff, emb_val, emb_val]
    have hm := Spec.wrap_modEq (s d) (((i d : ℕ) : ℤ) + ((t d / 2 : ℕ) : ℤ) - ((q d : ℕ) : ℤ))
    have hm' : ((Spec.wrap (s d) (((i d : ℕ) : ℤ) + ((t d / 2 : ℕ) : ℤ) - ((q d : ℕ) : ℤ)) : ℕ) : ℤ)
        ≡ ((i d : ℕ) : ℤ) + ((t d / 2 : ℕ) : ℤ) - ((q d : ℕ) : ℤ) [ZMOD ((n d : ℕ) : ℤ)] := by
      rw [congrArg Nat.cast (hn d)]; exact hm
    have := (hm'.symm).add_left (convSlice (n d) (s d)).1
    rw [show (convSlice (n d) (s d)).1 + (((i d : ℕ) : ℤ) + ((t d / 2 : ℕ) : ℤ) - ((q d : ℕ) : ℤ))
        = (convSlice (n d) (s d)).1 + ((i d : ℕ) : ℤ) + ((t d / 2 : ℕ) : ℤ) - ((q d : ℕ) : ℤ) by ring] at this
    exact this
  rw [this, putSlices_emb]

end ext

end ImgReg
