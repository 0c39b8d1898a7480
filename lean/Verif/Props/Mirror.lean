import Verif.Props.Transpose
import Verif.Props.Recipe

/-!
# Mirroring the images (C139)

Flipping the images left-right, upside-down or both (a rotation by 180°) flips the maps and changes the sign of the reported shifts.
-/

open Complex Finset
open scoped ComplexConjugate

namespace ImgReg

/-- the index counted from the other end, if `f` -/
def Spec.rev {n : ℕ} (f : Bool) (j : Fin n) : Fin n := if f then j.rev else j

/-- the sign of a coordinate along an axis that is flipped if `f` -/
def Spec.sgn (f : Bool) (t : ℝ) : ℝ := if f then -t else t

/-- the array flipped along the chosen axes: `np.fliplr` for `(false, true)`, `np.flipud` for `(true, false)`, the rotation by 180° for
`(true, true)` -/
def Spec.flip {ny nx : ℕ} {α : Type} (fy fx : Bool) (a : Fin ny × Fin nx → α) : Fin ny × Fin nx → α :=
  fun p => a (Spec.rev fy p.1, Spec.rev fx p.2)

/-- the flipped error argument -/
def Spec.flipErr {ny nx : ℕ} (fy fx : Bool) : ErrArg ny nx → ErrArg ny nx
  | .none => .none
  | .scalar s => .scalar s
  | .image e => .image (Spec.flip fy fx e)

/-- the flipped result of `shift2d` -/
def Spec.flipOut {ny nx : ℕ} (fy fx : Bool) : NdOut (Fin ny × Fin nx) → NdOut (Fin ny × Fin nx)
  | .real a => .real (Spec.flip fy fx a)
  | .cplx a => .cplx (Spec.flip fy fx a)

/-- complex results are conjugated, real ones unchanged -/
noncomputable def Spec.conjOut {ny nx : ℕ} : NdOut (Fin ny × Fin nx) → NdOut (Fin ny × Fin nx)
  | .real a => .real a
  | .cplx a => .cplx fun p => (a p).map conj

/-- the index of a map that stands for the opposite displacement, if `f`: the map pixel of displacement 0 is `(n-1)//2` -/
def Spec.revLag {n : ℕ} [NeZero n] (f : Bool) (j : Fin n) : Fin n :=
  if f then Spec.wrap n (2 * (Spec.zeroLag n : ℤ) - ((j : ℕ) : ℤ)) else j

/-- the map of the flipped displacements -/
def Spec.flipMap {ny nx : ℕ} [NeZero ny] [NeZero nx] {α : Type} (fy fx : Bool) (c : Fin ny × Fin nx → α) : Fin ny × Fin nx → α :=
  fun i => c (Spec.revLag fy i.1, Spec.revLag fx i.2)

/-- term 3 of the flipped map -/
def Spec.flipTerm3 {ny nx : ℕ} [NeZero ny] [NeZero nx] (fy fx : Bool) : Term3 ny nx → Term3 ny nx
  | .scalar t => .scalar t
  | .image t => .image (Spec.flipMap fy fx t)

/-- the flipped result of `chi2n_map` -/
def Spec.flipRet {ny nx : ℕ} [NeZero ny] [NeZero nx] (fy fx : Bool) : Chi2Ret ny nx → Chi2Ret ny nx
  | .only c => .only (Spec.flipMap fy fx c)
  | .all m => .all ⟨Spec.flipMap fy fx m.chi2, m.term1, Spec.flipMap fy fx m.term2, Spec.flipTerm3 fy fx m.term3⟩

theorem rev_rev' {n : ℕ} (f : Bool) (j : Fin n) : Spec.rev f (Spec.rev f j) = j := by
  cases f <;> simp [Spec.rev]

/-- the flip as a permutation of the pixels -/
def flipEquiv (ny nx : ℕ) (fy fx : Bool) : Fin ny × Fin nx ≃ Fin ny × Fin nx where
  toFun p := (Spec.rev fy p.1, Spec.rev fx p.2)
  invFun p := (Spec.rev fy p.1, Spec.rev fx p.2)
  left_inv p := by simp only [rev_rev']
  right_inv p := by simp only [rev_rev']

theorem sum_flip {β : Type} [AddCommMonoid β] {ny nx : ℕ} (fy fx : Bool) (f : Fin ny × Fin nx → β) :
    ∑ p : Fin ny × Fin nx, f (Spec.rev fy p.1, Spec.rev fx p.2) = ∑ p, f p :=
  Fintype.sum_equiv (flipEquiv ny nx fy fx) _ _ fun _ => rfl

theorem flip_flip {ny nx : ℕ} {α : Type} (fy fx : Bool) (a : Fin ny × Fin nx → α) : Spec.flip fy fx (Spec.flip fy fx a) = a := by
  funext p; unfold Spec.flip; simp only [rev_rev']

section axis
variable {n : ℕ} [NeZero n]

/-- the frequency with the opposite sign, if `f` -/
def negK (f : Bool) (k : Fin n) : Fin n := if f then -k else k

/-- the phase of a flip -/
noncomputable def flipPhase (f : Bool) (k : Fin n) : ℂ := if f then e k (0 : Fin n).rev else 1

omit [NeZero n] in
theorem negK_negK (f : Bool) (k : Fin n) : negK f (negK f k) = k := by
  cases f <;> simp [negK]

theorem rev_add_self (j : Fin n) : j.rev + j = (0 : Fin n).rev := by
  have := j.isLt
  apply Fin.ext
  rw [Fin.val_add, Fin.val_rev, Fin.val_rev]
  rw [Nat.mod_eq_of_lt (by omega)]
  simp; omega

theorem e_rev (f : Bool) (k j : Fin n) : e k (Spec.rev f j) = flipPhase f k * e (negK f k) j := by
  cases f
  · simp [Spec.rev, flipPhase, negK]
  · simp only [Spec.rev, flipPhase, negK, if_true]
    have : j.rev = (0 : Fin n).rev - j := by rw [← rev_add_self j, add_sub_cancel_right]
    rw [this, e_sub, e_neg_left]

theorem flipPhase_negK (f : Bool) (k : Fin n) : flipPhase f (negK f k) = conj (flipPhase f k) := by
  cases f
  · simp [flipPhase]
  · simp only [flipPhase, negK, if_true, e_neg_left]

omit [NeZero n] in
/-- for an odd size, the opposite frequency has the opposite `fftfreq` -/
theorem fftfreq_neg_odd (ho : Odd n) (k : Fin n) : Np.fftfreq n (-k) = -Np.fftfreq n k := by
  have hk := k.isLt
  have hi : Np.fftfreqInt n ((-k : Fin n) : ℕ) = -Np.fftfreqInt n (k : ℕ) := by
    obtain ⟨m, hm⟩ := ho
    have hv : ((-k : Fin n) : ℕ) = (n - (k : ℕ)) % n := Fin.val_neg' k
    by_cases h0 : (k : ℕ) = 0
    · rw [hv, h0]
      simp only [Nat.sub_zero, Nat.mod_self]
      unfold Np.fftfreqInt
      rw [if_pos (by omega)]
      simp
    · rw [hv, Nat.mod_eq_of_lt (by omega)]
      unfold Np.fftfreqInt
      split_ifs <;> omega
  unfold Np.fftfreq
  rw [hi]; push_cast; ring

theorem fftfreq_negK (f : Bool) (h : f = true → Odd n) (k : Fin n) (t : ℝ) :
    Spec.sgn f t * Np.fftfreq n (negK f k) = t * Np.fftfreq n k := by
  cases f
  · rfl
  · simp only [Spec.sgn, negK, if_true, fftfreq_neg_odd (h rfl)]; ring

/-- one axis of the interpolant -/
theorem phase_freq (f : Bool) (h : f = true → Odd n) (k : Fin n) (t : ℝ) :
    flipPhase f (negK f k) * ex (-(Np.fftfreq n (negK f k) * t)) = ex (-(Np.fftfreq n k * (if f then (n : ℝ) - 1 - t else t))) := by
  cases f
  · simp [flipPhase, negK]
  · rw [flipPhase_negK]
    simp only [negK, flipPhase, if_true, fftfreq_neg_odd (h rfl)]
    have h1 := Np.ex_int_mul_fftfreq (((0 : Fin n).rev : ℕ) : ℤ) k (0 : Fin n).rev rfl
    rw [← h1, conj_ex, ← ex_add]
    have hv : (((0 : Fin n).rev : ℕ) : ℝ) = (n : ℝ) - 1 := by
      have : 0 < n := Nat.pos_of_ne_zero (NeZero.ne n)
      rw [Fin.val_rev]
      have h0 : ((0 : Fin n) : ℕ) = 0 := by simp
      rw [h0, Nat.cast_sub (by omega)]; simp
    congr 1
    rw [Int.cast_natCast, hv]; ring

end axis

section
variable {ny nx : ℕ} [NeZero ny] [NeZero nx]

/-- the permutation of the frequencies -/
def negKEquiv (ny nx : ℕ) [NeZero ny] [NeZero nx] (fy fx : Bool) : Fin ny × Fin nx ≃ Fin ny × Fin nx where
  toFun p := (negK fy p.1, negK fx p.2)
  invFun p := (negK fy p.1, negK fx p.2)
  left_inv p := by simp only [negK_negK]
  right_inv p := by simp only [negK_negK]

theorem sum_negK {β : Type} [AddCommMonoid β] (fy fx : Bool) (f : Fin ny × Fin nx → β) :
    ∑ p : Fin ny × Fin nx, f (negK fy p.1, negK fx p.2) = ∑ p, f p :=
  Fintype.sum_equiv (negKEquiv ny nx fy fx) _ _ fun _ => rfl

theorem e_flip (fy fx : Bool) (k j : Fin ny × Fin nx) :
    e k (Spec.rev fy j.1, Spec.rev fx j.2) = flipPhase fy k.1 * flipPhase fx k.2 * e (negK fy k.1, negK fx k.2) j := by
  rw [e_prod, e_prod, e_rev, e_rev]; ring

theorem dft_flip (fy fx : Bool) (x : Fin ny × Fin nx → ℂ) (k : Fin ny × Fin nx) :
    dft (Spec.flip fy fx x) k = conj (flipPhase fy k.1 * flipPhase fx k.2) * dft x (negK fy k.1, negK fx k.2) := by
  unfold dft
  rw [← sum_flip fy fx, Finset.mul_sum]
  refine Finset.sum_congr rfl fun j _ => ?_
  rw [e_flip, map_mul]
  simp only [Spec.flip, rev_rev']
  ring

theorem idft_flip (fy fx : Bool) (x : Fin ny × Fin nx → ℂ) (k : Fin ny × Fin nx) :
    idft (Spec.flip fy fx x) k = flipPhase fy k.1 * flipPhase fx k.2 * idft x (negK fy k.1, negK fx k.2) := by
  unfold idft
  rw [← sum_flip fy fx, mul_left_comm]
  congr 1
  rw [Finset.mul_sum]
  refine Finset.sum_congr rfl fun j _ => ?_
  rw [FFTIndex.e_symm, e_flip, FFTIndex.e_symm j]
  simp only [Spec.flip, rev_rev']
  ring

theorem filt_flip (fy fx : Bool) (K x : Fin ny × Fin nx → ℂ) :
    filt K (Spec.flip fy fx x) = Spec.flip fy fx (filt (fun k => K (negK fy k.1, negK fx k.2)) x) := by
  funext p
  unfold filt
  simp only [Spec.flip, idft]
  congr 1
  rw [← sum_negK fy fx]
  refine Finset.sum_congr rfl fun k _ => ?_
  rw [e_flip]
  have := dft_flip fy fx x (negK fy k.1, negK fx k.2)
  simp only [negK_negK, flipPhase_negK, map_mul, Complex.conj_conj] at this
  show dft (Spec.flip fy fx x) _ * _ * _ = _
  rw [this]; ring

theorem interp2C_flip' (fy fx : Bool) (hy : fy = true → Odd ny) (hx : fx = true → Odd nx) (x : Fin ny × Fin nx → ℂ) (ty tx : ℝ) :
    interp2C (Spec.flip fy fx x) ty tx
      = interp2C x (if fy then (ny : ℝ) - 1 - ty else ty) (if fx then (nx : ℝ) - 1 - tx else tx) := by
  unfold interp2C
  rw [← sum_negK fy fx]
  refine Finset.sum_congr rfl fun k _ => ?_
  rw [idft_flip]
  simp only [negK_negK]
  rw [← phase_freq fy hy, ← phase_freq fx hx]
  ring

theorem freq2_negK (fy fx : Bool) (hy : fy = true → Odd ny) (hx : fx = true → Odd nx) (dx dy : ℝ) (k : Fin ny × Fin nx) :
    freq2 (Spec.sgn fx dx) (Spec.sgn fy dy) (negK fy k.1, negK fx k.2) = freq2 dx dy k := by
  unfold freq2
  rw [fftfreq_negK fx hx, fftfreq_negK fy hy]

/-- C139: `shift2d` of the flipped array, with the sign of the shift changed along the flipped axes, is the flipped `shift2d`; the flipped
axes have odd size. Any complex array (also with NaN), any phase, every form of output. -/
theorem C139_shift2d (cfg : FFTConfig) (fy fx : Bool) (hy : fy = true → Odd ny) (hx : fx = true → Odd nx)
    (data : Fin ny × Fin nx → CPix) (deltax deltay phase : ℝ) (ra rr : Bool) :
    shift2d cfg (Spec.flip fy fx data) (Spec.sgn fx deltax) (Spec.sgn fy deltay) phase ra rr
      = Spec.flipOut fy fx (shift2d cfg data deltax deltay phase ra rr) := by
  rw [shift2d_eq, shift2d_eq]
  have e2 : denan (Spec.flip fy fx data) = Spec.flip fy fx (denan data) := rfl
  rw [e2, filt_flip]
  simp only [freq2_negK fy fx hy hx]
  unfold shiftReturn
  cases rr <;> cases ra <;> rfl

theorem filt_conj (K : Fin ny × Fin nx → ℂ) (x : Fin ny × Fin nx → ℝ) (p : Fin ny × Fin nx) :
    filt (fun k => conj (K (negK true k.1, negK true k.2))) (fun i => (x i : ℂ)) p = conj (filt K (fun i => (x i : ℂ)) p) := by
  unfold filt idft
  rw [map_mul, map_sum]
  congr 1
  · simp
  rw [← sum_negK true true]
  refine Finset.sum_congr rfl fun k _ => ?_
  have h1 : ((negK true k.1, negK true k.2) : Fin ny × Fin nx) = -k := rfl
  simp only [negK_negK]
  rw [h1, dft_real_neg, e_neg_left, map_mul, map_mul]

/-- C139: rotating a real image (NaN allowed) by 180° and shifting it the opposite way gives the rotated result; a complex result is
conjugated. Any sizes. -/
theorem C139_rot180 (cfg : FFTConfig) (data : Fin ny × Fin nx → Pix) (deltax deltay : ℝ) (ra rr : Bool) :
    shift2d cfg (toC (Spec.flip true true data)) (-deltax) (-deltay) 0 ra rr
      = Spec.flipOut true true (Spec.conjOut (shift2d cfg (toC data) deltax deltay 0 ra rr)) := by
  rw [shift2d_eq, shift2d_eq]
  have e1 : toC (Spec.flip true true data) = Spec.flip true true (toC data) := rfl
  have e2 : denan (Spec.flip true true (toC data)) = Spec.flip true true (denan (toC data)) := rfl
  have e3 : denan (toC data) = fun i => ((Spec.nan0 data i : ℝ) : ℂ) := by
    funext i; unfold denan toC Spec.nan0
    cases data i <;> simp
  rw [e1, e2, filt_flip, e3]
  simp only [shiftKernel_zero]
  have e4 : (fun k : Fin ny × Fin nx => ex (-freq2 (-deltax) (-deltay) (negK true k.1, negK true k.2)))
      = fun k => conj ((fun k => ex (-freq2 deltax deltay k)) (negK true k.1, negK true k.2)) := by
    funext k
    rw [conj_ex]; congr 1; unfold freq2; ring
  have e5 : filt (fun k : Fin ny × Fin nx => ex (-freq2 (-deltax) (-deltay) (negK true k.1, negK true k.2))) (fun i => ((Spec.nan0 data i : ℝ) : ℂ))
      = fun p => conj (filt (fun k => ex (-freq2 deltax deltay k)) (fun i => ((Spec.nan0 data i : ℝ) : ℂ)) p) := by
    funext p
    rw [e4]; exact filt_conj (fun k => ex (-freq2 deltax deltay k)) _ p
  rw [e5]
  generalize filt (fun k => ex (-freq2 deltax deltay k)) (fun i => ((Spec.nan0 data i : ℝ) : ℂ)) = y
  unfold shiftReturn
  cases rr <;> cases ra
  · rfl
  · simp only [Bool.false_eq_true, if_false, if_true, Spec.conjOut, Spec.flipOut]
    congr 1
    funext p
    simp [Np.abs, Spec.flip, cArr]
  all_goals
    simp only [if_true, Spec.conjOut, Spec.flipOut]
    congr 1

/-- C139: a real image with real output (`return_real`) may be flipped along any axes when one of the two sizes is odd. -/
theorem C139_shift2d_real (cfg : FFTConfig) (fy fx : Bool) (ho : Odd ny ∨ Odd nx) (data : Fin ny × Fin nx → Pix)
    (deltax deltay : ℝ) (ra : Bool) :
    shift2d cfg (toC (Spec.flip fy fx data)) (Spec.sgn fx deltax) (Spec.sgn fy deltay) 0 ra true
      = Spec.flipOut fy fx (shift2d cfg (toC data) deltax deltay 0 ra true) := by
  have hr : ∀ (d : Fin ny × Fin nx → Pix) dx dy, Spec.conjOut (shift2d cfg (toC d) dx dy 0 ra true) = shift2d cfg (toC d) dx dy 0 ra true := by
    intro d dx dy
    rw [shift2d_eq]
    rfl
  have h180 : ∀ (d : Fin ny × Fin nx → Pix) dx dy, shift2d cfg (toC (Spec.flip true true d)) (-dx) (-dy) 0 ra true
      = Spec.flipOut true true (shift2d cfg (toC d) dx dy 0 ra true) := by
    intro d dx dy; rw [C139_rot180, hr]
  have hff : ∀ (a b c d : Bool) (o : NdOut (Fin ny × Fin nx)), Spec.flipOut a b (Spec.flipOut c d o) = Spec.flipOut (xor a c) (xor b d) o := by
    intro a b c d o
    cases o <;> cases a <;> cases b <;> cases c <;> cases d <;>
      simp only [Spec.flipOut] <;> congr 1 <;> funext p <;> simp [Spec.flip, Spec.rev]
  rcases ho with ho | ho
  · -- rows can be flipped alone
    have hrow : ∀ (d : Fin ny × Fin nx → Pix) dx dy, shift2d cfg (toC (Spec.flip true false d)) dx (-dy) 0 ra true
        = Spec.flipOut true false (shift2d cfg (toC d) dx dy 0 ra true) := fun d dx dy =>
      C139_shift2d cfg true false (fun _ => ho) (fun h => by cases h) (toC d) dx dy 0 ra true
    cases fy <;> cases fx
    · exact C139_shift2d cfg false false (fun h => by cases h) (fun h => by cases h) (toC data) deltax deltay 0 ra true
    · have h := h180 (Spec.flip true false data) deltax (-deltay)
      rw [hrow, hff, neg_neg] at h
      have e : Spec.flip true true (Spec.flip true false data) = Spec.flip false true data := by
        funext p; simp [Spec.flip, Spec.rev]
      rw [e] at h
      exact h
    · exact hrow data deltax deltay
    · exact h180 data deltax deltay
  · have hcol : ∀ (d : Fin ny × Fin nx → Pix) dx dy, shift2d cfg (toC (Spec.flip false true d)) (-dx) dy 0 ra true
        = Spec.flipOut false true (shift2d cfg (toC d) dx dy 0 ra true) := fun d dx dy =>
      C139_shift2d cfg false true (fun h => by cases h) (fun _ => ho) (toC d) dx dy 0 ra true
    cases fy <;> cases fx
    · exact C139_shift2d cfg false false (fun h => by cases h) (fun h => by cases h) (toC data) deltax deltay 0 ra true
    · exact hcol data deltax deltay
    · have h := h180 (Spec.flip false true data) (-deltax) deltay
      rw [hcol, hff, neg_neg] at h
      have e : Spec.flip true true (Spec.flip false true data) = Spec.flip true false data := by
        funext p; simp [Spec.flip, Spec.rev]
      rw [e] at h
      exact h
    · exact h180 data deltax deltay

/-! ### the maps -/

theorem revLag_odd {n : ℕ} [NeZero n] (f : Bool) (h : f = true → Odd n) (j : Fin n) : Spec.revLag f j = Spec.rev f j := by
  cases f
  · rfl
  · obtain ⟨m, hm⟩ := h rfl
    have := j.isLt
    simp only [Spec.revLag, Spec.rev, if_true]
    rw [Spec.wrap_eq_iff, Fin.val_rev]
    unfold Spec.zeroLag
    rw [show 2 * (((n - 1) / 2 : ℕ) : ℤ) - ((j : ℕ) : ℤ) = ((n - ((j : ℕ) + 1) : ℕ) : ℤ) by omega]

theorem flipMap_odd (fy fx : Bool) (hy : fy = true → Odd ny) (hx : fx = true → Odd nx) {α : Type} (c : Fin ny × Fin nx → α) :
    Spec.flipMap fy fx c = Spec.flip fy fx c := by
  funext i; unfold Spec.flipMap Spec.flip; rw [revLag_odd fy hy, revLag_odd fx hx]

/-- one axis of a moved, flipped pixel -/
theorem rev_wrap {n : ℕ} [NeZero n] (f : Bool) (j i : Fin n) :
    Spec.rev f (Spec.wrap n (((Spec.rev f j : ℕ) : ℤ) + Spec.lag n i)) = Spec.wrap n (((j : ℕ) : ℤ) + Spec.lag n (Spec.revLag f i)) := by
  cases f
  · rfl
  · simp only [Spec.rev, Spec.revLag, if_true]
    symm
    rw [Spec.wrap_eq_iff]
    have h1 := Spec.wrap_modEq n (2 * (Spec.zeroLag n : ℤ) - ((i : ℕ) : ℤ))
    have h2 := Spec.wrap_modEq n (((j.rev : ℕ) : ℤ) + Spec.lag n i)
    have hv : ∀ k : Fin n, ((k.rev : ℕ) : ℤ) = n - 1 - ((k : ℕ) : ℤ) := by
      intro k; have := k.isLt; rw [Fin.val_rev]; omega
    rw [hv] at h2
    rw [hv, hv]
    unfold Spec.lag at h2 ⊢
    generalize (((Spec.wrap n (2 * (Spec.zeroLag n : ℤ) - ((i : ℕ) : ℤ)) : Fin n) : ℕ) : ℤ) = A at *
    generalize (((Spec.wrap n ((n : ℤ) - 1 - ((j : ℕ) : ℤ) + ((Spec.zeroLag n : ℤ) - ((i : ℕ) : ℤ))) : Fin n) : ℕ) : ℤ) = B at *
    have h3 : ((j : ℕ) : ℤ) + ((Spec.zeroLag n : ℤ) - A) ≡ ((j : ℕ) : ℤ) + ((Spec.zeroLag n : ℤ) - (2 * (Spec.zeroLag n : ℤ) - ((i : ℕ) : ℤ))) [ZMOD n] :=
      Int.ModEq.add_left _ (Int.ModEq.sub_left _ h1)
    have h4 : (n : ℤ) - 1 - B ≡ (n : ℤ) - 1 - ((n : ℤ) - 1 - ((j : ℕ) : ℤ) + ((Spec.zeroLag n : ℤ) - ((i : ℕ) : ℤ))) [ZMOD n] :=
      Int.ModEq.sub_left _ h2
    refine h3.trans (Int.ModEq.trans ?_ h4.symm)
    rw [show ((j : ℕ) : ℤ) + ((Spec.zeroLag n : ℤ) - (2 * (Spec.zeroLag n : ℤ) - ((i : ℕ) : ℤ)))
      = (n : ℤ) - 1 - ((n : ℤ) - 1 - ((j : ℕ) : ℤ) + ((Spec.zeroLag n : ℤ) - ((i : ℕ) : ℤ))) by ring]

theorem flip_move {α : Type} (fy fx : Bool) (b : Fin ny × Fin nx → α) (i p : Fin ny × Fin nx) :
    Spec.flip fy fx b (Spec.move (Spec.lag ny i.1) (Spec.lag nx i.2) (Spec.rev fy p.1, Spec.rev fx p.2))
      = b (Spec.move (Spec.lag ny (Spec.revLag fy i.1)) (Spec.lag nx (Spec.revLag fx i.2)) p) := by
  unfold Spec.flip Spec.move
  rw [rev_wrap, rev_wrap]

theorem xcorr_flip (fy fx : Bool) (a b : Fin ny × Fin nx → ℝ) :
    Spec.xcorr (Spec.flip fy fx a) (Spec.flip fy fx b) = Spec.flipMap fy fx (Spec.xcorr a b) := by
  funext i
  unfold Spec.xcorr Spec.flipMap
  rw [← sum_flip fy fx]
  refine Finset.sum_congr rfl fun p _ => ?_
  have := flip_move fy fx b i p
  unfold Spec.lag at this
  rw [this]
  congr 1
  unfold Spec.flip
  simp only [rev_rev']

/-- C139: `correlate2d` of the flipped images holds, at each pixel, the value of the flipped displacement (or the same exception). For odd
sizes this is the flipped map. -/
theorem C139_correlate2d (cfg : FFTConfig) (ah fy fx : Bool) (a b : Fin ny × Fin nx → Pix) :
    correlate2d cfg ah (Spec.flip fy fx a) (Spec.flip fy fx b) = (correlate2d cfg ah a b).map (Spec.flipMap fy fx) := by
  by_cases h : Spec.fits ah ny nx
  · rw [correlate2d_nan0 cfg ah h, correlate2d_nan0 cfg ah h]
    have e1 : Spec.nan0 (Spec.flip fy fx a) = Spec.flip fy fx (Spec.nan0 a) := rfl
    have e2 : Spec.nan0 (Spec.flip fy fx b) = Spec.flip fy fx (Spec.nan0 b) := rfl
    rw [e1, e2, xcorr_flip]
    rfl
  · rw [correlate2d_huge cfg ah h, correlate2d_huge cfg ah h]
    rfl

omit [NeZero ny] [NeZero nx] in
theorem prep_flip (zm fy fx : Bool) (im : Fin ny × Fin nx → Pix) : prep zm (Spec.flip fy fx im) = Spec.flip fy fx (prep zm im) := by
  have h1 : (univ.filter fun p : Fin ny × Fin nx => (Spec.flip fy fx im p).isSome).card = (univ.filter fun p => (im p).isSome).card := by
    rw [Finset.card_filter, Finset.card_filter]
    exact sum_flip fy fx fun p : Fin ny × Fin nx => if (im p).isSome then 1 else 0
  have h2 : ∑ p, (Spec.flip fy fx im p).getD 0 = ∑ p, (im p).getD 0 := sum_flip fy fx fun p : Fin ny × Fin nx => (im p).getD 0
  have h : Spec.finiteMean (Spec.flip fy fx im) = Spec.finiteMean im := by
    unfold Spec.finiteMean; rw [h1, h2]
  funext p
  unfold prep
  rw [h]; rfl

omit [NeZero ny] [NeZero nx] in
theorem errOf_flip (fy fx : Bool) (err : ErrArg ny nx) : Spec.errOf (Spec.flipErr fy fx err) = Spec.flip fy fx (Spec.errOf err) := by
  cases err <;> rfl

omit [NeZero ny] [NeZero nx] in
theorem maskOf_flip (fy fx : Bool) (err : ErrArg ny nx) (im : Fin ny × Fin nx → ℝ) :
    Spec.maskOf (Spec.flipErr fy fx err) (Spec.flip fy fx im) = Spec.flip fy fx (Spec.maskOf err im) := by
  cases err <;> rfl

/-- the map of the flipped images -/
theorem chi2nMapBody_flip (cfg : FFTConfig) (fy fx : Bool) (im1 im2 : Fin ny × Fin nx → Pix) (err : ErrArg ny nx) (zm red ah : Bool) :
    chi2nMapBody cfg (Spec.flip fy fx im1) (Spec.flip fy fx im2) (Spec.flipErr fy fx err) zm red ah
      = (chi2nMapBody cfg im1 im2 err zm red ah).map fun m =>
        ⟨Spec.flipMap fy fx m.chi2, m.term1, Spec.flipMap fy fx m.term2, Spec.flipTerm3 fy fx m.term3⟩ := by
  by_cases h : Spec.fits ah ny nx
  swap
  · rw [chi2nMapBody_huge _ _ _ _ _ _ _ h, chi2nMapBody_huge _ _ _ _ _ _ _ h]
    rfl
  obtain ⟨⟨c, t1, t2, t3⟩, hm, h1, h2, h3, h4, h5⟩ := chi2nMapBody_eq cfg im1 im2 err zm red ah h
  obtain ⟨⟨c', t1', t2', t3'⟩, hm', h1', h2', h3', h4', h5'⟩ := chi2nMapBody_eq cfg (Spec.flip fy fx im1) (Spec.flip fy fx im2)
    (Spec.flipErr fy fx err) zm red ah h
  rw [hm, hm']
  simp only at h1 h2 h3 h4 h5 h1' h2' h3' h4' h5'
  rw [prep_flip] at h1' h2' h3'
  rw [prep_flip] at h2'
  rw [maskOf_flip, errOf_flip] at h1' h2' h3'
  rw [maskOf_flip] at h2'
  have k1 : t1' = t1 := by
    rw [h1', h1]
    exact sum_flip fy fx fun p : Fin ny × Fin nx => Spec.maskOf err (prep zm im2) p ^ 2 / Spec.errOf err p ^ 2
  have k2 : t2' = Spec.flipMap fy fx t2 := by
    rw [h2', h2]
    have := xcorr_flip fy fx (Spec.maskOf err (prep zm im1)) fun j => Spec.maskOf err (prep zm im2) j / Spec.errOf err j ^ 2
    funext i
    have := congrFun this i
    show -2 * Spec.xcorr _ (Spec.flip fy fx fun j => Spec.maskOf err (prep zm im2) j / Spec.errOf err j ^ 2) i = _
    rw [this]; rfl
  have k3 : ∀ i : Fin ny × Fin nx, t3'.at i = t3.at (Spec.revLag fy i.1, Spec.revLag fx i.2) := by
    intro i
    rw [h3', h3, ← sum_flip fy fx]
    refine Finset.sum_congr rfl fun p _ => ?_
    rw [flip_move]
    congr 2
    unfold Spec.flip
    simp only [rev_rev']
  have k4 : t3' = Spec.flipTerm3 fy fx t3 := by
    have hi : (∃ e, Spec.flipErr fy fx err = ErrArg.image e) ↔ ∃ e, err = ErrArg.image e := by
      cases err <;> simp [Spec.flipErr]
    rw [hi, ← h4] at h4'
    cases t3 with
    | scalar t =>
      cases t3' with
      | scalar t' => have := k3 (0, 0); simp only [Term3.at] at this; rw [this]; rfl
      | image t' => simp at h4'
    | image t =>
      cases t3' with
      | scalar t' => simp at h4'
      | image t' => have : t' = Spec.flipMap fy fx t := funext fun i => k3 i
                    rw [this]; rfl
  have k5 : c' = Spec.flipMap fy fx c := by
    funext i
    show c' i = c (Spec.revLag fy i.1, Spec.revLag fx i.2)
    rw [h5', h5, k3, k1, k2]
    rfl
  rw [k1, k2, k4, k5]
  rfl

/-- C139: `chi2n_map` of the flipped images and errors holds, at each pixel, the values of the flipped displacement (or the same
exception), whatever the flags. For odd sizes these are the flipped maps (`flipMap_odd`). -/
theorem C139_chi2n_map (cfg : FFTConfig) (fy fx : Bool) (im1 im2 : Fin ny × Fin nx → Pix) (err : ErrArg ny nx) (zm ra red ah : Bool) :
    chi2nMap cfg (Spec.flip fy fx im1) (Spec.flip fy fx im2) (Spec.flipErr fy fx err) zm ra red ah
      = (chi2nMap cfg im1 im2 err zm ra red ah).map (Spec.flipRet fy fx) := by
  rw [chi2nMap_same, chi2nMap_same, chi2nMapBody_flip]
  cases chi2nMapBody cfg im1 im2 err zm red ah with
  | error e => rfl
  | ok m => cases ra <;> rfl

/-! ### `chi2_shift` -/

theorem argmin_flip {m n : ℕ} [NeZero m] [NeZero n] (fy fx : Bool) (c : Fin m × Fin n → ℝ)
    (h : ∀ j, j ≠ Np.argmin c → c (Np.argmin c) < c j) :
    Np.argmin (Spec.flip fy fx c) = (Spec.rev fy (Np.argmin c).1, Spec.rev fx (Np.argmin c).2) := by
  apply Np.argmin_eq_of_unique
  intro j hj
  show c (Spec.rev fy (Spec.rev fy _), Spec.rev fx (Spec.rev fx _)) < c (Spec.rev fy j.1, Spec.rev fx j.2)
  rw [rev_rev', rev_rev']
  refine h _ fun hc => hj ?_
  rw [← hc]; simp only [rev_rev']

theorem minOver_flip {m n : ℕ} (fy fx : Bool) (S S' : Finset (Fin m × Fin n)) (h : S.Nonempty) (h' : S'.Nonempty)
    (hS : ∀ i : Fin m × Fin n, i ∈ S' ↔ (Spec.rev fy i.1, Spec.rev fx i.2) ∈ S) (f g : Fin m × Fin n → ℝ)
    (hg : ∀ i, g (Spec.rev fy i.1, Spec.rev fx i.2) = f i) : Np.minOver S' h' g = Np.minOver S h f := by
  obtain rfl : S' = S.map (flipEquiv m n fy fx).toEmbedding := by
    ext i
    rw [hS, Finset.mem_map_equiv]
    rfl
  unfold Np.minOver
  rw [Finset.inf'_map]
  congr 1
  funext i
  exact hg _

theorem maxOver_flip {m n : ℕ} (fy fx : Bool) (S S' : Finset (Fin m × Fin n)) (h : S.Nonempty) (h' : S'.Nonempty)
    (hS : ∀ i : Fin m × Fin n, i ∈ S' ↔ (Spec.rev fy i.1, Spec.rev fx i.2) ∈ S) (f g : Fin m × Fin n → ℝ)
    (hg : ∀ i, g (Spec.rev fy i.1, Spec.rev fx i.2) = f i) : Np.maxOver S' h' g = Np.maxOver S h f := by
  obtain rfl : S' = S.map (flipEquiv m n fy fx).toEmbedding := by
    ext i
    rw [hS, Finset.mem_map_equiv]
    rfl
  unfold Np.maxOver
  rw [Finset.sup'_map]
  congr 1
  funext i
  exact hg _

/-- the largest minus the best, the best minus the smallest coordinate, in a region and in the flipped region -/
theorem extent_flip {m n : ℕ} (fy fx : Bool) (S S' : Finset (Fin m × Fin n)) (h : S.Nonempty) (h' : S'.Nonempty)
    (hS : ∀ i : Fin m × Fin n, i ∈ S' ↔ (Spec.rev fy i.1, Spec.rev fx i.2) ∈ S) (f : Bool) (x : Fin m × Fin n → ℝ) (w : ℝ)
    (hx : ∀ i, x (Spec.rev fy i.1, Spec.rev fx i.2) = if f then w - x i else x i) (p : Fin m × Fin n) :
    Np.maxOver S' h' x - x (Spec.rev fy p.1, Spec.rev fx p.2) = (if f then x p - Np.minOver S h x else Np.maxOver S h x - x p) ∧
    x (Spec.rev fy p.1, Spec.rev fx p.2) - Np.minOver S' h' x = (if f then Np.maxOver S h x - x p else x p - Np.minOver S h x) := by
  cases f
  · simp only [Bool.false_eq_true, if_false] at hx ⊢
    rw [maxOver_flip fy fx S S' h h' hS x x hx, minOver_flip fy fx S S' h h' hS x x hx, hx]
    exact ⟨rfl, rfl⟩
  · simp only [if_true] at hx ⊢
    have h1 : Np.maxOver S' h' x = w - Np.minOver S h x := by
      apply le_antisymm
      · refine Finset.sup'_le _ _ fun i hi => ?_
        have := Finset.inf'_le x ((hS i).1 hi)
        have hw := hx (Spec.rev fy i.1, Spec.rev fx i.2)
        simp only [rev_rev'] at hw
        unfold Np.minOver
        rw [show x i = w - x (Spec.rev fy i.1, Spec.rev fx i.2) from hw]
        linarith
      · obtain ⟨i, hi, hmin⟩ := Finset.exists_mem_eq_inf' h x
        have : (Spec.rev fy i.1, Spec.rev fx i.2) ∈ S' := (hS _).2 (by simp only [rev_rev']; exact hi)
        have := Finset.le_sup' x this
        rw [hx] at this
        unfold Np.minOver Np.maxOver
        rw [hmin]; exact this
    have h2 : Np.minOver S' h' x = w - Np.maxOver S h x := by
      apply le_antisymm
      · obtain ⟨i, hi, hmax⟩ := Finset.exists_mem_eq_sup' h x
        have : (Spec.rev fy i.1, Spec.rev fx i.2) ∈ S' := (hS _).2 (by simp only [rev_rev']; exact hi)
        have := Finset.inf'_le x this
        rw [hx] at this
        unfold Np.minOver Np.maxOver
        rw [hmax]; exact this
      · refine Finset.le_inf' _ _ fun i hi => ?_
        have := Finset.le_sup' x ((hS i).1 hi)
        have hw := hx (Spec.rev fy i.1, Spec.rev fx i.2)
        simp only [rev_rev'] at hw
        unfold Np.maxOver
        rw [show x i = w - x (Spec.rev fy i.1, Spec.rev fx i.2) from hw]
        linarith
    rw [h1, h2, hx]
    constructor <;> ring

theorem val_rev_real {n : ℕ} (f : Bool) (j : Fin n) : (((Spec.rev f j : Fin n) : ℕ) : ℝ) = if f then (n : ℝ) - 1 - ((j : ℕ) : ℝ) else ((j : ℕ) : ℝ) := by
  cases f
  · rfl
  · have := j.isLt
    simp only [Spec.rev, if_true]
    rw [Fin.val_rev, Nat.cast_sub (by omega)]; push_cast; ring

theorem regionSize_flip (fy fx : Bool) (c : Fin ny × Fin nx → ℝ) (t : ℝ) (h : ∀ j, j ≠ Np.argmin c → c (Np.argmin c) < c j) :
    Spec.regionSize (Spec.flip fy fx c) t = Spec.regionSize c t := by
  classical
  have hv : Spec.flip fy fx c (Np.argmin (Spec.flip fy fx c)) = c (Np.argmin c) := by
    rw [argmin_flip fy fx c h]; unfold Spec.flip; simp only [rev_rev']
  have hS : ∀ i : Fin ny × Fin nx, i ∈ (univ.filter fun i => Spec.flip fy fx c i - Spec.flip fy fx c (Np.argmin (Spec.flip fy fx c)) < t) ↔
      (Spec.rev fy i.1, Spec.rev fx i.2) ∈ (univ.filter fun i => c i - c (Np.argmin c) < t) := by
    intro i; rw [hv]; simp only [Finset.mem_filter, Finset.mem_univ, true_and]; rfl
  have hcard : (univ.filter fun i => Spec.flip fy fx c i - Spec.flip fy fx c (Np.argmin (Spec.flip fy fx c)) < t).card
      = (univ.filter fun i => c i - c (Np.argmin c) < t).card := by
    rw [hv, Finset.card_filter, Finset.card_filter]
    exact sum_flip fy fx fun p : Fin ny × Fin nx => if c p - c (Np.argmin c) < t then 1 else 0
  unfold Spec.regionSize
  by_cases h1 : 1 < (univ.filter fun i => c i - c (Np.argmin c) < t).card
  · rw [dif_pos h1, dif_pos (by rw [hcard]; exact h1)]
    have ex : ∀ (f : Bool) (x : Fin ny × Fin nx → ℝ) (w : ℝ)
        (hx : ∀ i, x (Spec.rev fy i.1, Spec.rev fx i.2) = if f then w - x i else x i) (S S' : Finset (Fin ny × Fin nx)) (h : S.Nonempty)
        (h' : S'.Nonempty) (hS : ∀ i, i ∈ S' ↔ (Spec.rev fy i.1, Spec.rev fx i.2) ∈ S),
        Np.maxOver S' h' x - Np.minOver S' h' x = Np.maxOver S h x - Np.minOver S h x := by
      intro f x w hx S S' h h' hS
      obtain ⟨k1, k2⟩ := extent_flip fy fx S S' h h' hS f x w hx (Np.argmin c)
      cases f
      · simp only [Bool.false_eq_true, if_false] at k1 k2; linarith
      · simp only [if_true] at k1 k2; linarith
    congr 1
    · exact ex fx (fun i => ((i.2 : ℕ) : ℝ)) ((nx : ℝ) - 1) (fun i => val_rev_real fx i.2) _ _ _ _ hS
    · exact ex fy (fun i => ((i.1 : ℕ) : ℝ)) ((ny : ℝ) - 1) (fun i => val_rev_real fy i.1) _ _ _ _ hS
  · rw [dif_neg h1, dif_neg (by rw [hcard]; exact h1)]

/-- C139: the error bars of the flipped map are those of the map, the lower and the upper one exchanged along the flipped axes (unique
minimum; any sizes). -/
theorem C139_chi2map_to_errors (st : Stats) (fy fx : Bool) (c : Fin ny × Fin nx → ℝ) (zf nsig nf : ℝ) (p : Fin ny × Fin nx)
    (hp : ∀ j, j ≠ p → c p < c j) :
    chi2mapToErrors st (Spec.flip fy fx c) zf nsig nf
      = (chi2mapToErrors st c zf nsig nf).map fun er =>
        ⟨if fx then er.xHigh else er.xLow, if fx then er.xLow else er.xHigh, if fy then er.yHigh else er.yLow,
          if fy then er.yLow else er.yHigh⟩ := by
  classical
  have hpa : Np.argmin c = p := Np.argmin_eq_of_unique hp
  have harg := argmin_flip fy fx c (by rw [hpa]; exact hp)
  unfold chi2mapToErrors
  simp only []
  rw [harg]
  have hS : ∀ i : Fin ny × Fin nx, i ∈ (univ.filter fun i =>
        Spec.flip fy fx c i - Spec.flip fy fx c (Spec.rev fy (Np.argmin c).1, Spec.rev fx (Np.argmin c).2) < sigmaToChi2 st nf nsig) ↔
      (Spec.rev fy i.1, Spec.rev fx i.2) ∈ (univ.filter fun i => c i - c (Np.argmin c) < sigmaToChi2 st nf nsig) := by
    intro i; simp only [Finset.mem_filter, Finset.mem_univ, true_and, Spec.flip, rev_rev']
  by_cases hne : (univ.filter fun i => c i - c (Np.argmin c) < sigmaToChi2 st nf nsig).Nonempty
  · have hne' : (univ.filter fun i : Fin ny × Fin nx =>
        Spec.flip fy fx c i - Spec.flip fy fx c (Spec.rev fy (Np.argmin c).1, Spec.rev fx (Np.argmin c).2) < sigmaToChi2 st nf nsig).Nonempty := by
      obtain ⟨i, hi⟩ := hne
      exact ⟨(Spec.rev fy i.1, Spec.rev fx i.2), (hS _).2 (by simp only [rev_rev']; exact hi)⟩
    rw [dif_pos hne, dif_pos hne']
    show Except.ok _ = Except.ok _
    rw [Except.ok.injEq, Errors.mk.injEq]
    have X := extent_flip fy fx _ _ hne hne' hS fx (fun i => (((i.2 : ℕ) : ℝ) - (nx : ℝ) / 2) / zf) (-1 / zf) (by
      intro i; simp only [val_rev_real]; split_ifs
      · ring
      · rfl) (Np.argmin c)
    have Y := extent_flip fy fx _ _ hne hne' hS fy (fun i => (((i.1 : ℕ) : ℝ) - (ny : ℝ) / 2) / zf) (-1 / zf) (by
      intro i; simp only [val_rev_real]; split_ifs
      · ring
      · rfl) (Np.argmin c)
    exact ⟨X.2, X.1, Y.2, Y.1⟩
  · rw [dif_neg hne, dif_neg (fun ⟨i, hi⟩ => hne ⟨_, (hS i).1 hi⟩)]
    rfl

theorem gridShift_rev (f : Bool) (n s : ℕ) (q : Fin n) (j : Fin s) (u : ℝ) (h : f = true → Odd n) :
    Spec.gridShift n (Spec.rev f q) u s (Spec.rev f j) = Spec.sgn f (Spec.gridShift n q u s j) := by
  cases f
  · rfl
  · have ho := h rfl
    have hh : Spec.halfPix n = 0 := by
      have : ¬ n % 2 = 0 := by rw [Nat.odd_iff] at ho; omega
      simp [Spec.halfPix, this]
    have hz : 2 * (Spec.zeroLag n : ℝ) = (n : ℝ) - 1 := by
      obtain ⟨m, rfl⟩ := ho
      unfold Spec.zeroLag
      rw [show (2 * m + 1 - 1) / 2 = m by omega]; push_cast; ring
    unfold Spec.gridShift
    rw [hh, val_rev_real, val_rev_real]
    simp only [if_true, Spec.sgn]
    have e : ((s : ℝ) - 1 - ((j : ℕ) : ℝ) - ((s : ℝ) - 1) / 2) / u
        = -((((j : ℕ) : ℝ) - ((s : ℝ) - 1) / 2) / u) := by ring
    rw [e]; linarith

/-- C139: `chi2_shift` of the flipped images and errors returns the shift with the sign changed along the flipped axes, the same error bars,
and the flipped arrays (the coordinate arrays with the sign changed along the flipped axes). The flipped axes have odd size, and the
chi-squared map and its upsampled part have a unique minimum each. Also for the automatic upsampling factor. -/
theorem C139_chi2_shift (cfg : FFTConfig) (st : Stats) (hst : Spec.validStats st) (fy fx : Bool) (hy : fy = true → Odd ny)
    (hx : fx = true → Odd nx) (im1 im2 : Fin ny × Fin nx → Pix) (err : ErrArg ny nx)
    (us : UsFactor) (zm : Bool) (nf : ℝ) (mas : ℕ) (mns : ℝ) (ah : Bool) (hus : Spec.validUs ny mas us)
    (cmap : Fin ny × Fin nx → ℝ) (hmap : chi2nMap cfg im1 im2 err zm false false ah = .ok (.only cmap))
    (p : Fin ny × Fin nx) (hp : ∀ j, j ≠ p → cmap p < cmap j)
    (dx dy ex ey : ℝ) (s1 s2 : ℕ) (xv yv c : Fin s1 × Fin s2 → ℝ)
    (hres : chi2Shift cfg st im1 im2 err us zm nf false true true mas mns ah
      = .ok [.num dx, .num dy, .num ex, .num ey, .arrays s1 s2 xv yv c])
    (q : Fin s1 × Fin s2) (hq : ∀ j, j ≠ q → c q < c j) :
    ∀ re rc, chi2Shift cfg st (Spec.flip fy fx im1) (Spec.flip fy fx im2) (Spec.flipErr fy fx err) us zm nf false re rc mas mns ah
      = .ok (Spec.layout re rc (Spec.sgn fx dx) (Spec.sgn fy dy) ex ey (.arrays s1 s2 (fun i => Spec.sgn fx (Spec.flip fy fx xv i))
          (fun i => Spec.sgn fy (Spec.flip fy fx yv i)) (Spec.flip fy fx c))) := by
  have hf : Spec.fits ah ny nx := by
    by_contra hf
    rw [chi2nMap_same, chi2nMapBody_huge _ _ _ _ _ _ _ hf] at hmap
    cases hmap
  obtain ⟨cm, hcm, S1, S2, i1, i2, hg, u, hu, hu0, YV, XV, hY, hX, C, hC, er, her, hall⟩ :=
    chi2Shift_ok cfg st hst im1 im2 err us zm nf mas mns ah hf hus
  obtain ⟨cm', hcm', S1', S2', i1', i2', hg', u', hu', hu0', YV', XV', hY', hX', C', hC', er', her', hall'⟩ :=
    chi2Shift_ok cfg st hst (Spec.flip fy fx im1) (Spec.flip fy fx im2) (Spec.flipErr fy fx err) us zm nf mas mns ah hf hus
  rw [chi2nMapBody_flip, hcm] at hcm'
  have e1 : cm'.chi2 = Spec.flip fy fx cm.chi2 := by
    have := Except.ok.inj hcm'
    rw [← this, ← flipMap_odd fy fx hy hx]
  have e2 : cm.chi2 = cmap := by
    rw [chi2nMap_same, hcm] at hmap
    have := Except.ok.inj hmap
    exact Chi2Ret.only.inj this
  have hpa : Np.argmin cmap = p := Np.argmin_eq_of_unique hp
  have hmin : ∀ j, j ≠ Np.argmin cmap → cmap (Np.argmin cmap) < cmap j := by rw [hpa]; exact hp
  have harg := argmin_flip fy fx cmap hmin
  have hsz : S1' = S1 ∧ S2' = S2 := Prod.mk.inj (hg'.trans hg.symm)
  obtain ⟨rfl, rfl⟩ := hsz
  have hinst : i1' = i1 := Subsingleton.elim _ _
  have hinst2 : i2' = i2 := Subsingleton.elim _ _
  subst hinst hinst2
  have huu : u' = u := by
    rw [hu', hu, e1, e2]
    cases us with
    | auto => unfold Spec.usUsed; simp only; rw [regionSize_flip fy fx cmap _ hmin]
    | float v => rfl
    | int v => rfl
  rw [e1, e2, harg, huu] at hY' hX'
  rw [e2] at hY hX
  have kY : YV' = fun i => Spec.sgn fy (Spec.flip fy fx YV i) := by
    rw [hY', hY]; funext i
    have := gridShift_rev fy ny S1' (Np.argmin cmap).1 (Spec.rev fy i.1) u hy
    rw [rev_rev'] at this
    exact this
  have kX : XV' = fun i => Spec.sgn fx (Spec.flip fy fx XV i) := by
    rw [hX', hX]; funext i
    have := gridShift_rev fx nx S2' (Np.argmin cmap).2 (Spec.rev fx i.2) u hx
    rw [rev_rev'] at this
    exact this
  have pos : ∀ (f : Bool) (n : ℕ) (h : f = true → Odd n) (t : ℝ),
      (if f then (n : ℝ) - 1 - (Spec.sgn f t + (Spec.zeroLag n : ℕ)) else Spec.sgn f t + (Spec.zeroLag n : ℕ)) = t + (Spec.zeroLag n : ℕ) := by
    intro f n h t
    cases f
    · rfl
    · obtain ⟨m, rfl⟩ := h rfl
      simp only [if_true, Spec.sgn]
      unfold Spec.zeroLag
      rw [show (2 * m + 1 - 1) / 2 = m by omega]; push_cast; ring
  have kC : C' = Spec.flip fy fx C := by
    rw [hC', hC, e1, kY, kX]
    funext i
    show (interp2C (Spec.flip fy fx fun i => (cm.chi2 i : ℂ)) _ _).re = _
    rw [interp2C_flip' fy fx hy hx]
    simp only [pos fy ny hy, pos fx nx hx]
    rfl
  have hr := hall true true
  rw [hres] at hr
  have hr := Except.ok.inj hr
  simp only [Spec.layout, if_true, List.cons_append, List.nil_append, List.cons.injEq, RetVal.num.injEq, RetVal.arrays.injEq,
    and_true] at hr
  obtain ⟨r1, r2, r3, r4, rfl, rfl, r5, r6, r7⟩ := hr
  obtain rfl := eq_of_heq r5
  obtain rfl := eq_of_heq r6
  obtain rfl := eq_of_heq r7
  have hqa : Np.argmin c = q := Np.argmin_eq_of_unique hq
  have harg2 := argmin_flip fy fx c (by rw [hqa]; exact hq)
  rw [kC, huu, C139_chi2map_to_errors st fy fx c u 1 2 q hq, her] at her'
  have her'' := Except.ok.inj her'
  have ex1 : (er'.xLow + er'.xHigh) / 2 = ex := by
    rw [← her'', r3]; cases fx
    · rfl
    · simp only [if_true]; ring
  have ey1 : (er'.yLow + er'.yHigh) / 2 = ey := by
    rw [← her'', r4]; cases fy
    · rfl
    · simp only [if_true]; ring
  have sx : -(Spec.sgn fx (Spec.flip fy fx xv (Spec.rev fy (Np.argmin c).1, Spec.rev fx (Np.argmin c).2))) = Spec.sgn fx dx := by
    rw [r1]; unfold Spec.flip; simp only [rev_rev']; cases fx <;> rfl
  have sy : -(Spec.sgn fy (Spec.flip fy fx yv (Spec.rev fy (Np.argmin c).1, Spec.rev fx (Np.argmin c).2))) = Spec.sgn fy dy := by
    rw [r2]; unfold Spec.flip; simp only [rev_rev']; cases fy <;> rfl
  intro re rc
  rw [hall' re rc, kC, kX, kY, harg2, ex1, ey1, sx, sy]

end

end ImgReg
