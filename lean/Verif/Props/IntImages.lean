import Verif.Model.IntImages
import Verif.Props.Heap
import Verif.Props.FillShift
import Verif.Props.IterZoom
import Mathlib.Tactic.Linarith
import Mathlib.Tactic.FinCases

/-!
# C130: integer images

What the package does with images of an integer dtype, compared with what it does with the same numbers stored as floats.
-/

open Finset

namespace ImgReg

/-! ### integer dtypes -/

/-- the integers that an integer dtype can hold -/
def Spec.Holds (t : IntType) (z : ℤ) : Prop :=
  if t.signed then -(2 ^ t.bits) ≤ 2 * z ∧ 2 * z < 2 ^ t.bits else 0 ≤ z ∧ z < 2 ^ t.bits

/-- a dtype computes a value that it can hold exactly -/
theorem wrap_of_holds (t : IntType) (z : ℤ) (h : Spec.Holds t z) : t.wrap z = z := by
  unfold IntType.wrap
  unfold Spec.Holds at h
  split_ifs at h ⊢ with hs
  · refine Int.bmod_eq_of_le_mul_two ?_ ?_
    · push_cast; linarith [h.1]
    · push_cast; linarith [h.2]
  · exact Int.emod_eq_of_lt h.1 h.2

/-- the result is always in the range of the dtype, and congruent to the exact value -/
theorem holds_wrap (t : IntType) (z : ℤ) (hb : t.bits ≠ 0) : Spec.Holds t (t.wrap z) := by
  have hp : (0 : ℤ) < 2 ^ t.bits := by positivity
  have he : (2 : ℤ) ^ t.bits = 2 * 2 ^ (t.bits - 1) := by
    rw [← pow_succ']; congr 1; omega
  unfold IntType.wrap Spec.Holds
  split_ifs with hs
  · have h1 := Int.le_bmod (x := z) (m := 2 ^ t.bits) (by positivity)
    have h2 := Int.bmod_lt (x := z) (m := 2 ^ t.bits) (by positivity)
    push_cast at h1 h2
    generalize Int.bmod z (2 ^ t.bits) = w at *
    omega
  · exact ⟨Int.emod_nonneg _ hp.ne', Int.emod_lt_of_pos _ hp⟩

theorem wrap_modEq (t : IntType) (z : ℤ) : t.wrap z ≡ z [ZMOD 2 ^ t.bits] := by
  unfold IntType.wrap
  split_ifs with hs
  · have : (Int.bmod z (2 ^ t.bits)) % ((2 ^ t.bits : ℕ) : ℤ) = z % ((2 ^ t.bits : ℕ) : ℤ) := Int.bmod_emod
    unfold Int.ModEq
    push_cast at this
    exact this
  · exact Int.mod_modEq _ _

theorem wrap_le_sq (t : IntType) (ht : t.signed = false) (v : ℤ) : t.wrap (v ^ 2) ≤ v ^ 2 := by
  unfold IntType.wrap
  rw [if_neg (by simp [ht])]
  have hp : (0 : ℤ) < 2 ^ t.bits := by positivity
  have h1 := Int.emod_add_mul_ediv (v ^ 2) (2 ^ t.bits)
  have h2 : 0 ≤ v ^ 2 / 2 ^ t.bits := Int.ediv_nonneg (sq_nonneg v) hp.le
  nlinarith [mul_nonneg hp.le h2]

theorem wrap_zero_sq (t : IntType) : t.wrap (0 ^ 2) = 0 ^ 2 := by
  unfold IntType.wrap
  split_ifs <;> simp

/-! ### a constant added to the map -/

section
variable {ny nx : ℕ} [NeZero ny] [NeZero nx]

/-- a returned map with a constant added -/
def RetVal.addMap (K : ℝ) : RetVal → RetVal
  | .num r => .num r
  | .arrays m l xv yv c => .arrays m l xv yv fun i => c i + K

theorem argmin_add (c : Fin ny × Fin nx → ℝ) (K : ℝ) : Np.argmin (fun i => c i + K) = Np.argmin c :=
  Np.argmin_comp fun i j => by simp

theorem chooseUpsample_add (c : Fin ny × Fin nx → ℝ) (K : ℝ) (us : UsFactor) (t : ℝ) (mas : ℕ) (vb : Bool) :
    chooseUpsample (fun i => c i + K) us t mas vb = chooseUpsample c us t mas vb := by
  unfold chooseUpsample autoUpsample
  simp only [argmin_add, add_sub_add_right_eq_sub]

theorem chooseUpsample_ok (c : Fin ny × Fin nx → ℝ) (us : UsFactor) (t : ℝ) (mas : ℕ) (vb : Bool) (hus : Spec.validUs ny mas us)
    (r : ℝ × ℕ × ℕ) (h : chooseUpsample c us t mas vb = .ok r) : r.1 ≠ 0 ∧ 0 < r.2.1 ∧ 0 < r.2.2 := by
  have key : chooseUpsample c us t mas false = .ok r := by
    cases us with
    | int u => exact h
    | float u => exact h
    | auto =>
      cases vb with
      | false => exact h
      | true =>
        unfold chooseUpsample autoUpsample at h ⊢
        simp only [Bool.true_and, bind, Except.bind, Bool.false_and, Bool.false_eq_true, if_false] at h ⊢
        split_ifs at h ⊢ <;> simp_all
  rw [chooseUpsample_eq c us t mas false (.inl rfl) hus] at key
  obtain rfl := Except.ok.inj key
  exact ⟨(usUsed_pos c t mas us hus).ne', gridSize_pos mas us hus⟩

theorem chi2ShiftRest_finish (cfg : FFTConfig) (st : Stats) (c : Fin ny × Fin nx → ℝ) (usArg : UsFactor) (nf : ℝ) (vb re rc : Bool) (mas : ℕ)
    (mns : ℝ) (us : ℝ) (s1 s2 : ℕ) (hch : chooseUpsample c usArg (mAuto st mns nf) mas vb = .ok (us, s1, s2)) (hus : us ≠ 0)
    [NeZero s1] [NeZero s2] :
    chi2ShiftRest cfg st c usArg nf vb re rc mas mns
      = chi2ShiftFinish st
          (fun i : Fin s1 × Fin s2 => (interp2C (fun i => (c i : ℂ))
            (Spec.zoomGrid (((ny : ℝ) - 1) / 2 + ((((Np.argmin c).1 : ℕ) : ℝ) - chi2Centre ny)) us s1 i.1)
            (Spec.zoomGrid (((nx : ℝ) - 1) / 2 + ((((Np.argmin c).2 : ℕ) : ℝ) - chi2Centre nx)) us s2 i.2)).re)
          (fun i => Spec.zoomGrid (((ny : ℝ) - 1) / 2 + ((((Np.argmin c).1 : ℕ) : ℝ) - chi2Centre ny)) us s1 i.1)
          (fun i => Spec.zoomGrid (((nx : ℝ) - 1) / 2 + ((((Np.argmin c).2 : ℕ) : ℝ) - chi2Centre nx)) us s2 i.2)
          us (chi2Centre ny) (chi2Centre nx) vb re rc := by
  obtain ⟨cube, hv, hz⟩ := zoomnd2_chi2 ⟨cfg.hasFftw, false, 1⟩ c
    ((((Np.argmin c).1 : ℕ) : ℝ) - chi2Centre ny)
    ((((Np.argmin c).2 : ℕ) : ℝ) - chi2Centre nx) us hus s1 s2
    (Nat.pos_of_ne_zero (NeZero.ne s1)) (Nat.pos_of_ne_zero (NeZero.ne s2))
  unfold chi2ShiftRest
  simp only [bind, Except.bind, hch, hz]
  rw [dif_pos ⟨NeZero.ne s1, NeZero.ne s2⟩]
  simp only [finiteVals_realArr, (hv _ _).1, (hv _ _).2]

theorem chi2ShiftFinish_add {m l : ℕ} [NeZero m] [NeZero l] (st : Stats) (c ycor xcor : Fin m × Fin l → ℝ) (us ycen xcen K : ℝ)
    (vb re rc : Bool) :
    chi2ShiftFinish st (fun i => c i + K) ycor xcor us ycen xcen vb re rc
      = (chi2ShiftFinish st c ycor xcor us ycen xcen vb re rc).map (List.map (RetVal.addMap K)) := by
  have he : chi2mapToErrors st (fun i => c i + K) us 1 2 = chi2mapToErrors st c us 1 2 := by
    unfold chi2mapToErrors
    simp only [argmin_add, add_sub_add_right_eq_sub]
  unfold chi2ShiftFinish
  simp only [argmin_add, add_sub_add_right_eq_sub, he]
  simp only [bind, Except.bind]
  by_cases h : (vb && decide (¬ ∃ i, 0 < c i - c (Np.argmin c))) = true
  · rw [if_pos h, if_pos h]; rfl
  · rw [if_neg h, if_neg h]
    cases chi2mapToErrors st c us 1 2 with
    | error e => rfl
    | ok er => cases re <;> cases rc <;> rfl

theorem interp2C_add_const (c : Fin ny × Fin nx → ℝ) (K ty tx : ℝ) :
    (interp2C (fun i => ((c i + K : ℝ) : ℂ)) ty tx).re = (interp2C (fun i => (c i : ℂ)) ty tx).re + K := by
  have := interp2C_add (fun i => (c i : ℂ)) (fun _ : Fin ny × Fin nx => (K : ℂ)) ty tx
  rw [interp2C_const] at this
  simp only [Complex.ofReal_add]
  rw [this, Complex.add_re, Complex.ofReal_re]

/-- what `chi2_shift` computes from its map does not change when a constant is added to the map, except that the returned map has it added too -/
theorem chi2ShiftRest_add (cfg : FFTConfig) (st : Stats) (c : Fin ny × Fin nx → ℝ) (K : ℝ) (us : UsFactor) (nf : ℝ) (vb re rc : Bool) (mas : ℕ)
    (mns : ℝ) (hus : Spec.validUs ny mas us) :
    chi2ShiftRest cfg st (fun i => c i + K) us nf vb re rc mas mns
      = (chi2ShiftRest cfg st c us nf vb re rc mas mns).map (List.map (RetVal.addMap K)) := by
  cases hch : chooseUpsample c us (mAuto st mns nf) mas vb with
  | error e =>
    unfold chi2ShiftRest
    simp only [chooseUpsample_add, hch, bind, Except.bind, Except.map]
  | ok r =>
    obtain ⟨h0, h1, h2⟩ := chooseUpsample_ok c us _ mas vb hus r hch
    obtain ⟨u, s1, s2⟩ := r
    have : NeZero s1 := ⟨h1.ne'⟩
    have : NeZero s2 := ⟨h2.ne'⟩
    rw [chi2ShiftRest_finish cfg st c us nf vb re rc mas mns u s1 s2 hch h0,
      chi2ShiftRest_finish cfg st (fun i => c i + K) us nf vb re rc mas mns u s1 s2 (by rw [chooseUpsample_add]; exact hch) h0,
      ← chi2ShiftFinish_add]
    simp only [argmin_add, interp2C_add_const]

end

/-! ### the chi-squared map -/

section
variable {ny nx : ℕ}

/-- the change of `Σ v²` when the squares are computed in the integer dtype -/
noncomputable def Spec.excess (t : IntType) (im : Fin ny × Fin nx → ℤ) : ℝ := ∑ i, (((t.wrap (im i ^ 2) : ℤ) : ℝ) - ((im i : ℤ) : ℝ) ^ 2)

/-- the square of an `err` argument that is not an array -/
noncomputable def Spec.errSq : ErrArg ny nx → ℝ
  | .scalar s => s ^ 2
  | _ => 1

theorem chi2nMapIntBody_noImage (cfg : FFTConfig) (bd : CorrBoundary) (t1 t2 : IntType) (im1 im2 : Fin ny × Fin nx → ℤ) (err : ErrArg ny nx)
    (herr : ∀ e, err ≠ .image e) (red ah : Bool) :
    chi2nMapIntBody cfg bd t1 t2 im1 im2 err false red ah
      = (chi2nMapBodyB cfg bd (intPix im1) (intPix im2) err false red ah).map fun m =>
        ⟨fun i => m.chi2 i + (Spec.excess t1 im1 + Spec.excess t2 im2) / Spec.errSq err / (if red then (ny : ℝ) * nx - 2 else 1),
          m.term1 + Spec.excess t2 im2 / Spec.errSq err, m.term2,
          .scalar (∑ i, ((im1 i : ℤ) : ℝ) ^ 2 / Spec.errSq err + Spec.excess t1 im1 / Spec.errSq err)⟩ := by
  have hs : ∀ (t : IntType) (im : Fin ny × Fin nx → ℤ) (q : ℝ), ∑ i, ((t.wrap (im i ^ 2) : ℤ) : ℝ) / q
      = ∑ i, ((im i : ℤ) : ℝ) ^ 2 / q + Spec.excess t im / q := by
    intro t im q
    unfold Spec.excess
    rw [Finset.sum_div, ← Finset.sum_add_distrib]
    exact Finset.sum_congr rfl fun i _ => by ring
  unfold chi2nMapIntBody chi2nMapBodyB
  rw [if_neg (by decide)]
  cases err with
  | image e => exact absurd rfl (herr e)
  | none =>
    simp only [bind, Except.bind, pure, Except.pure, Bool.false_eq_true, if_false, hs, Spec.errSq, one_pow]
    have e1 : realArr (finiteVals (Np.nanToNum (intPix im1))) = intPix im1 := rfl
    have e2 : ∀ i, finiteVals (Np.nanToNum (intPix im2)) i = ((im2 i : ℤ) : ℝ) := fun _ => rfl
    have e3 : ∀ i, finiteVals (Np.nanToNum (intPix im1)) i = ((im1 i : ℤ) : ℝ) := fun _ => rfl
    simp only [e1, e2, e3]
    cases correlate2dB cfg bd ah (intPix im1) (realArr fun i => ((im2 i : ℤ) : ℝ) / 1) with
    | error e => rfl
    | ok r =>
      simp only [Except.map, Except.ok.injEq, Chi2Map.mk.injEq, and_true]
      funext i
      cases red
      · simp only [Bool.false_eq_true, if_false, Term3.at]; ring
      · simp only [if_true, Term3.at]; ring
  | scalar s =>
    simp only [bind, Except.bind, pure, Except.pure, Bool.false_eq_true, if_false, hs, Spec.errSq]
    have e1 : realArr (finiteVals (Np.nanToNum (intPix im1))) = intPix im1 := rfl
    have e2 : ∀ i, finiteVals (Np.nanToNum (intPix im2)) i = ((im2 i : ℤ) : ℝ) := fun _ => rfl
    have e3 : ∀ i, finiteVals (Np.nanToNum (intPix im1)) i = ((im1 i : ℤ) : ℝ) := fun _ => rfl
    simp only [e1, e2, e3]
    cases correlate2dB cfg bd ah (intPix im1) (realArr fun i => ((im2 i : ℤ) : ℝ) / s ^ 2) with
    | error e => rfl
    | ok r =>
      simp only [Except.map, Except.ok.injEq, Chi2Map.mk.injEq, and_true]
      funext i
      cases red
      · simp only [Bool.false_eq_true, if_false, Term3.at]; ring
      · simp only [if_true, Term3.at]; ring

theorem chi2nMapIntBody_fits (cfg : FFTConfig) (bd : CorrBoundary) (t1 t2 : IntType) (im1 im2 : Fin ny × Fin nx → ℤ) (err : ErrArg ny nx)
    (zm red ah : Bool)
    (h : zm = true ∨ (∀ i, Spec.Holds t1 (im1 i ^ 2)) ∧ ∀ i, Spec.Holds t2 (im2 i ^ 2)) :
    chi2nMapIntBody cfg bd t1 t2 im1 im2 err zm red ah = chi2nMapBodyB cfg bd (intPix im1) (intPix im2) err zm red ah := by
  cases zm with
  | true => unfold chi2nMapIntBody; rw [if_pos rfl]
  | false =>
    obtain ⟨h1, h2⟩ := h.resolve_left (by decide)
    have w : ∀ (t : IntType) (im : Fin ny × Fin nx → ℤ) (_ : ∀ i, Spec.Holds t (im i ^ 2)) (c : Prop) [Decidable c] (i),
        t.wrap ((if c then 0 else im i) ^ 2) = (if c then 0 else im i) ^ 2 := by
      intro t im hh c _ i
      split_ifs
      · exact wrap_zero_sq t
      · exact wrap_of_holds t _ (hh i)
    unfold chi2nMapIntBody chi2nMapBodyB
    rw [if_neg (by decide)]
    have e1 : realArr (finiteVals (Np.nanToNum (intPix im1))) = intPix im1 := rfl
    have e2 : ∀ i, finiteVals (Np.nanToNum (intPix im2)) i = ((im2 i : ℤ) : ℝ) := fun _ => rfl
    have e3 : ∀ i, finiteVals (Np.nanToNum (intPix im1)) i = ((im1 i : ℤ) : ℝ) := fun _ => rfl
    cases err with
    | none =>
      simp only [bind, Except.bind, pure, Except.pure, Bool.false_eq_true, if_false, e1, e2, e3, wrap_of_holds t1 _ (h1 _),
        wrap_of_holds t2 _ (h2 _), Int.cast_pow]
    | scalar s =>
      simp only [bind, Except.bind, pure, Except.pure, Bool.false_eq_true, if_false, e1, e2, e3, wrap_of_holds t1 _ (h1 _),
        wrap_of_holds t2 _ (h2 _), Int.cast_pow]
    | image e =>
      simp only [bind, Except.bind, pure, Except.pure, Bool.false_eq_true, if_false, e2, e3, w t1 im1 h1]
      have e4 : ∀ (im : Fin ny × Fin nx → ℤ), (intPix fun i => open Classical in (if finiteVals (Np.nanToNum e) i = 0 then 0 else im i) ^ 2)
          = realArr fun i => open Classical in (if finiteVals (Np.nanToNum e) i = 0 then 0 else ((im i : ℤ) : ℝ)) ^ 2 := by
        intro im
        funext i
        unfold intPix realArr
        push_cast
        rfl
      have e5 : ∀ (im : Fin ny × Fin nx → ℤ), (intPix fun i => open Classical in if finiteVals (Np.nanToNum e) i = 0 then 0 else im i)
          = realArr fun i => open Classical in if finiteVals (Np.nanToNum e) i = 0 then 0 else ((im i : ℤ) : ℝ) := by
        intro im
        funext i
        unfold intPix realArr
        push_cast
        rfl
      simp only [e4]
      cases correlate2dB cfg bd ah (realArr fun i => open Classical in (if finiteVals (Np.nanToNum e) i = 0 then 0 else ((im1 i : ℤ) : ℝ)) ^ 2)
        (realArr fun i => open Classical in 1 / (if finiteVals (Np.nanToNum e) i = 0 then 1 else finiteVals (Np.nanToNum e) i) ^ 2) with
      | error err => rfl
      | ok v =>
        simp only [w t2 im2 h2, e5, Int.cast_pow, Int.cast_ite, Int.cast_zero]

/-! ### C130 for `chi2n_map` -/

/-- C130: `chi2n_map` returns for integer images what it returns for the same images of floats when `zeromean=True` or all the squares of the pixels
are in the range of the dtype, for every kind of error, boundary and option (and it raises the same errors, for images of different shapes too). -/
theorem C130_map_fits {my mx : ℕ} (cfg : FFTConfig) (bd : CorrBoundary) (t1 t2 : IntType) (im1 : Fin ny × Fin nx → ℤ) (im2 : Fin my × Fin mx → ℤ)
    (err : ErrArg ny nx) (zm ra red ah : Bool)
    (h : zm = true ∨ (∀ i, Spec.Holds t1 (im1 i ^ 2)) ∧ ∀ i, Spec.Holds t2 (im2 i ^ 2)) :
    chi2nMapInt cfg bd t1 t2 im1 im2 err zm ra red ah = chi2nMapB cfg bd (intPix im1) (intPix im2) err zm ra red ah := by
  unfold chi2nMapInt chi2nMapB
  by_cases hs : ny = my ∧ nx = mx
  · rw [dif_pos hs, dif_pos hs, chi2nMapIntBody_fits cfg bd t1 t2 im1 _ err zm red ah (h.imp id fun hh => ⟨hh.1, fun i => hh.2 _⟩)]
    rfl
  · rw [dif_neg hs, dif_neg hs]

/-- C130: with no error array, `chi2n_map` of integer images (`zeromean=False`) is the map of the same images of floats plus one constant at all
displacements, namely what the wrapping changes of `Σ im1² + Σ im2²` divided by `err²` (and by the degrees of freedom if `reduced`); for unsigned
dtypes the constant is negative or zero. -/
theorem C130_map_offset (cfg : FFTConfig) (bd : CorrBoundary) (t1 t2 : IntType) (im1 im2 : Fin ny × Fin nx → ℤ) (err : ErrArg ny nx)
    (herr : ∀ e, err ≠ .image e) (red ah : Bool) :
    (∀ e, chi2nMapInt cfg bd t1 t2 im1 im2 err false false red ah = .error e ↔
      chi2nMapB cfg bd (intPix im1) (intPix im2) err false false red ah = .error e) ∧
    (∀ c, chi2nMapB cfg bd (intPix im1) (intPix im2) err false false red ah = .ok (.only c) →
      chi2nMapInt cfg bd t1 t2 im1 im2 err false false red ah = .ok (.only fun i => c i
        + (Spec.excess t1 im1 + Spec.excess t2 im2) / Spec.errSq err / (if red then (ny : ℝ) * nx - 2 else 1))) ∧
    (t1.signed = false → Spec.excess t1 im1 ≤ 0) := by
  have e : chi2nMapInt cfg bd t1 t2 im1 im2 err false false red ah
      = (chi2nMapIntBody cfg bd t1 t2 im1 im2 err false red ah).map fun m => Chi2Ret.only m.chi2 := by
    unfold chi2nMapInt
    rw [dif_pos ⟨rfl, rfl⟩]
    show (chi2nMapIntBody cfg bd t1 t2 im1 im2 err false red ah >>= _) = _
    cases chi2nMapIntBody cfg bd t1 t2 im1 im2 err false red ah <;> rfl
  rw [e, chi2nMapIntBody_noImage cfg bd t1 t2 im1 im2 err herr red ah, chi2nMapB_same]
  refine ⟨?_, ?_, fun ht => ?_⟩
  · cases chi2nMapBodyB cfg bd (intPix im1) (intPix im2) err false red ah <;>
      simp [Except.map, bind, Except.bind, pure, Except.pure]
  · cases chi2nMapBodyB cfg bd (intPix im1) (intPix im2) err false red ah with
    | error e => intro c h; cases h
    | ok m =>
      intro c h
      simp only [bind, Except.bind, pure, Except.pure, Bool.false_eq_true, if_false, Except.ok.injEq, Chi2Ret.only.injEq] at h
      subst h
      rfl
  · refine Finset.sum_nonpos fun i _ => sub_nonpos.2 ?_
    exact_mod_cast wrap_le_sq t1 ht (im1 i)

/-- C130: the terms of `return_all` for integer images without an error array: the cross term is the one of the float images, the other two have the
change of the respective sum of squares added. -/
theorem C130_map_terms (cfg : FFTConfig) (bd : CorrBoundary) (t1 t2 : IntType) (im1 im2 : Fin ny × Fin nx → ℤ) (err : ErrArg ny nx)
    (herr : ∀ e, err ≠ .image e) (red ah : Bool) (m : Chi2Map ny nx)
    (h : chi2nMapB cfg bd (intPix im1) (intPix im2) err false true red ah = .ok (.all m)) :
    ∃ m', chi2nMapInt cfg bd t1 t2 im1 im2 err false true red ah = .ok (.all m') ∧ m'.term2 = m.term2 ∧
      m'.term1 = m.term1 + Spec.excess t2 im2 / Spec.errSq err ∧
      m'.term3 = .scalar (∑ i, ((im1 i : ℤ) : ℝ) ^ 2 / Spec.errSq err + Spec.excess t1 im1 / Spec.errSq err) := by
  rw [chi2nMapB_all] at h
  have e : chi2nMapInt cfg bd t1 t2 im1 im2 err false true red ah
      = (chi2nMapIntBody cfg bd t1 t2 im1 im2 err false red ah).map Chi2Ret.all := by
    unfold chi2nMapInt
    rw [dif_pos ⟨rfl, rfl⟩]
    show (chi2nMapIntBody cfg bd t1 t2 im1 im2 err false red ah >>= _) = _
    cases chi2nMapIntBody cfg bd t1 t2 im1 im2 err false red ah <;> rfl
  rw [e, chi2nMapIntBody_noImage cfg bd t1 t2 im1 im2 err herr red ah]
  cases hb : chi2nMapBodyB cfg bd (intPix im1) (intPix im2) err false red ah with
  | error e => rw [hb] at h; cases h
  | ok m0 =>
    rw [hb] at h
    obtain rfl : m0 = m := by simpa [Except.map] using h
    exact ⟨_, rfl, rfl, rfl, rfl⟩

end

section
variable {ny nx : ℕ} [NeZero ny] [NeZero nx]

/-- the map of integer images with an error array, in closed form -/
theorem chi2nMapIntBody_image (cfg : FFTConfig) (t1 t2 : IntType) (im1 im2 : Fin ny × Fin nx → ℤ) (err : Fin ny × Fin nx → Pix)
    (red ah : Bool) (h : Spec.fits ah ny nx) :
    ∃ m, chi2nMapIntBody cfg .wrap t1 t2 im1 im2 (.image err) false red ah = .ok m ∧
      ∀ i, m.chi2 i = (∑ p, Spec.maskOf (.image err) (fun p => ((t2.wrap (im2 p ^ 2) : ℤ) : ℝ)) p / Spec.errOf (.image err) p ^ 2
        + -2 * Spec.xcorr (Spec.maskOf (.image err) fun p => ((im1 p : ℤ) : ℝ))
            (fun p => Spec.maskOf (.image err) (fun p => ((im2 p : ℤ) : ℝ)) p / Spec.errOf (.image err) p ^ 2) i
        + ∑ p, Spec.maskOf (.image err) (fun p => ((t1.wrap (im1 p ^ 2) : ℤ) : ℝ)) p *
          (1 / Spec.errOf (.image err) (Spec.move (Spec.lag ny i.1) (Spec.lag nx i.2) p) ^ 2)) / (if red then (ny : ℝ) * nx - 2 else 1) := by
  have w : ∀ (t : IntType) (im : Fin ny × Fin nx → ℤ) (i : Fin ny × Fin nx),
      ((t.wrap ((open Classical in if finiteVals (Np.nanToNum err) i = 0 then 0 else im i) ^ 2) : ℤ) : ℝ)
        = Spec.maskOf (.image err) (fun p => ((t.wrap (im p ^ 2) : ℤ) : ℝ)) i := by
    intro t im i
    show _ = if Spec.nan0 err i = 0 then _ else _
    rw [finiteVals_nanToNum]
    by_cases h0 : Spec.nan0 err i = 0
    · rw [if_pos h0, if_pos h0, wrap_zero_sq]; simp
    · rw [if_neg h0, if_neg h0]
  have w1 : ∀ (im : Fin ny × Fin nx → ℤ) (i : Fin ny × Fin nx),
      (((open Classical in if finiteVals (Np.nanToNum err) i = 0 then 0 else im i) : ℤ) : ℝ)
        = Spec.maskOf (.image err) (fun p => ((im p : ℤ) : ℝ)) i := by
    intro im i
    show _ = if Spec.nan0 err i = 0 then _ else _
    rw [finiteVals_nanToNum]
    by_cases h0 : Spec.nan0 err i = 0
    · rw [if_pos h0, if_pos h0]; simp
    · rw [if_neg h0, if_neg h0]
  have e0 : ∀ f : Fin ny × Fin nx → ℤ, intPix f = realArr fun i => ((f i : ℤ) : ℝ) := fun _ => rfl
  unfold chi2nMapIntBody
  rw [if_neg (by decide)]
  simp only [e0, correlate2dB_wrap, correlate2d_eq cfg ah h, bind, Except.bind, pure, Except.pure, finiteVals_realArr, w, w1]
  refine ⟨_, rfl, fun i => ?_⟩
  have e1 : ∀ p, (open Classical in if finiteVals (Np.nanToNum err) p = 0 then 1 else finiteVals (Np.nanToNum err) p) = Spec.errOf (.image err) p :=
    fun p => by
      rw [finiteVals_nanToNum]
      show _ = if Spec.nan0 err p = 0 then _ else _
      congr!
  have e2 : ∀ a b : Fin ny × Fin nx → ℝ, Spec.xcorr a b i = ∑ p, a p * b (Spec.move (Spec.lag ny i.1) (Spec.lag nx i.2) p) := fun _ _ => rfl
  cases red
  · simp only [Bool.false_eq_true, if_false, div_one, Term3.at, e1, e2]
  · simp only [if_true, Term3.at, e1, e2]

/-- C130: with an error array, `chi2n_map` of integer images (`zeromean=False`, periodic boundary) differs from the map of the same images of floats
by an amount that depends on the displacement: the wrapping of `im1²` is weighted by the errors of the pixels it is moved to. -/
theorem C130_map_error_image (cfg : FFTConfig) (t1 t2 : IntType) (im1 im2 : Fin ny × Fin nx → ℤ) (err : Fin ny × Fin nx → Pix)
    (ah : Bool) (h : Spec.fits ah ny nx) :
    ∃ m m', chi2nMapIntBody cfg .wrap t1 t2 im1 im2 (.image err) false false ah = .ok m' ∧
      chi2nMapBody cfg (intPix im1) (intPix im2) (.image err) false false ah = .ok m ∧
      ∀ i, m'.chi2 i = m.chi2 i
        + ∑ p, Spec.maskOf (.image err) (fun p => ((t2.wrap (im2 p ^ 2) : ℤ) : ℝ) - ((im2 p : ℤ) : ℝ) ^ 2) p / Spec.errOf (.image err) p ^ 2
        + ∑ p, Spec.maskOf (.image err) (fun p => ((t1.wrap (im1 p ^ 2) : ℤ) : ℝ) - ((im1 p : ℤ) : ℝ) ^ 2) p
          / Spec.errOf (.image err) (Spec.move (Spec.lag ny i.1) (Spec.lag nx i.2) p) ^ 2 := by
  obtain ⟨m, h1, h2, h3, h4, -, h6⟩ := chi2nMapBody_eq cfg (intPix im1) (intPix im2) (.image err) false false ah h
  obtain ⟨m', k1, k2⟩ := chi2nMapIntBody_image cfg t1 t2 im1 im2 err false ah h
  refine ⟨m, m', k1, h1, fun i => ?_⟩
  rw [k2, h6, h2, h3, h4]
  have hm : ∀ (t : IntType) (im : Fin ny × Fin nx → ℤ) (p : Fin ny × Fin nx),
      Spec.maskOf (.image err) (fun p => ((t.wrap (im p ^ 2) : ℤ) : ℝ)) p = Spec.maskOf (.image err) (prep false (intPix im)) p ^ 2
        + Spec.maskOf (.image err) (fun p => ((t.wrap (im p ^ 2) : ℤ) : ℝ) - ((im p : ℤ) : ℝ) ^ 2) p := by
    intro t im p
    rw [prep_def]
    show (if Spec.nan0 err p = 0 then 0 else _) = (if Spec.nan0 err p = 0 then 0 else ((im p : ℤ) : ℝ)) ^ 2 + (if Spec.nan0 err p = 0 then 0 else _)
    by_cases h0 : Spec.nan0 err p = 0
    · simp only [if_pos h0]; ring
    · simp only [if_neg h0]; ring
  simp only [hm, add_div, Finset.sum_add_distrib, Bool.false_eq_true, if_false, div_one, mul_one_div]
  have hp : ∀ im : Fin ny × Fin nx → ℤ, prep false (intPix im) = fun p => ((im p : ℤ) : ℝ) := by
    intro im; rw [prep_def]; rfl
  simp only [hp]
  ring

/-! ### C130 for `chi2_shift` -/

theorem chi2ShiftInt_rest (cfg : FFTConfig) (bd : CorrBoundary) (st : Stats) (t1 t2 : IntType) (im1 im2 : Fin ny × Fin nx → ℤ)
    (err : ErrArg ny nx) (us : UsFactor) (zm : Bool) (nf : ℝ) (vb re rc : Bool) (mas : ℕ) (mns : ℝ) (ah : Bool) :
    chi2ShiftInt cfg bd st t1 t2 im1 im2 err us zm nf vb re rc mas mns ah
      = (chi2nMapIntBody cfg bd t1 t2 im1 im2 err zm false ah >>= fun m => chi2ShiftRest cfg st m.chi2 us nf vb re rc mas mns) := by
  unfold chi2ShiftInt chi2nMapInt
  rw [dif_pos ⟨rfl, rfl⟩]
  show ((chi2nMapIntBody cfg bd t1 t2 im1 im2 err zm false ah >>= _) >>= _) = _
  cases chi2nMapIntBody cfg bd t1 t2 im1 im2 err zm false ah <;> rfl

/-- C130: `chi2_shift` returns for integer images what it returns for the same images of floats when `zeromean=True` or all the squares of the
pixels are in the range of the dtype, with every kind of error, boundary and option. -/
theorem C130_shift_fits {my mx : ℕ} (cfg : FFTConfig) (bd : CorrBoundary) (st : Stats) (t1 t2 : IntType) (im1 : Fin ny × Fin nx → ℤ)
    (im2 : Fin my × Fin mx → ℤ) (err : ErrArg ny nx) (us : UsFactor) (zm : Bool) (nf : ℝ) (vb re rc : Bool) (mas : ℕ) (mns : ℝ) (ah : Bool)
    (h : zm = true ∨ (∀ i, Spec.Holds t1 (im1 i ^ 2)) ∧ ∀ i, Spec.Holds t2 (im2 i ^ 2)) :
    chi2ShiftInt cfg bd st t1 t2 im1 im2 err us zm nf vb re rc mas mns ah
      = chi2ShiftB cfg bd st (intPix im1) (intPix im2) err us zm nf vb re rc mas mns ah := by
  unfold chi2ShiftInt
  rw [C130_map_fits cfg bd t1 t2 im1 im2 err zm true false ah h]
  rfl

/-- C130: with no error array, `chi2_shift` returns for integer images the shifts and the error bars it returns for the same images of floats,
whatever squares wrap; only the values of the returned map (`return_chi2array`) have a constant added. -/
theorem C130_shift_no_error_array (cfg : FFTConfig) (bd : CorrBoundary) (st : Stats) (t1 t2 : IntType) (im1 im2 : Fin ny × Fin nx → ℤ)
    (err : ErrArg ny nx) (herr : ∀ e, err ≠ .image e) (us : UsFactor) (zm : Bool) (nf : ℝ) (vb re rc : Bool) (mas : ℕ) (mns : ℝ) (ah : Bool)
    (hus : Spec.validUs ny mas us) :
    chi2ShiftInt cfg bd st t1 t2 im1 im2 err us zm nf vb re rc mas mns ah
      = (chi2ShiftB cfg bd st (intPix im1) (intPix im2) err us zm nf vb re rc mas mns ah).map
        (List.map (RetVal.addMap (if zm then 0 else (Spec.excess t1 im1 + Spec.excess t2 im2) / Spec.errSq err))) := by
  rw [chi2ShiftInt_rest, chi2ShiftB_rest]
  cases zm with
  | true =>
    rw [chi2nMapIntBody_fits cfg bd t1 t2 im1 im2 err true false ah (.inl rfl)]
    have : List.map (RetVal.addMap 0) = id := by
      funext l
      rw [show RetVal.addMap 0 = id by funext r; cases r <;> simp [RetVal.addMap]]
      simp
    simp only [if_true, this]
    cases (chi2nMapBodyB cfg bd (intPix im1) (intPix im2) err true false ah >>= fun m =>
      chi2ShiftRest cfg st m.chi2 us nf vb re rc mas mns) <;> rfl
  | false =>
    rw [chi2nMapIntBody_noImage cfg bd t1 t2 im1 im2 err herr false ah]
    cases chi2nMapBodyB cfg bd (intPix im1) (intPix im2) err false false ah with
    | error e => rfl
    | ok m =>
      simp only [Except.map, bind, Except.bind, Bool.false_eq_true, if_false, div_one]
      exact chi2ShiftRest_add cfg st m.chi2 _ us nf vb re rc mas mns hus

/-- C130: in particular, without `return_chi2array` and with no error array, the two calls return the same thing. -/
theorem C130_shift_same (cfg : FFTConfig) (bd : CorrBoundary) (st : Stats) (t1 t2 : IntType) (im1 im2 : Fin ny × Fin nx → ℤ)
    (err : ErrArg ny nx) (herr : ∀ e, err ≠ .image e) (us : UsFactor) (zm : Bool) (nf : ℝ) (vb re : Bool) (mas : ℕ) (mns : ℝ) (ah : Bool)
    (hus : Spec.validUs ny mas us) :
    chi2ShiftInt cfg bd st t1 t2 im1 im2 err us zm nf vb re false mas mns ah
      = chi2ShiftB cfg bd st (intPix im1) (intPix im2) err us zm nf vb re false mas mns ah := by
  rw [C130_shift_no_error_array cfg bd st t1 t2 im1 im2 err herr us zm nf vb re false mas mns ah hus]
  generalize (if zm then 0 else (Spec.excess t1 im1 + Spec.excess t2 im2) / Spec.errSq err) = K
  rw [chi2ShiftB_rest]
  cases chi2nMapBodyB cfg bd (intPix im1) (intPix im2) err zm false ah with
  | error e => rfl
  | ok m =>
    show (chi2ShiftRest cfg st m.chi2 us nf vb re false mas mns).map _ = chi2ShiftRest cfg st m.chi2 us nf vb re false mas mns
    generalize m.chi2 = c
    cases hch : chooseUpsample c us (mAuto st mns nf) mas vb with
    | error e =>
      unfold chi2ShiftRest
      simp only [hch, bind, Except.bind, Except.map]
    | ok r =>
      obtain ⟨h0, h1, h2⟩ := chooseUpsample_ok c us _ mas vb hus r hch
      obtain ⟨u, s1, s2⟩ := r
      have : NeZero s1 := ⟨h1.ne'⟩
      have : NeZero s2 := ⟨h2.ne'⟩
      rw [chi2ShiftRest_finish cfg st c us nf vb re false mas mns u s1 s2 hch h0]
      generalize (fun i : Fin s1 × Fin s2 => (interp2C (fun i => (c i : ℂ))
            (Spec.zoomGrid (((ny : ℝ) - 1) / 2 + ((((Np.argmin c).1 : ℕ) : ℝ) - chi2Centre ny)) u s1 i.1)
            (Spec.zoomGrid (((nx : ℝ) - 1) / 2 + ((((Np.argmin c).2 : ℕ) : ℝ) - chi2Centre nx)) u s2 i.2)).re) = f
      unfold chi2ShiftFinish
      simp only [bind, Except.bind]
      by_cases h : (vb && decide (¬ ∃ i, 0 < f i - f (Np.argmin f))) = true
      · rw [if_pos h]; rfl
      · rw [if_neg h]
        cases chi2mapToErrors st f u 1 2 with
        | error e => rfl
        | ok er => cases re <;> rfl

/-- with `upsample_factor=1` the answer is the position of the (unique) minimum of the map -/
theorem chi2ShiftRest_one (cfg : FFTConfig) (st : Stats) (hst : Spec.validStats st) (c : Fin ny × Fin nx → ℝ) (nf : ℝ) (mas : ℕ) (mns : ℝ)
    (hy : 2 ≤ ny) (q : Fin ny × Fin nx) (hq : ∀ i, i ≠ q → c q < c i) :
    chi2ShiftRest cfg st c (.int 1) nf false false false mas mns
      = .ok [.num ((((nx - 1) / 2 : ℕ) : ℝ) - ((q.2 : ℕ) : ℝ)), .num ((((ny - 1) / 2 : ℕ) : ℝ) - ((q.1 : ℕ) : ℝ))] := by
  have hch : chooseUpsample c (.int 1) (mAuto st mns nf) mas false = .ok (1, ny, nx) := by
    rw [chooseUpsample_eq c (.int 1) _ mas false (.inl rfl) Nat.one_pos]
    simp only [Spec.usUsed, Spec.gridSize]
    rw [if_neg (by omega), Nat.cast_one]
  have hmin : Np.argmin c = q := Np.argmin_eq_of_unique hq
  have hz : ∀ (n : ℕ) [NeZero n] (a i : Fin n), Spec.zoomGrid (((n : ℝ) - 1) / 2 + (((a : ℕ) : ℝ) - chi2Centre n)) 1 n i
      = ((((a : ℕ) : ℤ) + ((i : ℕ) : ℤ) - (Spec.zeroLag n : ℤ) : ℤ) : ℝ) := by
    intro n _ a i
    unfold Spec.zoomGrid
    rw [chi2Centre_eq]; push_cast; ring
  rw [chi2ShiftRest_finish cfg st c (.int 1) nf false false false mas mns 1 ny nx hch one_ne_zero]
  simp only [hz, hmin, interp2C_int, Complex.ofReal_re]
  have zl : ∀ n : ℕ, [NeZero n] → Spec.zeroLag n < n := by
    intro n _
    have := Nat.pos_of_ne_zero (NeZero.ne n)
    unfold Spec.zeroLag; omega
  set f : Fin ny × Fin nx → ℝ := fun i => c (Spec.wrap ny (((q.1 : ℕ) : ℤ) + ((i.1 : ℕ) : ℤ) - (Spec.zeroLag ny : ℤ)),
      Spec.wrap nx (((q.2 : ℕ) : ℤ) + ((i.2 : ℕ) : ℤ) - (Spec.zeroLag nx : ℤ))) with hf
  have hcm' : Np.argmin f = (⟨Spec.zeroLag ny, zl ny⟩, ⟨Spec.zeroLag nx, zl nx⟩) := by
    apply Np.argmin_eq_of_unique
    intro j hj
    have e0 : f (⟨Spec.zeroLag ny, zl ny⟩, ⟨Spec.zeroLag nx, zl nx⟩) = c q := by
      simp only [hf, add_sub_cancel_right, Spec.wrap_val]
    rw [e0]
    apply hq
    intro hw
    apply hj
    have back : ∀ (n : ℕ) [NeZero n] (a i : Fin n), Spec.wrap n (((a : ℕ) : ℤ) + ((i : ℕ) : ℤ) - (Spec.zeroLag n : ℤ)) = a →
        i = ⟨Spec.zeroLag n, zl n⟩ := by
      intro n _ a i hwr
      rw [Spec.wrap_eq_iff] at hwr
      have h2 := (hwr.sub (Int.ModEq.refl ((a : ℕ) : ℤ))).add (Int.ModEq.refl (Spec.zeroLag n : ℤ))
      have e1 : ((a : ℕ) : ℤ) + ((i : ℕ) : ℤ) - (Spec.zeroLag n : ℤ) - ((a : ℕ) : ℤ) + (Spec.zeroLag n : ℤ) = ((i : ℕ) : ℤ) := by ring
      have e2 : ((a : ℕ) : ℤ) - ((a : ℕ) : ℤ) + (Spec.zeroLag n : ℤ) = (((⟨Spec.zeroLag n, zl n⟩ : Fin n) : ℕ) : ℤ) := by simp
      rw [e1, e2] at h2
      exact Fin.eq_of_modEq h2
    exact Prod.ext (back ny q.1 j.1 (congrArg Prod.fst hw)) (back nx q.2 j.2 (congrArg Prod.snd hw))
  obtain ⟨er, her⟩ := chi2mapToErrors_ok st f 1 1 2 (sigma_pos st hst)
  rw [chi2ShiftFinish_eq st f _ _ 1 _ _ false false false (.inl rfl) er her, hcm']
  simp only [Bool.false_eq_true, if_false, List.append_nil, chi2Centre_eq]
  have e : ∀ (n : ℕ) [NeZero n] (a : Fin n),
      -(((((a : ℕ) : ℤ) + (((⟨Spec.zeroLag n, zl n⟩ : Fin n) : ℕ) : ℤ) - (Spec.zeroLag n : ℤ) : ℤ) : ℝ) - ((Spec.zeroLag n : ℕ) : ℝ))
      = (((n - 1) / 2 : ℕ) : ℝ) - ((a : ℕ) : ℝ) := by
    intro n _ a
    have : (((n - 1) / 2 : ℕ) : ℝ) = ((Spec.zeroLag n : ℕ) : ℝ) := rfl
    rw [this]; push_cast; ring
  rw [e, e]

/-! ### what wraps -/

/-- `uint8`, the dtype of 8-bit camera frames -/
def Spec.uint8 : IntType := ⟨8, false⟩

/-- C130: chi-squared values of `uint8` images can be negative: a constant image of value 16 compared with itself (no error given) gives
`-512` per pixel at every displacement, where it should give 0. -/
theorem C130_uint8_negative (cfg : FFTConfig) (ah : Bool) (h : Spec.fits ah ny nx) :
    chi2nMapInt cfg .wrap Spec.uint8 Spec.uint8 (fun _ : Fin ny × Fin nx => 16) (fun _ : Fin ny × Fin nx => 16) .none false false false ah
      = .ok (.only fun _ => -512 * ((ny : ℝ) * nx)) ∧
    chi2nMapB cfg .wrap (intPix fun _ : Fin ny × Fin nx => 16) (intPix fun _ : Fin ny × Fin nx => 16) .none false false false ah
      = .ok (.only fun _ => 0) := by
  obtain ⟨m, h1, h2⟩ := chi2nMapBody_chi2 cfg (intPix fun _ : Fin ny × Fin nx => 16) (intPix fun _ : Fin ny × Fin nx => 16) .none false ah h
  have hz : m.chi2 = fun _ => 0 := by
    funext i
    rw [h2]
    unfold Spec.chi2
    refine Finset.sum_eq_zero fun p _ => ?_
    rw [prep_def]
    simp [Spec.maskOf, Spec.nan0, intPix]
  have hb : chi2nMapB cfg .wrap (intPix fun _ : Fin ny × Fin nx => 16) (intPix fun _ : Fin ny × Fin nx => 16) .none false false false ah
      = .ok (.only fun _ => 0) := by
    rw [chi2nMapB_same]
    change (chi2nMapBody cfg _ _ _ _ _ _ >>= _) = _
    rw [h1, ← hz]
    rfl
  refine ⟨?_, hb⟩
  rw [(C130_map_offset cfg .wrap Spec.uint8 Spec.uint8 _ _ .none (fun e he => by cases he) false ah).2.1 _ hb]
  have hx : Spec.excess Spec.uint8 (fun _ : Fin ny × Fin nx => 16) = -256 * ((ny : ℝ) * nx) := by
    unfold Spec.excess
    have : Spec.uint8.wrap (16 ^ 2) = 0 := by decide
    simp only [this, Finset.sum_const, Finset.card_univ, Fintype.card_prod, Fintype.card_fin, nsmul_eq_mul]
    push_cast; ring
  rw [hx]
  congr 2
  funext _
  simp only [Spec.errSq, Bool.false_eq_true, if_false]
  ring

end

/-- a column of two 8-bit pixels -/
def Spec.pairImage : Fin 2 × Fin 1 → ℤ := fun p => if p.1 = 0 then 16 else 15

/-- its error image -/
noncomputable def Spec.pairErr : Fin 2 × Fin 1 → Pix := fun p => some (if p.1 = 0 then 2 else 1)

/-- C130: with an error array the answer can be wrong.  For the `uint8` image `[[16], [15]]` compared with itself with the error image `[[2], [1]]`,
`chi2_shift(im, im, err, upsample_factor=1)` returns `[0, -1]`: a shift of one pixel between identical images; for the same image of floats
it returns `[0, 0]`. -/
theorem C130_uint8_wrong_shift (cfg : FFTConfig) (st : Stats) (hst : Spec.validStats st) (nf : ℝ) (mas : ℕ) (mns : ℝ) (ah : Bool) :
    chi2ShiftInt cfg .wrap st Spec.uint8 Spec.uint8 Spec.pairImage Spec.pairImage (.image Spec.pairErr) (.int 1) false nf false false false
      mas mns ah = .ok [.num 0, .num (-1)] ∧
    chi2ShiftB cfg .wrap st (intPix Spec.pairImage) (intPix Spec.pairImage) (.image Spec.pairErr) (.int 1) false nf false false false
      mas mns ah = .ok [.num 0, .num 0] := by
  have hf : Spec.fits ah 2 1 := Or.inr (by norm_num)
  obtain ⟨m, m', k1, k2, k3⟩ := C130_map_error_image cfg Spec.uint8 Spec.uint8 Spec.pairImage Spec.pairImage Spec.pairErr ah hf
  obtain ⟨m0, j1, j2⟩ := chi2nMapBody_chi2 cfg (intPix Spec.pairImage) (intPix Spec.pairImage) (.image Spec.pairErr) false ah hf
  obtain rfl : m = m0 := by rw [k2] at j1; exact Except.ok.inj j1
  have w0 : Spec.uint8.wrap 256 = 0 := by decide
  have w1 : Spec.uint8.wrap 225 = 225 := by decide
  have mv0 : ∀ p : Fin 2 × Fin 1, Spec.move (Spec.lag 2 0) (Spec.lag 1 0) p = p := by decide
  have mv1 : ∀ p : Fin 2 × Fin 1, Spec.move (Spec.lag 2 1) (Spec.lag 1 0) p = (p.1 + 1, p.2) := by decide
  have r0 : m.chi2 (0, 0) = 0 := by
    rw [j2, prep_def]
    simp only [mv0, Spec.chi2, Fintype.sum_prod_type, Fin.sum_univ_two, Finset.univ_unique, Finset.sum_singleton]
    simp
  have r1 : m.chi2 (1, 0) = 5 / 4 := by
    rw [j2, prep_def]
    simp only [mv1, Spec.chi2, Fintype.sum_prod_type, Fin.sum_univ_two, Finset.univ_unique, Finset.sum_singleton]
    simp [Spec.maskOf, Spec.nan0, intPix, Spec.pairImage, Spec.pairErr, Spec.errOf]
    norm_num
  have c0 : m'.chi2 (0, 0) = -128 := by
    rw [k3, r0]
    simp only [mv0, Fintype.sum_prod_type, Fin.sum_univ_two, Finset.univ_unique, Finset.sum_singleton]
    simp [Spec.maskOf, Spec.nan0, Spec.pairImage, Spec.pairErr, Spec.errOf, w0, w1]
    norm_num
  have c1 : m'.chi2 (1, 0) = -318.75 := by
    rw [k3, r1]
    simp only [mv1, Fintype.sum_prod_type, Fin.sum_univ_two, Finset.univ_unique, Finset.sum_singleton]
    simp [Spec.maskOf, Spec.nan0, Spec.pairImage, Spec.pairErr, Spec.errOf, w0, w1]
    norm_num
  have cases2 : ∀ i : Fin 2 × Fin 1, i = (0, 0) ∨ i = (1, 0) := by decide
  constructor
  · rw [chi2ShiftInt_rest, k1]
    show chi2ShiftRest cfg st m'.chi2 (.int 1) nf false false false mas mns = _
    rw [chi2ShiftRest_one cfg st hst m'.chi2 nf mas mns le_rfl (1, 0)]
    · norm_num
    · intro i hi
      rcases cases2 i with rfl | rfl
      · rw [c0, c1]; norm_num
      · exact absurd rfl hi
  · rw [chi2ShiftB_rest]
    change (chi2nMapBody cfg _ _ _ _ _ _ >>= _) = _
    rw [k2]
    show chi2ShiftRest cfg st m.chi2 (.int 1) nf false false false mas mns = _
    rw [chi2ShiftRest_one cfg st hst m.chi2 nf mas mns le_rfl (0, 0)]
    · norm_num
    · intro i hi
      rcases cases2 i with rfl | rfl
      · exact absurd rfl hi
      · rw [r0, r1]; norm_num

/-! ### C130 for `iterative_zoom` -/

section
variable {ny nx : ℕ} [NeZero ny] [NeZero nx]

/-- `e` is the value of the extremum that is searched for -/
def Spec.IsExtreme (mm : MinMax) (im : Fin ny × Fin nx → ℤ) (e : ℤ) : Prop :=
  (∃ p, im p = e) ∧ match mm with
    | .min => ∀ i, e ≤ im i
    | .max => ∀ i, im i ≤ e

theorem intExtreme_spec (mm : MinMax) (im : Fin ny × Fin nx → ℤ) : Spec.IsExtreme mm im (intExtreme mm im) := by
  unfold intExtreme
  cases mm with
  | min => exact ⟨⟨_, rfl⟩, fun i => Int.cast_le.1 ((Np.argmin_spec fun i => ((im i : ℤ) : ℝ)).1 i)⟩
  | max => exact ⟨⟨_, rfl⟩, fun i => Int.cast_le.1 ((Np.argmax_spec fun i => ((im i : ℤ) : ℝ)).1 i)⟩

omit [NeZero ny] [NeZero nx] in
theorem isExtreme_unique {mm : MinMax} {im : Fin ny × Fin nx → ℤ} {e e' : ℤ} (h : Spec.IsExtreme mm im e) (h' : Spec.IsExtreme mm im e') :
    e = e' := by
  obtain ⟨⟨p, rfl⟩, hp⟩ := h
  obtain ⟨⟨q, rfl⟩, hq⟩ := h'
  cases mm
  · exact le_antisymm (hp q) (hq p)
  · exact le_antisymm (hq p) (hp q)

/-- C130: `iterative_zoom` gives for an integer image what it gives for the same image of floats when all the differences from the extremum are in the
range of the dtype. -/
theorem C130_iterative_zoom_fits (hasFftw : Bool) (fuel : ℕ) (t : IntType) (im : Fin ny × Fin nx → ℤ) (mindiff : ℝ) (sh : ℕ × ℕ) (step : ℝ)
    (mm : MinMax) (rz rc : Bool) (e : ℤ) (he : Spec.IsExtreme mm im e)
    (h : ∀ i, Spec.Holds t (im i - e) ∧ Spec.Holds t |im i - e|) :
    iterativeZoomInt hasFftw fuel t im mindiff sh step mm rz rc = iterativeZoom hasFftw fuel (intPix im) mindiff sh step mm rz rc := by
  obtain rfl := isExtreme_unique he (intExtreme_spec mm im)
  have hd : minDeltaInt t mm im = (⟨ny, nx, inferInstance, inferInstance, finiteVals (intPix im),
      fun i => ((i.1 : ℕ) : ℝ), fun i => ((i.2 : ℕ) : ℝ)⟩ : ZoomView).minDelta mm := by
    have hm : ∀ i, t.wrap |t.wrap (im i - intExtreme mm im)| = |im i - intExtreme mm im| := by
      intro i
      rw [wrap_of_holds t _ (h i).1, wrap_of_holds t _ (h i).2]
    have hv : ∀ i, (⟨ny, nx, inferInstance, inferInstance, finiteVals (intPix im),
      fun i => ((i.1 : ℕ) : ℝ), fun i => ((i.2 : ℕ) : ℝ)⟩ : ZoomView).delta mm i = ((im i - intExtreme mm im : ℤ) : ℝ) := by
      intro i
      unfold ZoomView.delta ZoomView.pos intExtreme
      cases mm <;> (push_cast; rfl)
    unfold minDeltaInt ZoomView.minDelta
    simp only [hm, hv]
    have hc : ∀ i, |((im i - intExtreme mm im : ℤ) : ℝ)| = ((|im i - intExtreme mm im| : ℤ) : ℝ) := by
      intro i; push_cast; rfl
    simp only [hc, Int.cast_pos, gt_iff_lt]
  unfold iterativeZoomInt iterativeZoom
  rw [if_neg (by rintro ⟨i, hi⟩; cases hi)]
  cases fuel with
  | zero => rfl
  | succ fuel =>
    simp only [zoomLoop, hd]
    rfl

/-- C130: in particular for the minimum of an unsigned image, and for any image whose largest difference is less than half the range of its signed
dtype. -/
theorem C130_iterative_zoom_same (hasFftw : Bool) (fuel : ℕ) (t : IntType) (im : Fin ny × Fin nx → ℤ) (mindiff : ℝ) (sh : ℕ × ℕ) (step : ℝ)
    (mm : MinMax) (rz rc : Bool)
    (h : (t.signed = false ∧ mm = .min ∧ ∀ i, Spec.Holds t (im i)) ∨ (t.signed = true ∧ ∀ i j, 2 * (im i - im j) < 2 ^ t.bits)) :
    iterativeZoomInt hasFftw fuel t im mindiff sh step mm rz rc = iterativeZoom hasFftw fuel (intPix im) mindiff sh step mm rz rc := by
  refine C130_iterative_zoom_fits hasFftw fuel t im mindiff sh step mm rz rc _ (intExtreme_spec mm im) fun i => ?_
  have hx := intExtreme_spec mm im
  obtain ⟨⟨p, hp⟩, hx⟩ := hx
  rw [← hp] at hx ⊢
  rcases h with ⟨hs, rfl, hh⟩ | ⟨hs, hh⟩
  · have h0 := hx i
    have h1 := hh i
    have h2 := hh p
    unfold Spec.Holds at h1 h2 ⊢
    rw [if_neg (by simp [hs])] at h1 h2
    rw [if_neg (by simp [hs]), if_neg (by simp [hs])]
    rw [abs_of_nonneg (by linarith)]
    refine ⟨⟨?_, ?_⟩, ?_, ?_⟩ <;> linarith [h1.2, h2.1]
  · have h1 := hh i p
    have h2 := hh p i
    unfold Spec.Holds
    rw [if_pos hs, if_pos hs]
    refine ⟨⟨by linarith, h1⟩, ?_, ?_⟩
    · have := abs_nonneg (im i - im p)
      have h3 : (0 : ℤ) < 2 ^ t.bits := by positivity
      linarith
    · rcases abs_cases (im i - im p) with ⟨h, -⟩ | ⟨h, -⟩ <;> rw [h] <;> linarith

/-- C130: the maximum of an unsigned image: the first test of the loop takes `2^bits - (max - v)` for the difference of a pixel `v` from the maximum.
If a pixel is so far below the maximum that this is at most `mindiff`, `iterative_zoom(…, minmax=np.max)` does not zoom at all: it raises
UnboundLocalError when asked for the centre, and otherwise returns zero offsets. -/
theorem C130_iterative_zoom_max_unsigned (hasFftw : Bool) (fuel : ℕ) (t : IntType) (ht : t.signed = false) (im : Fin ny × Fin nx → ℤ)
    (hr : ∀ i, Spec.Holds t (im i)) (mindiff : ℝ) (sh : ℕ × ℕ) (step : ℝ) (rz : Bool) (p i : Fin ny × Fin nx) (hp : ∀ j, im j ≤ im p)
    (hi : im i < im p) (hd : (((2 ^ t.bits - (im p - im i) : ℤ)) : ℝ) ≤ mindiff) :
    iterativeZoomInt hasFftw (fuel + 1) t im mindiff sh step .max rz true = some (.error .unboundLocalError) ∧
    iterativeZoomInt hasFftw (fuel + 1) t im mindiff sh step .max false false = some (.ok (.plain [0, 0])) := by
  have hx : intExtreme .max im = im p := isExtreme_unique (intExtreme_spec .max im) ⟨⟨p, rfl⟩, hp⟩
  have hlt : ∀ j, 0 ≤ im j ∧ im j < 2 ^ t.bits := by
    intro j
    have := hr j
    unfold Spec.Holds at this
    rwa [if_neg (by simp [ht])] at this
  have hw : t.wrap |t.wrap (im i - im p)| = 2 ^ t.bits - (im p - im i) := by
    have h1 := hlt i
    have h2 := hlt p
    have e : t.wrap (im i - im p) = 2 ^ t.bits - (im p - im i) := by
      unfold IntType.wrap
      rw [if_neg (by simp [ht]), ← Int.add_emod_right, Int.emod_eq_of_lt (by linarith) (by linarith)]
      ring
    rw [e, abs_of_nonneg (by linarith)]
    apply wrap_of_holds
    unfold Spec.Holds
    rw [if_neg (by simp [ht])]
    constructor <;> linarith
  obtain ⟨d, hmd, hle⟩ : ∃ d, minDeltaInt t .max im = some d ∧ d ≤ mindiff := by
    unfold minDeltaInt
    have hsel : i ∈ univ.filter fun j => t.wrap |t.wrap (im j - intExtreme .max im)| > 0 := by
      simp only [Finset.mem_filter, Finset.mem_univ, true_and, hx, hw, gt_iff_lt]
      linarith [(hlt p).2, (hlt i).1]
    simp only []
    rw [dif_pos ⟨i, hsel⟩]
    refine ⟨_, rfl, le_trans (Finset.inf'_le _ hsel) ?_⟩
    rw [hx, hw]; exact hd
  unfold iterativeZoomInt
  simp only [hmd]
  rw [if_neg (not_lt.2 hle)]
  constructor <;> cases rz <;> rfl

end

/-- a black and a white pixel -/
def Spec.blackWhite : Fin 1 × Fin 2 → ℤ := fun p => if p.2 = 0 then 0 else 255

/-- C130: with the defaults (`mindiff=1`) this happens to the `uint8` image `[[0, 255]]`, on which the same call for floats returns a centre. -/
theorem C130_iterative_zoom_uint8_example (hasFftw : Bool) (fuel : ℕ) :
    iterativeZoomInt hasFftw (fuel + 1) Spec.uint8 Spec.blackWhite 1 (10, 10) 2 .max false true = some (.error .unboundLocalError) ∧
    ∃ n res, iterativeZoom hasFftw n (intPix Spec.blackWhite) 1 (10, 10) 2 .max false true = some (.ok res) := by
  have cases2 : ∀ i : Fin 1 × Fin 2, i = (0, 0) ∨ i = (0, 1) := by decide
  have v0 : Spec.blackWhite (0, 0) = 0 := by decide
  have v1 : Spec.blackWhite (0, 1) = 255 := by decide
  have le1 : ∀ j, Spec.blackWhite j ≤ Spec.blackWhite (0, 1) := by decide
  constructor
  · refine (C130_iterative_zoom_max_unsigned hasFftw fuel Spec.uint8 rfl _ ?_ 1 (10, 10) 2 false (0, 1) (0, 0) le1 (by decide) ?_).1
    · intro i
      unfold Spec.Holds
      rw [if_neg (by decide)]
      revert i
      decide
    · rw [v0, v1]; unfold Spec.uint8; norm_num
  · have : NeZero 10 := ⟨by norm_num⟩
    refine C40_iterative_zoom_returns hasFftw (fun p : Fin 1 × Fin 2 => ((Spec.blackWhite p : ℤ) : ℝ)) ⟨(0, 0), (0, 1), by rw [v0, v1]; norm_num⟩ 1
      one_pos 10 10 2 (by norm_num) .max false true fun _ => ⟨(0, 1), ⟨fun j => ?_, fun j hj => ?_⟩, fun i hi => ?_⟩
    · exact Int.cast_le.2 (le1 j)
    · rcases cases2 j with rfl | rfl
      · have h2 : Spec.blackWhite (0, 1) ≤ Spec.blackWhite (0, 0) := Int.cast_le.1 (hj (0, 1))
        rw [v0, v1] at h2
        norm_num at h2
      · exact le_rfl
    · rcases cases2 i with rfl | rfl
      · rw [v0, v1]; norm_num
      · exact absurd rfl hi

end ImgReg
