import Verif.Model.Chi2
import Verif.Lemmas.Correlate
import Mathlib.Algebra.BigOperators.Field

/-! # Lemmas about correlation and chi-squared maps -/

open Complex Finset
open scoped ComplexConjugate

namespace ImgReg

/-- the size limit of the FFT convolution: below 1 GB of complex128, or `allow_huge` -/
def Spec.fits (allowHuge : Bool) (ny nx : ℕ) : Prop :=
  allowHuge = true ∨ 16 * (ny * nx) ≤ 10 ^ 9

section
variable {ny nx : ℕ} [NeZero ny] [NeZero nx]

theorem Spec.move_eq (dy dx : ℤ) (p : Fin ny × Fin nx) :
    Spec.move dy dx p = p + (Spec.wrap ny dy, Spec.wrap nx dx) := by
  unfold Spec.move
  rw [Spec.wrap_add, Spec.wrap_add]; rfl

theorem Spec.move_bijective (dy dx : ℤ) :
    Function.Bijective (Spec.move dy dx : Fin ny × Fin nx → Fin ny × Fin nx) := by
  have : (Spec.move dy dx : Fin ny × Fin nx → Fin ny × Fin nx)
      = fun p => p + (Spec.wrap ny dy, Spec.wrap nx dx) := by funext p; exact Spec.move_eq dy dx p
  rw [this]
  exact (Equiv.addRight _).bijective

theorem Spec.sum_move (dy dx : ℤ) (f : Fin ny × Fin nx → ℝ) :
    ∑ p, f (Spec.move dy dx p) = ∑ p, f p :=
  Fintype.sum_bijective _ (Spec.move_bijective dy dx) _ _ fun _ => rfl

/-- `correlate2d` in closed form -/
noncomputable def Spec.xcorr (a b : Fin ny × Fin nx → ℝ) (i : Fin ny × Fin nx) : ℝ :=
  ∑ p, a p * b (Spec.move ((Spec.zeroLag ny : ℤ) - ((i.1 : ℕ) : ℤ))
    ((Spec.zeroLag nx : ℤ) - ((i.2 : ℕ) : ℤ)) p)

theorem torusCorr_same (a b : Fin ny × Fin nx → ℝ) : Spec.torusCorr ny nx a b = Spec.xcorr a b := by
  funext i
  unfold Spec.torusCorr Spec.xcorr
  refine Finset.sum_congr rfl fun p _ => ?_
  have hw : ∀ q : Fin ny × Fin nx,
      ((((q.1 : ℕ) : ℤ) ≡ ((p.1 : ℕ) : ℤ) + ((Spec.zeroLag ny : ℤ) - ((i.1 : ℕ) : ℤ)) [ZMOD ny]) ∧
      (((q.2 : ℕ) : ℤ) ≡ ((p.2 : ℕ) : ℤ) + ((Spec.zeroLag nx : ℤ) - ((i.2 : ℕ) : ℤ)) [ZMOD nx])) ↔
      q = Spec.move ((Spec.zeroLag ny : ℤ) - ((i.1 : ℕ) : ℤ)) ((Spec.zeroLag nx : ℤ) - ((i.2 : ℕ) : ℤ)) p := by
    intro q
    unfold Spec.move
    rw [Prod.ext_iff]
    simp only [eq_comm (a := q.1), eq_comm (a := q.2), Spec.wrap_eq_iff]
    exact ⟨fun h => ⟨h.1.symm, h.2.symm⟩, fun h => ⟨h.1.symm, h.2.symm⟩⟩
  simp only [hw, Finset.sum_ite_eq', Finset.mem_univ, if_true]

omit [NeZero ny] [NeZero nx] in
theorem correlate2dB_wrap (cfg : FFTConfig) (ah : Bool) (a b : Fin ny × Fin nx → Pix) :
    correlate2dB cfg .wrap ah a b = correlate2d cfg ah a b := rfl

theorem correlate2d_nan0 (cfg : FFTConfig) (ah : Bool) (h : Spec.fits ah ny nx)
    (a b : Fin ny × Fin nx → Pix) :
    correlate2d cfg ah a b = .ok (realArr (Spec.xcorr (Spec.nan0 a) (Spec.nan0 b))) := by
  unfold correlate2d
  rw [correlate2dB_eq cfg .wrap ah a b ny nx (by simp [CorrBoundary.newShape]) h le_rfl le_rfl le_rfl le_rfl
    ⟨NeZero.ne ny, NeZero.ne nx⟩, torusCorr_same]

theorem correlate2d_eq (cfg : FFTConfig) (ah : Bool) (h : Spec.fits ah ny nx)
    (a b : Fin ny × Fin nx → ℝ) :
    correlate2d cfg ah (realArr a) (realArr b) = .ok (realArr (Spec.xcorr a b)) :=
  correlate2d_nan0 cfg ah h _ _

omit [NeZero ny] [NeZero nx] in
theorem correlate2d_huge (cfg : FFTConfig) (ah : Bool) (h : ¬ Spec.fits ah ny nx)
    (a b : Fin ny × Fin nx → Pix) :
    correlate2d cfg ah a b = .error .valueError :=
  correlate2dB_huge cfg .wrap ah a b ny nx (by simp [CorrBoundary.newShape]) h

/-! ### the chi-squared map -/

/-- the displacement a map pixel stands for -/
def Spec.lag (n : ℕ) (i : Fin n) : ℤ := (Spec.zeroLag n : ℤ) - ((i : ℕ) : ℤ)

theorem Spec.lag_wrap (n : ℕ) [NeZero n] (d : ℤ) :
    Spec.lag n (Spec.wrap n (((n - 1) / 2 : ℕ) - d)) ≡ d [ZMOD n] := by
  have h := (Int.ModEq.refl (Spec.zeroLag n : ℤ)).sub (Spec.wrap_modEq n (((n - 1) / 2 : ℕ) - d))
  refine h.trans ?_
  rw [show (Spec.zeroLag n : ℤ) - ((((n - 1) / 2 : ℕ) : ℤ) - d) = d by unfold Spec.zeroLag; ring]

theorem Spec.move_congr {a b c d : ℤ} (h1 : a ≡ b [ZMOD ny]) (h2 : c ≡ d [ZMOD nx])
    (p : Fin ny × Fin nx) : Spec.move a c p = Spec.move b d p := by
  unfold Spec.move
  rw [Spec.wrap_congr ny (h1.add_left _), Spec.wrap_congr nx (h2.add_left _)]

/-- the map pixel that stands for displacement `(dy, dx)` -/
theorem Spec.chi2_wrap (a b σ : Fin ny × Fin nx → ℝ) (dy dx : ℤ) :
    Spec.chi2 a b σ (Spec.lag ny (Spec.wrap ny (((ny - 1) / 2 : ℕ) - dy)))
      (Spec.lag nx (Spec.wrap nx (((nx - 1) / 2 : ℕ) - dx))) = Spec.chi2 a b σ dy dx := by
  unfold Spec.chi2
  simp only [Spec.move_congr (Spec.lag_wrap ny dy) (Spec.lag_wrap nx dx)]

theorem Spec.roll2_move {α : Type} (dy dx : ℤ) (x : Fin ny × Fin nx → α) (p : Fin ny × Fin nx) :
    Spec.roll2 dy dx x (Spec.move dy dx p) = x p := by
  unfold Spec.roll2 Spec.move
  congr 1
  have : ∀ (n : ℕ) [NeZero n] (i : Fin n) (d : ℤ),
      Spec.wrap n (((Spec.wrap n (((i : ℕ) : ℤ) + d) : ℕ) : ℤ) - d) = i := by
    intro n _ i d
    rw [Spec.wrap_eq_iff]
    have := (Spec.wrap_modEq n (((i : ℕ) : ℤ) + d)).sub (Int.ModEq.refl d)
    rwa [add_sub_cancel_right] at this
  rw [this, this]

theorem chi2_expand (a b σ : Fin ny × Fin nx → ℝ) (dy dx : ℤ) :
    Spec.chi2 a b σ dy dx = ∑ p, b p ^ 2 / σ p ^ 2
      + -2 * (∑ p, a p * (b (Spec.move dy dx p) / σ (Spec.move dy dx p) ^ 2))
      + ∑ p, a p ^ 2 * (1 / σ (Spec.move dy dx p) ^ 2) := by
  unfold Spec.chi2
  rw [← Spec.sum_move dy dx (fun p => b p ^ 2 / σ p ^ 2), Finset.mul_sum, ← Finset.sum_add_distrib,
    ← Finset.sum_add_distrib]
  refine Finset.sum_congr rfl fun p _ => ?_
  ring

@[simp] theorem finiteVals_realArr {ι : Type} (x : ι → ℝ) : finiteVals (realArr x) = x := rfl
theorem finiteVals_nanToNum {ι : Type} (x : ι → Pix) :
    finiteVals (Np.nanToNum x) = Spec.nan0 x := rfl

/-- the mean of the pixels that are not NaN -/
noncomputable def Spec.finiteMean (im : Fin ny × Fin nx → Pix) : ℝ :=
  (∑ p, (im p).getD 0) / ((univ.filter fun p => (im p).isSome).card : ℝ)

/-- images after the optional mean subtraction and NaN replacement: NaN becomes 0, a value `v` becomes `v`
minus the mean of all values (with `zeromean`) or stays `v` -/
noncomputable def prep (zm : Bool) (im : Fin ny × Fin nx → Pix) : Fin ny × Fin nx → ℝ := fun p =>
  match im p with
  | none => 0
  | some v => if zm then v - Spec.finiteMean im else v

omit [NeZero ny] [NeZero nx] in
theorem prep_def (zm : Bool) (im : Fin ny × Fin nx → Pix) :
    prep zm im = Spec.nan0 (if zm then subPix im (nanMean im) else im) := by
  funext p
  unfold prep
  cases hp : im p with
  | none => cases zm <;> simp [Spec.nan0, subPix, hp]
  | some v =>
    cases zm with
    | false => simp [Spec.nan0, hp]
    | true =>
      have hne : (univ.filter fun i => (im i).isSome).card ≠ 0 := by
        rw [Finset.card_ne_zero]
        exact ⟨p, by simp [hp]⟩
      have hs : ∑ i ∈ univ.filter (fun i => (im i).isSome), (im i).getD 0 = ∑ i, (im i).getD 0 := by
        rw [Finset.sum_filter]
        refine Finset.sum_congr rfl fun i _ => ?_
        cases im i <;> simp
      simp [Spec.nan0, subPix, nanMean, hne, hp, hs, Spec.finiteMean]

theorem nan0_roll2 (dy dx : ℤ) (im : Fin ny × Fin nx → Pix) :
    Spec.nan0 (Spec.roll2 dy dx im) = Spec.roll2 dy dx (Spec.nan0 im) := rfl

theorem prep_roll2 (zm : Bool) (dy dx : ℤ) (im : Fin ny × Fin nx → Pix) :
    prep zm (Spec.roll2 dy dx im) = Spec.roll2 dy dx (prep zm im) := by
  rw [prep_def, prep_def]
  cases zm with
  | false => rfl
  | true =>
    simp only [if_true]
    have hbij : Function.Bijective (fun p : Fin ny × Fin nx =>
        (Spec.wrap ny (((p.1 : ℕ) : ℤ) - dy), Spec.wrap nx (((p.2 : ℕ) : ℤ) - dx))) := by
      have := Spec.move_bijective (ny := ny) (nx := nx) (-dy) (-dx)
      have e : (fun p : Fin ny × Fin nx =>
        (Spec.wrap ny (((p.1 : ℕ) : ℤ) - dy), Spec.wrap nx (((p.2 : ℕ) : ℤ) - dx)))
          = Spec.move (-dy) (-dx) := by
        funext p; unfold Spec.move; simp only [sub_eq_add_neg]
      rw [e]; exact this
    have hm : nanMean (Spec.roll2 dy dx im) = nanMean im := by
      have hcard : (univ.filter fun i => (Spec.roll2 dy dx im i).isSome).card
          = (univ.filter fun i => (im i).isSome).card := by
        rw [Finset.card_filter, Finset.card_filter]
        exact Fintype.sum_bijective _ hbij _ _ fun p => rfl
      have hsum : ∑ i ∈ univ.filter fun i => (Spec.roll2 dy dx im i).isSome, (Spec.roll2 dy dx im i).getD 0
          = ∑ i ∈ univ.filter fun i => (im i).isSome, (im i).getD 0 := by
        rw [Finset.sum_filter, Finset.sum_filter]
        exact Fintype.sum_bijective _ hbij _ _ fun p => rfl
      unfold nanMean
      rw [hcard, hsum]
    rw [hm]
    rfl

/-- the errors that count: the scalar, or the image with 0/NaN replaced by 1 -/
noncomputable def Spec.errOf : ErrArg ny nx → Fin ny × Fin nx → ℝ
  | .none => fun _ => 1
  | .scalar s => fun _ => s
  | .image e => fun i => if Spec.nan0 e i = 0 then 1 else Spec.nan0 e i

/-- the pixels that count: all, or those with a nonzero error -/
noncomputable def Spec.maskOf (err : ErrArg ny nx) (im : Fin ny × Fin nx → ℝ) : Fin ny × Fin nx → ℝ :=
  match err with
  | .image e => fun i => if Spec.nan0 e i = 0 then 0 else im i
  | _ => im

theorem chi2nMapBody_eq (cfg : FFTConfig) (im1 im2 : Fin ny × Fin nx → Pix) (err : ErrArg ny nx)
    (zm red ah : Bool) (h : Spec.fits ah ny nx) :
    ∃ m, chi2nMapBody cfg im1 im2 err zm red ah = .ok m ∧
      m.term1 = ∑ i, Spec.maskOf err (prep zm im2) i ^ 2 / Spec.errOf err i ^ 2 ∧
      (m.term2 = fun i => -2 * Spec.xcorr (Spec.maskOf err (prep zm im1))
        (fun j => Spec.maskOf err (prep zm im2) j / Spec.errOf err j ^ 2) i) ∧
      (∀ i, m.term3.at i = ∑ p, Spec.maskOf err (prep zm im1) p ^ 2 *
        (1 / Spec.errOf err (Spec.move (Spec.lag ny i.1) (Spec.lag nx i.2) p) ^ 2)) ∧
      ((∃ t, m.term3 = .image t) ↔ ∃ e, err = .image e) ∧
      (∀ i, m.chi2 i = (m.term1 + m.term2 i + m.term3.at i) / (if red then (ny : ℝ) * nx - 2 else 1)) := by
  rw [prep_def, prep_def]
  unfold chi2nMapBody chi2nMapBodyB
  cases err with
  | none =>
    simp only [correlate2dB_wrap, correlate2d_eq cfg ah h, bind, Except.bind, pure, Except.pure, finiteVals_realArr,
      finiteVals_nanToNum]
    refine ⟨_, rfl, rfl, ?_, ?_, by simp, ?_⟩
    · cases zm <;> rfl
    · intro i
      show ∑ j, _ = _
      refine Finset.sum_congr rfl fun p _ => ?_
      simp only [Spec.errOf, Spec.maskOf]
      cases zm <;> simp
    · intro i; cases red <;> simp
  | scalar s =>
    simp only [correlate2dB_wrap, correlate2d_eq cfg ah h, bind, Except.bind, pure, Except.pure, finiteVals_realArr,
      finiteVals_nanToNum]
    refine ⟨_, rfl, rfl, ?_, ?_, by simp, ?_⟩
    · cases zm <;> rfl
    · intro i
      show ∑ j, _ = _
      refine Finset.sum_congr rfl fun p _ => ?_
      simp only [Spec.errOf, Spec.maskOf]
      rw [div_eq_mul_one_div]
    · intro i; cases red <;> simp
  | image e =>
    simp only [correlate2dB_wrap, correlate2d_eq cfg ah h, bind, Except.bind, pure, Except.pure, finiteVals_realArr,
      finiteVals_nanToNum]
    refine ⟨_, rfl, rfl, ?_, ?_, by simp, ?_⟩
    · cases zm <;> rfl
    · intro i
      show ∑ j, _ = _
      rfl
    · intro i; cases red <;> simp

theorem chi2nMapBody_chi2 (cfg : FFTConfig) (im1 im2 : Fin ny × Fin nx → Pix) (err : ErrArg ny nx)
    (zm ah : Bool) (h : Spec.fits ah ny nx) :
    ∃ m, chi2nMapBody cfg im1 im2 err zm false ah = .ok m ∧
      ∀ i, m.chi2 i = Spec.chi2 (Spec.maskOf err (prep zm im1)) (Spec.maskOf err (prep zm im2))
        (Spec.errOf err) (Spec.lag ny i.1) (Spec.lag nx i.2) := by
  obtain ⟨m, h1, h2, h3, h4, -, h6⟩ := chi2nMapBody_eq cfg im1 im2 err zm false ah h
  refine ⟨m, h1, fun i => ?_⟩
  rw [h6, h2, h3, h4, chi2_expand]
  simp only [Bool.false_eq_true, if_false, div_one]
  rfl

omit [NeZero ny] [NeZero nx] in
theorem chi2nMapBody_huge (cfg : FFTConfig) (im1 im2 : Fin ny × Fin nx → Pix) (err : ErrArg ny nx)
    (zm red ah : Bool) (h : ¬ Spec.fits ah ny nx) :
    chi2nMapBody cfg im1 im2 err zm red ah = .error .valueError := by
  unfold chi2nMapBody chi2nMapBodyB
  cases err <;>
    simp only [correlate2dB_wrap, correlate2d_huge cfg ah h, bind, Except.bind, pure, Except.pure]

omit [NeZero ny] [NeZero nx] in
theorem chi2nMapB_same (cfg : FFTConfig) (bd : CorrBoundary) (im1 im2 : Fin ny × Fin nx → Pix)
    (err : ErrArg ny nx) (zm ra red ah : Bool) :
    chi2nMapB cfg bd im1 im2 err zm ra red ah
      = (chi2nMapBodyB cfg bd im1 im2 err zm red ah >>= fun m =>
          pure (if ra then Chi2Ret.all m else .only m.chi2)) := by
  unfold chi2nMapB
  rw [dif_pos ⟨rfl, rfl⟩]
  rfl

omit [NeZero ny] [NeZero nx] in
theorem chi2nMapB_wrap {my mx : ℕ} (cfg : FFTConfig) (im1 : Fin ny × Fin nx → Pix) (im2 : Fin my × Fin mx → Pix)
    (err : ErrArg ny nx) (zm ra red ah : Bool) :
    chi2nMapB cfg .wrap im1 im2 err zm ra red ah = chi2nMap cfg im1 im2 err zm ra red ah := rfl

omit [NeZero ny] [NeZero nx] in
theorem chi2nMap_same (cfg : FFTConfig) (im1 im2 : Fin ny × Fin nx → Pix) (err : ErrArg ny nx)
    (zm ra red ah : Bool) :
    chi2nMap cfg im1 im2 err zm ra red ah
      = (chi2nMapBody cfg im1 im2 err zm red ah >>= fun m =>
          pure (if ra then Chi2Ret.all m else .only m.chi2)) :=
  chi2nMapB_same cfg .wrap im1 im2 err zm ra red ah

end

end ImgReg
