import Verif.Model.InexactChi2
import Verif.Lemmas.InexactShift

/-! # Error bounds for `correlate2d` and `chi2n_map` in inexact arithmetic -/

open Complex Finset
open scoped ComplexConjugate

namespace ImgReg

/-- Relative errors at most `δ < 1`, and the kernel is never divided by 0. -/
structure Spec.Chi2Accurate (A : Chi2Arith) (δ : ℝ) : Prop where
  base : Spec.Accurate A.toArith δ
  lt_one : δ < 1
  mulR : ∀ x y : ℝ, |A.mulR x y - x * y| ≤ δ * |x * y|
  addR : ∀ x y : ℝ, |A.addR x y - (x + y)| ≤ δ * |x + y|
  divR : ∀ x y : ℝ, y ≠ 0 → |A.divR x y - x / y| ≤ δ * |x / y|
  sum : ∀ {m n : ℕ} (f : Fin m × Fin n → ℝ), |A.sum f - ∑ p, f p| ≤ δ * ∑ p, |f p|
  kernelScale : ∀ {m n : ℕ} (k : Fin m × Fin n → ℝ), A.kernelScale k ≠ 0

theorem Spec.Chi2Accurate.nonneg {A : Chi2Arith} {δ : ℝ} (h : Spec.Chi2Accurate A δ) : 0 ≤ δ := h.base.nonneg

/-! ### approximations of arrays -/

section
variable {ι : Type} [Fintype ι]

/-- root of the sum of squares of a real array -/
noncomputable def r2 (a : ι → ℝ) : ℝ := Real.sqrt (∑ p, a p ^ 2)

theorem r2_nonneg (a : ι → ℝ) : 0 ≤ r2 a := Real.sqrt_nonneg _

theorem l2_ofReal (a : ι → ℝ) : l2 (fun p => (a p : ℂ)) = r2 a := by unfold l2 r2; simp

theorem r2_add (a b : ι → ℝ) : r2 (fun p => a p + b p) ≤ r2 a + r2 b := by
  have := l2_add (fun p => (a p : ℂ)) (fun p => (b p : ℂ))
  rw [l2_ofReal, l2_ofReal] at this
  rw [← l2_ofReal]
  simpa using this

theorem r2_mono {a b : ι → ℝ} (h : ∀ p, |a p| ≤ |b p|) : r2 a ≤ r2 b := by
  apply Real.sqrt_le_sqrt
  exact Finset.sum_le_sum fun p _ => sq_le_sq.2 (h p)

theorem abs_le_r2 (a : ι → ℝ) (p : ι) : |a p| ≤ r2 a := by
  rw [← Real.sqrt_sq_eq_abs]
  exact Real.sqrt_le_sqrt (Finset.single_le_sum (f := fun j => a j ^ 2) (fun _ _ => by positivity) (Finset.mem_univ p))

theorem r2_smul (c : ℝ) (a : ι → ℝ) : r2 (fun p => c * a p) = |c| * r2 a := by
  unfold r2
  simp only [mul_pow]
  rw [← Finset.mul_sum, Real.sqrt_mul (by positivity), Real.sqrt_sq_eq_abs]

theorem r2_wmul {a w : ι → ℝ} {W : ℝ} (h : ∀ p, |w p| ≤ W) (hW : 0 ≤ W) : r2 (fun p => w p * a p) ≤ W * r2 a := by
  have e : W * r2 a = r2 (fun p => W * a p) := by rw [r2_smul, abs_of_nonneg hW]
  rw [e]
  refine r2_mono fun p => ?_
  rw [abs_mul, abs_mul, abs_of_nonneg hW]
  exact mul_le_mul_of_nonneg_right (h p) (abs_nonneg _)

theorem r2_mul_le (a b : ι → ℝ) : r2 (fun p => a p * b p) ≤ r2 a * r2 b := r2_wmul (fun p => abs_le_r2 a p) (r2_nonneg a)

/-- `a'` approximates `a` in root-mean-square -/
structure NearV (a' a : ι → ℝ) (X' X : ℝ) : Prop where
  le' : r2 a' ≤ X'
  le : r2 a ≤ X
  dist : r2 (fun p => a' p - a p) ≤ X' - X

/-- `f'` approximates `f` in the sum of the moduli -/
structure NearS (f' f : ι → ℝ) (S' S : ℝ) : Prop where
  le' : ∑ p, |f' p| ≤ S'
  le : ∑ p, |f p| ≤ S
  dist : ∑ p, |f' p - f p| ≤ S' - S

variable {a' a b' b y w' w : ι → ℝ} {X' X Y' Y W' W δ : ℝ}

theorem NearV.nonneg (h : NearV a' a X' X) : 0 ≤ X := (r2_nonneg _).trans h.le
theorem NearV.nonneg' (h : NearV a' a X' X) : 0 ≤ X' := (r2_nonneg _).trans h.le'
theorem NearV.le_bound (h : NearV a' a X' X) : X ≤ X' := by have := (r2_nonneg _).trans h.dist; linarith

theorem NearV.mono (h : NearV a' a X' X) (hY : X' ≤ Y') : NearV a' a Y' X :=
  ⟨h.le'.trans hY, h.le, by have := h.dist; linarith⟩

theorem NearV.step (h0 : 0 ≤ δ) (h : NearV a' a X' X) (hy : ∀ p, |y p - a' p| ≤ δ * |a' p|) : NearV y a ((1 + δ) * X') X := by
  have h1 : r2 (fun p => y p - a' p) ≤ δ * X' := by
    refine le_trans ?_ (mul_le_mul_of_nonneg_left h.le' h0)
    have e : δ * r2 a' = r2 (fun p => δ * a' p) := by rw [r2_smul, abs_of_nonneg h0]
    rw [e]
    refine r2_mono fun p => ?_
    rw [abs_mul, abs_of_nonneg h0]; exact hy p
  have h2 := r2_add (fun p => y p - a' p) a'
  have h3 := r2_add (fun p => y p - a' p) (fun p => a' p - a p)
  simp only [sub_add_cancel] at h2
  simp only [sub_add_sub_cancel] at h3
  have := h.le'; have := h.dist
  have e : r2 (fun p => y p) = r2 y := rfl
  exact ⟨by linarith, h.le, by linarith⟩

theorem NearV.wmul (hw : ∀ p, Near (w' p) (w p) W' W) (hW : 0 ≤ W) (hWW : W ≤ W') (h : NearV a' a X' X) :
    NearV (fun p => a' p * w' p) (fun p => a p * w p) (X' * W') (X * W) := by
  refine ⟨?_, ?_, ?_⟩
  · have h1 := (r2_wmul (fun p => (hw p).le') (hW.trans hWW)).trans (mul_le_mul_of_nonneg_left h.le' (hW.trans hWW))
    simp only [mul_comm _ (w' _)]
    linarith
  · have h1 := (r2_wmul (fun p => (hw p).le) hW).trans (mul_le_mul_of_nonneg_left h.le hW)
    simp only [mul_comm _ (w _)]
    linarith
  · have e : (fun p => a' p * w' p - a p * w p) = fun p => (w' p - w p) * a' p + w p * (a' p - a p) := by funext p; ring
    rw [e]
    have h1 := r2_add (fun p => (w' p - w p) * a' p) (fun p => w p * (a' p - a p))
    have h2 := (r2_wmul (fun p => (hw p).dist) (by linarith)).trans (mul_le_mul_of_nonneg_left h.le' (by linarith : 0 ≤ W' - W))
    have h3 := (r2_wmul (fun p => (hw p).le) hW).trans (mul_le_mul_of_nonneg_left h.dist hW)
    nlinarith

theorem NearV.mul (h : NearV a' a X' X) (k : NearV b' b Y' Y) :
    NearV (fun p => a' p * b' p) (fun p => a p * b p) (X' * Y') (X * Y) := by
  refine ⟨?_, ?_, ?_⟩
  · exact (r2_mul_le _ _).trans (mul_le_mul h.le' k.le' (r2_nonneg _) h.nonneg')
  · exact (r2_mul_le _ _).trans (mul_le_mul h.le k.le (r2_nonneg _) h.nonneg)
  · have e : (fun p => a' p * b' p - a p * b p) = fun p => (a' p - a p) * b' p + a p * (b' p - b p) := by funext p; ring
    rw [e]
    have h1 := r2_add (fun p => (a' p - a p) * b' p) (fun p => a p * (b' p - b p))
    have h2 := (r2_mul_le (fun p => a' p - a p) b').trans
      (mul_le_mul h.dist k.le' (r2_nonneg _) (by have := h.le_bound; linarith))
    have h3 := (r2_mul_le a (fun p => b' p - b p)).trans (mul_le_mul h.le k.dist (r2_nonneg _) h.nonneg)
    nlinarith

theorem NearV.const (hw : ∀ p, Near (w' p) (w p) W' W) (hW : 0 ≤ W) (hWW : W ≤ W') :
    NearV w' w (Real.sqrt (Fintype.card ι) * W') (Real.sqrt (Fintype.card ι) * W) := by
  have h1 : r2 (fun _ : ι => (1 : ℝ)) = Real.sqrt (Fintype.card ι) := by unfold r2; simp
  have h := NearV.wmul hw hW hWW (a' := fun _ => 1) (a := fun _ => 1) (X' := Real.sqrt (Fintype.card ι)) (X := Real.sqrt (Fintype.card ι))
    ⟨h1.le, h1.le, by simp [r2]⟩
  simpa using h

theorem sum_abs_mul_le (a b : ι → ℝ) : ∑ p, |a p * b p| ≤ r2 a * r2 b := by
  have := Real.sum_mul_le_sqrt_mul_sqrt univ (fun p => |a p|) (fun p => |b p|)
  simp only [abs_mul]
  simpa [r2, sq_abs] using this

theorem NearS.mul (h : NearV a' a X' X) (k : NearV b' b Y' Y) :
    NearS (fun p => a' p * b' p) (fun p => a p * b p) (X' * Y') (X * Y) := by
  refine ⟨?_, ?_, ?_⟩
  · exact (sum_abs_mul_le _ _).trans (mul_le_mul h.le' k.le' (r2_nonneg _) h.nonneg')
  · exact (sum_abs_mul_le _ _).trans (mul_le_mul h.le k.le (r2_nonneg _) h.nonneg)
  · have h1 : ∑ p, |a' p * b' p - a p * b p| ≤ ∑ p, |(a' p - a p) * b' p| + ∑ p, |a p * (b' p - b p)| := by
      rw [← Finset.sum_add_distrib]
      refine Finset.sum_le_sum fun p _ => ?_
      have e : a' p * b' p - a p * b p = (a' p - a p) * b' p + a p * (b' p - b p) := by ring
      rw [e]; exact abs_add_le _ _
    have h2 := (sum_abs_mul_le (fun p => a' p - a p) b').trans
      (mul_le_mul h.dist k.le' (r2_nonneg _) (by have := h.le_bound; linarith))
    have h3 := (sum_abs_mul_le a (fun p => b' p - b p)).trans (mul_le_mul h.le k.dist (r2_nonneg _) h.nonneg)
    nlinarith

theorem NearS.step {f' f y : ι → ℝ} {S' S : ℝ} (h0 : 0 ≤ δ) (h : NearS f' f S' S) (hy : ∀ p, |y p - f' p| ≤ δ * |f' p|) :
    NearS y f ((1 + δ) * S') S := by
  have h1 : ∑ p, |y p - f' p| ≤ δ * S' := by
    refine (Finset.sum_le_sum fun p _ => hy p).trans ?_
    rw [← Finset.mul_sum]; exact mul_le_mul_of_nonneg_left h.le' h0
  have h2 : ∑ p, |y p| ≤ ∑ p, |y p - f' p| + ∑ p, |f' p| := by
    rw [← Finset.sum_add_distrib]
    refine Finset.sum_le_sum fun p _ => ?_
    have := abs_add_le (y p - f' p) (f' p)
    rwa [sub_add_cancel] at this
  have h3 : ∑ p, |y p - f p| ≤ ∑ p, |y p - f' p| + ∑ p, |f' p - f p| := by
    rw [← Finset.sum_add_distrib]
    refine Finset.sum_le_sum fun p _ => ?_
    have := abs_add_le (y p - f' p) (f' p - f p)
    rwa [sub_add_sub_cancel] at this
  have := h.le'; have := h.dist
  exact ⟨by linarith, h.le, by linarith⟩

theorem NearS.wmul {f' f : ι → ℝ} {S' S : ℝ} (hw : ∀ p, Near (w' p) (w p) W' W) (hW : 0 ≤ W) (hWW : W ≤ W') (h : NearS f' f S' S) :
    NearS (fun p => f' p * w' p) (fun p => f p * w p) (S' * W') (S * W) := by
  have key : ∀ (g v : ι → ℝ) (V G : ℝ), 0 ≤ V → (∀ p, |v p| ≤ V) → ∑ p, |g p| ≤ G → ∑ p, |g p * v p| ≤ G * V := by
    intro g v V G hV hv hg
    calc ∑ p, |g p * v p| ≤ ∑ p, |g p| * V := Finset.sum_le_sum fun p _ => by
          rw [abs_mul]; exact mul_le_mul_of_nonneg_left (hv p) (abs_nonneg _)
      _ = (∑ p, |g p|) * V := (Finset.sum_mul ..).symm
      _ ≤ G * V := mul_le_mul_of_nonneg_right hg hV
  refine ⟨key _ _ _ _ (hW.trans hWW) (fun p => (hw p).le') h.le', key _ _ _ _ hW (fun p => (hw p).le) h.le, ?_⟩
  have h1 : ∑ p, |f' p * w' p - f p * w p| ≤ ∑ p, |f' p * (w' p - w p)| + ∑ p, |(f' p - f p) * w p| := by
    rw [← Finset.sum_add_distrib]
    refine Finset.sum_le_sum fun p _ => ?_
    have e : f' p * w' p - f p * w p = f' p * (w' p - w p) + (f' p - f p) * w p := by ring
    rw [e]; exact abs_add_le _ _
  have h2 := key f' (fun p => w' p - w p) (W' - W) S' (by linarith) (fun p => (hw p).dist) h.le'
  have h3 := key (fun p => f' p - f p) w W (S' - S) hW (fun p => (hw p).le) h.dist
  nlinarith

end

/-- the computed reciprocal of a square -/
theorem recip_near {e e2 δ w : ℝ} (h0 : 0 ≤ δ) (h1 : δ < 1) (he : e ≠ 0) (hw : 1 / e ^ 2 ≤ w) (h : |e2 - e * e| ≤ δ * |e * e|) :
    e2 ≠ 0 ∧ Near (1 / e2) (1 / e ^ 2) (1 / (1 - δ) * w) w := by
  have hp : 0 < e ^ 2 := by positivity
  have hd : 0 < 1 - δ := by linarith
  have ee : e * e = e ^ 2 := by ring
  rw [ee, abs_of_pos hp, abs_le] at h
  have hlo : (1 - δ) * e ^ 2 ≤ e2 := by linarith
  have hhi : e2 ≤ (1 + δ) * e ^ 2 := by linarith
  have h2 : 0 < e2 := lt_of_lt_of_le (by positivity) hlo
  have hup : 1 / e2 ≤ 1 / (1 - δ) * (1 / e ^ 2) := by
    rw [one_div_mul_one_div_rev]
    exact one_div_le_one_div_of_le (by positivity) (by linarith)
  have hdn : 1 / (1 + δ) * (1 / e ^ 2) ≤ 1 / e2 := by
    rw [one_div_mul_one_div_rev]
    exact one_div_le_one_div_of_le h2 (by linarith)
  have hq : 0 < 1 / e ^ 2 := by positivity
  have hr : 1 - 1 / (1 + δ) ≤ 1 / (1 - δ) - 1 := by
    have e1 : 1 - 1 / (1 + δ) = δ / (1 + δ) := by field_simp; ring
    have e2 : 1 / (1 - δ) - 1 = δ / (1 - δ) := by field_simp; ring
    rw [e1, e2]
    apply div_le_div_of_nonneg_left h0 hd; linarith
  have hr1 : 1 ≤ 1 / (1 - δ) := by rw [le_div_iff₀ hd]; linarith
  have hrw : 1 / (1 - δ) * (1 / e ^ 2) ≤ 1 / (1 - δ) * w := mul_le_mul_of_nonneg_left hw (by positivity)
  refine ⟨h2.ne', ⟨?_, ?_, ?_⟩⟩
  · rw [abs_of_pos (by positivity)]; linarith
  · rw [abs_of_pos hq]; exact hw
  · have h3 : (1 / (1 - δ) - 1) * (1 / e ^ 2) ≤ (1 / (1 - δ) - 1) * w := mul_le_mul_of_nonneg_left hw (by linarith)
    have h4 : (1 - 1 / (1 + δ)) * (1 / e ^ 2) ≤ (1 / (1 - δ) - 1) * (1 / e ^ 2) := mul_le_mul_of_nonneg_right hr hq.le
    rw [abs_le]
    constructor <;> linarith

section
variable {ny nx : ℕ} [NeZero ny] [NeZero nx]

/-- the correlation by transforms -/
theorem xcorr_idft (a b : Fin ny × Fin nx → ℝ) (i : Fin ny × Fin nx) :
    idft (fun k => dft (fun p => (a p : ℂ)) k * dft (Np.ifftshift2 (Np.flip2 fun p => (b p : ℂ))) k) i = (Spec.xcorr a b i : ℂ) := by
  rw [idft_mul_dft]
  unfold Spec.xcorr
  push_cast
  refine Finset.sum_congr rfl fun p _ => ?_
  have key : ∀ (n : ℕ) [NeZero n] (i p : Fin n),
      (Np.ifftshiftIdx (i - p)).rev = Spec.wrap n (((p : ℕ) : ℤ) + ((Spec.zeroLag n : ℤ) - ((i : ℕ) : ℤ))) := by
    intro n _ i p
    have := (meet_iff (le_refl n) (le_refl n) i p (Np.ifftshiftIdx (i - p)).rev)
    have e : ∀ j : Fin n, embIdx (le_refl n) j = j := by
      intro j; apply Fin.ext; simp [embIdx, sliceStart]; omega
    rw [e, e, e, Fin.rev_rev] at this
    symm
    rw [Spec.wrap_eq_iff]
    exact (this.1 rfl).symm
  unfold Spec.move Np.ifftshift2 Np.flip2
  simp only [Prod.fst_sub, Prod.snd_sub, key]

theorem l2_comp_bij {ι : Type} [Fintype ι] (σ : ι → ι) (hσ : Function.Bijective σ) (f : ι → ℂ) : l2 (fun i => f (σ i)) = l2 f := by
  unfold l2
  congr 1
  exact Fintype.sum_bijective σ hσ _ _ fun _ => rfl

theorem shiftflip_bij : Function.Bijective fun i : Fin ny × Fin nx => ((Np.ifftshiftIdx i.1).rev, (Np.ifftshiftIdx i.2).rev) := by
  have h : ∀ (n : ℕ) [NeZero n], Function.Injective fun i : Fin n => (Np.ifftshiftIdx i).rev := by
    intro n _ i j hij
    have := Fin.rev_injective hij
    exact add_right_cancel this
  rw [← Finite.injective_iff_bijective]
  intro p q hpq
  exact Prod.ext (h ny (congrArg Prod.fst hpq)) (h nx (congrArg Prod.snd hpq))

omit [NeZero ny] [NeZero nx] in
theorem NearV.sdiv {a' a : Fin ny × Fin nx → ℝ} {X' X : ℝ} (s : ℝ) (h : NearV a' a X' X) :
    NearV (fun p => a' p / s) (fun p => a p / s) (X' / |s|) (X / |s|) := by
  have e : ∀ f : Fin ny × Fin nx → ℝ, r2 (fun p => f p / s) = r2 f / |s| := by
    intro f
    have := r2_smul s⁻¹ f
    rw [abs_inv] at this
    rw [div_eq_inv_mul, ← this]
    congr 1; funext p; ring
  refine ⟨?_, ?_, ?_⟩
  · rw [e]; exact div_le_div_of_nonneg_right h.le' (abs_nonneg _)
  · rw [e]; exact div_le_div_of_nonneg_right h.le (abs_nonneg _)
  · have e2 : (fun p => a' p / s - a p / s) = fun p => (a' p - a p) / s := by funext p; ring
    rw [e2, e, ← sub_div]
    exact div_le_div_of_nonneg_right h.dist (abs_nonneg _)

theorem abs_xcorr_le (a b : Fin ny × Fin nx → ℝ) (i : Fin ny × Fin nx) : |Spec.xcorr a b i| ≤ r2 a * r2 b := by
  unfold Spec.xcorr
  refine (Finset.abs_sum_le_sum_abs _ _).trans ?_
  have h := sum_abs_mul_le a (fun p => b (Spec.move ((Spec.zeroLag ny : ℤ) - ((i.1 : ℕ) : ℤ)) ((Spec.zeroLag nx : ℤ) - ((i.2 : ℕ) : ℤ)) p))
  refine h.trans (le_of_eq ?_)
  congr 1
  unfold r2
  rw [Spec.sum_move _ _ fun p => b p ^ 2]

/-- `correlate2d` of approximate images -/
theorem corrA_near {A : Chi2Arith} {δ : ℝ} (hA : Spec.Chi2Accurate A δ) {a' a b' b : Fin ny × Fin nx → ℝ} {X' X Y' Y : ℝ}
    (ha : NearV a' a X' X) (hb : NearV b' b Y' Y) (i : Fin ny × Fin nx) :
    Near (corrA A a' b' i) (Spec.xcorr a b i) ((1 + δ) ^ 6 * (X' * Y')) (X * Y) := by
  have h0 := hA.nonneg
  have hs : A.kernelScale (Np.flip2 b') ≠ 0 := hA.kernelScale _
  unfold corrA
  generalize A.kernelScale (Np.flip2 b') = s at hs
  have hs' : 0 < |s| := abs_pos.2 hs
  have c0 : (0 : ℝ) < (ny : ℝ) * nx := by
    have := Nat.pos_of_ne_zero (NeZero.ne ny); have := Nat.pos_of_ne_zero (NeZero.ne nx); positivity
  have hq : Real.sqrt ((ny : ℝ) * nx) * Real.sqrt ((ny : ℝ) * nx) = (ny : ℝ) * nx := Real.mul_self_sqrt c0.le
  -- the spectrum of the image
  have f1 := fft_near hA.base (fun p => (a' p : ℂ)) (fun p => (a p : ℂ)) (T' := X') (T := X)
    (by rw [l2_ofReal]; exact ha.le') (by
      have := ha.dist
      rw [← l2_ofReal] at this
      simpa using this)
  -- the spectrum of the kernel
  have hk : NearV (fun p => A.divR (b' p) s) (fun p => b p / s) ((1 + δ) * (Y' / |s|)) (Y / |s|) :=
    (hb.sdiv s).step h0 fun p => hA.divR _ _ hs
  set σ : Fin ny × Fin nx → Fin ny × Fin nx := fun i => ((Np.ifftshiftIdx i.1).rev, (Np.ifftshiftIdx i.2).rev) with hσ
  have hσb : Function.Bijective σ := shiftflip_bij
  have g1 := fft_near hA.base (fun p => ((A.divR (b' (σ p)) s : ℝ) : ℂ)) (fun p => ((b (σ p) / s : ℝ) : ℂ))
    (T' := (1 + δ) * (Y' / |s|)) (T := Y / |s|)
    (by
      rw [l2_comp_bij σ hσb (fun p => ((A.divR (b' p) s : ℝ) : ℂ)), l2_ofReal]
      exact hk.le')
    (by
      have := hk.dist
      rw [← l2_ofReal, ← l2_comp_bij σ hσb] at this
      simpa using this)
  have ek : Np.ifftshift2 (fun p => ((A.divR (Np.flip2 b' p) s : ℝ) : ℂ)) = fun p => ((A.divR (b' (σ p)) s : ℝ) : ℂ) := rfl
  rw [ek]
  have hF : l2 (dft fun p => (a p : ℂ)) ≤ Real.sqrt ((ny : ℝ) * nx) * X := by
    rw [l2_dft, l2_ofReal]
    exact mul_le_mul_of_nonneg_left ha.le (Real.sqrt_nonneg _)
  have hc : ∀ f : Fin ny × Fin nx → ℂ, l2 (fun k => conj (f k)) = l2 f := by intro f; unfold l2; simp
  have g2 := g1.1
  rw [← hc] at g2
  have g3 := g1.2
  rw [← hc] at g3
  simp only [map_sub] at g3
  have cr := cross_near hA.base (A.fft fun p => (a' p : ℂ)) (fun k => conj (A.fft (fun p => ((A.divR (b' (σ p)) s : ℝ) : ℂ)) k))
    (dft fun p => (a p : ℂ)) (fun k => conj (dft (fun p => ((b (σ p) / s : ℝ) : ℂ)) k)) f1.1 g2 hF f1.2 g3
  simp only [Complex.conj_conj] at cr
  have r := ifft_near hA.base _ _ i cr.1 cr.2
  have ex : idft (fun k => dft (fun p => (a p : ℂ)) k * dft (fun p => ((b (σ p) / s : ℝ) : ℂ)) k) i = ((Spec.xcorr a b i / s : ℝ) : ℂ) := by
    have := xcorr_idft a (fun p => b p / s) i
    have e2 : Spec.xcorr a (fun p => b p / s) i = Spec.xcorr a b i / s := by
      unfold Spec.xcorr; rw [Finset.sum_div]; exact Finset.sum_congr rfl fun p _ => by ring
    rw [e2] at this
    exact this
  rw [ex] at r
  generalize A.ifft (fun k => A.mul (A.fft (fun p => (a' p : ℂ)) k) (A.fft (fun p => ((A.divR (b' (σ p)) s : ℝ) : ℂ)) k)) i = z at r
  have e1 : (1 + δ) * ((1 + δ) * (Real.sqrt ((ny : ℝ) * nx) * ((1 + δ) * X') * (Real.sqrt ((ny : ℝ) * nx) * ((1 + δ) * ((1 + δ) * (Y' / |s|)))))
      / ((ny : ℝ) * nx)) = (1 + δ) ^ 5 * (X' * Y') / |s| := by
    have hq0 : Real.sqrt ((ny : ℝ) * nx) ≠ 0 := (Real.sqrt_pos.2 c0).ne'
    generalize Real.sqrt ((ny : ℝ) * nx) = q at hq0 hq
    rw [← hq]
    field_simp
  have e2 : Real.sqrt ((ny : ℝ) * nx) * X * (Real.sqrt ((ny : ℝ) * nx) * (Y / |s|)) / ((ny : ℝ) * nx) = X * Y / |s| := by
    have hq0 : Real.sqrt ((ny : ℝ) * nx) ≠ 0 := (Real.sqrt_pos.2 c0).ne'
    generalize Real.sqrt ((ny : ℝ) * nx) = q at hq0 hq
    rw [← hq]
    field_simp
  rw [e1, e2] at r
  have n1 : Near z.re (Spec.xcorr a b i / s) ((1 + δ) ^ 5 * (X' * Y') / |s|) (X * Y / |s|) := by
    refine ⟨(Complex.abs_re_le_norm z).trans r.1, ?_, ?_⟩
    · rw [abs_div]
      refine div_le_div_of_nonneg_right ((abs_xcorr_le a b i).trans ?_) hs'.le
      exact mul_le_mul ha.le hb.le (r2_nonneg _) ha.nonneg
    · have := (Complex.abs_re_le_norm (z - ((Spec.xcorr a b i / s : ℝ) : ℂ))).trans r.2
      rwa [Complex.sub_re, Complex.ofReal_re] at this
  have n2 := (n1.mul (Near.refl s)).step h0 (hA.mulR _ _)
  have e3 : (1 + δ) * ((1 + δ) ^ 5 * (X' * Y') / |s| * |s|) = (1 + δ) ^ 6 * (X' * Y') := by
    rw [div_mul_cancel₀ _ hs'.ne']; ring
  rw [div_mul_cancel₀ _ hs, e3, div_mul_cancel₀ _ hs'.ne'] at n2
  exact n2

/-- the largest weight of a pixel, `1 / err ^ 2` -/
noncomputable def Spec.maxWeight (err : ErrArg ny nx) : ℝ :=
  Finset.univ.sup' ⟨((0 : Fin ny), (0 : Fin nx)), Finset.mem_univ _⟩ fun p => 1 / Spec.errOf err p ^ 2

/-- 1, or the root of the number of pixels when there is an error image (whose correlation with the squared image is computed by transforms) -/
noncomputable def Spec.errSpread (err : ErrArg ny nx) : ℝ :=
  match err with
  | .image _ => Real.sqrt ((ny : ℝ) * nx)
  | _ => 1

/-- how far every computed chi-squared can be from the exact one -/
noncomputable def Spec.chi2Err (δ : ℝ) (zm : Bool) (im1 im2 : Fin ny × Fin nx → Pix) (err : ErrArg ny nx) : ℝ :=
  (1 + δ) ^ 9 / (1 - δ) * (Spec.maxWeight err * (Spec.prepNorm' δ zm im2 ^ 2
      + 2 * (Spec.prepNorm' δ zm im1 * Spec.prepNorm' δ zm im2) + Spec.errSpread err * Spec.prepNorm' δ zm im1 ^ 2))
    - Spec.maxWeight err * (Spec.prepNorm zm im2 ^ 2 + 2 * (Spec.prepNorm zm im1 * Spec.prepNorm zm im2)
      + Spec.errSpread err * Spec.prepNorm zm im1 ^ 2)

theorem weight_le_max (err : ErrArg ny nx) (p : Fin ny × Fin nx) : 1 / Spec.errOf err p ^ 2 ≤ Spec.maxWeight err :=
  Finset.le_sup' (fun p => 1 / Spec.errOf err p ^ 2) (Finset.mem_univ p)

theorem maxWeight_nonneg (err : ErrArg ny nx) : 0 ≤ Spec.maxWeight err :=
  le_trans (by positivity) (weight_le_max err ((0 : Fin ny), (0 : Fin nx)))

omit [NeZero ny] [NeZero nx] in
theorem errSpread_nonneg (err : ErrArg ny nx) : 0 ≤ Spec.errSpread err := by
  unfold Spec.errSpread
  split
  · exact Real.sqrt_nonneg _
  · exact zero_le_one

omit [NeZero ny] [NeZero nx] in
theorem errValsA_eq (err : ErrArg ny nx) : errValsA err = Spec.errOf err := by cases err <;> rfl

omit [NeZero ny] [NeZero nx] in
theorem maskA_eq (err : ErrArg ny nx) (im : Fin ny × Fin nx → ℝ) : maskA err im = Spec.maskOf err im := by cases err <;> rfl

omit [NeZero ny] [NeZero nx] in
theorem mask_le (err : ErrArg ny nx) (f : Fin ny × Fin nx → ℝ) (p : Fin ny × Fin nx) : |Spec.maskOf err f p| ≤ |f p| := by
  cases err <;> simp only [Spec.maskOf, le_refl]
  split_ifs <;> simp

omit [NeZero ny] [NeZero nx] in
theorem masked_near {A : Arith} {δ : ℝ} (hA : Spec.Accurate A δ) (zm : Bool) (err : ErrArg ny nx) (im : Fin ny × Fin nx → Pix) :
    NearV (maskA err (prepA A zm im)) (Spec.maskOf err (prep zm im)) (Spec.prepNorm' δ zm im) (Spec.prepNorm zm im) := by
  obtain ⟨h1, h2⟩ := prep_near hA zm im
  rw [maskA_eq]
  refine ⟨(r2_mono (mask_le err _)).trans ?_, (r2_mono (mask_le err _)).trans le_rfl, ?_⟩
  · rwa [← l2_ofReal]
  · have e : (fun p => Spec.maskOf err (prepA A zm im) p - Spec.maskOf err (prep zm im) p)
        = Spec.maskOf err (fun p => prepA A zm im p - prep zm im p) := by
      cases err <;> simp only [Spec.maskOf]
      funext p; split_ifs <;> simp
    rw [e]
    refine (r2_mono (mask_le err _)).trans ?_
    rw [← l2_ofReal]
    simpa using h2

/-- the sum of a squared, weighted image -/
theorem sqsum_near {A : Chi2Arith} {δ : ℝ} (hA : Spec.Chi2Accurate A δ) (err : ErrArg ny nx) (he : ∀ p, Spec.errOf err p ≠ 0)
    {b' b : Fin ny × Fin nx → ℝ} {Y' Y : ℝ} (hb : NearV b' b Y' Y) :
    Near (A.sum fun p => A.divR (A.mulR (b' p) (b' p)) (A.mulR (Spec.errOf err p) (Spec.errOf err p)))
      (∑ p, b p ^ 2 / Spec.errOf err p ^ 2) ((1 + δ) ^ 3 * (Y' ^ 2 * (1 / (1 - δ) * Spec.maxWeight err))) (Y ^ 2 * Spec.maxWeight err) := by
  have h0 := hA.nonneg
  have h1 := hA.lt_one
  have hr := fun p => recip_near h0 h1 (he p) (weight_le_max err p) (hA.mulR _ _)
  have hwl := (hr ((0 : Fin ny), (0 : Fin nx))).2.le_bound
  have n1 := (NearS.mul hb hb).step h0 fun p => hA.mulR (b' p) (b' p)
  have n2 := n1.wmul (fun p => (hr p).2) (maxWeight_nonneg err) hwl
  have n3 := n2.step h0 (y := fun p => A.divR (A.mulR (b' p) (b' p)) (A.mulR (Spec.errOf err p) (Spec.errOf err p))) fun p => by
    have := hA.divR (A.mulR (b' p) (b' p)) _ (hr p).1
    rwa [mul_one_div]
  have n4 := hA.sum fun p => A.divR (A.mulR (b' p) (b' p)) (A.mulR (Spec.errOf err p) (Spec.errOf err p))
  have n5 := mul_le_mul_of_nonneg_left n3.le' h0
  have n6 := n3.le'
  have n7 := n3.dist
  have e : ∑ p, b p ^ 2 / Spec.errOf err p ^ 2 = ∑ p, b p * b p * (1 / Spec.errOf err p ^ 2) :=
    Finset.sum_congr rfl fun p _ => by ring
  rw [e]
  generalize A.sum (fun p => A.divR (A.mulR (b' p) (b' p)) (A.mulR (Spec.errOf err p) (Spec.errOf err p))) = s at n4
  have n8 : |s - ∑ p, A.divR (A.mulR (b' p) (b' p)) (A.mulR (Spec.errOf err p) (Spec.errOf err p))| ≤ _ := n4.trans n5
  have n9 := Finset.abs_sum_le_sum_abs (fun p => A.divR (A.mulR (b' p) (b' p)) (A.mulR (Spec.errOf err p) (Spec.errOf err p))) univ
  have n10 := Finset.abs_sum_le_sum_abs (fun p => A.divR (A.mulR (b' p) (b' p)) (A.mulR (Spec.errOf err p) (Spec.errOf err p))
    - b p * b p * (1 / Spec.errOf err p ^ 2)) univ
  rw [Finset.sum_sub_distrib] at n10
  generalize ∑ p, A.divR (A.mulR (b' p) (b' p)) (A.mulR (Spec.errOf err p) (Spec.errOf err p)) = t at *
  have n11 := abs_add_le (s - t) t
  have n12 := abs_add_le (s - t) (t - ∑ p, b p * b p * (1 / Spec.errOf err p ^ 2))
  rw [sub_add_cancel] at n11
  rw [sub_add_sub_cancel] at n12
  have e3 : (1 + δ) ^ 3 * (Y' ^ 2 * (1 / (1 - δ) * Spec.maxWeight err))
      = (1 + δ) * ((1 + δ) * ((1 + δ) * (Y' * Y') * (1 / (1 - δ) * Spec.maxWeight err))) := by ring
  rw [e3]
  refine ⟨by linarith, ?_, by linarith⟩
  refine (Finset.abs_sum_le_sum_abs _ _).trans (n3.le.trans (le_of_eq (by ring)))

/-- every value of the computed map is within `Spec.chi2Err` of the chi-squared of the displacement it stands for -/
theorem chi2MapA_near {A : Chi2Arith} {δ : ℝ} (hA : Spec.Chi2Accurate A δ) (im1 im2 : Fin ny × Fin nx → Pix) (err : ErrArg ny nx)
    (zm : Bool) (he : ∀ p, Spec.errOf err p ≠ 0) (i : Fin ny × Fin nx) :
    |chi2MapA A im1 im2 err zm i - Spec.chi2 (Spec.maskOf err (prep zm im1)) (Spec.maskOf err (prep zm im2))
        (Spec.errOf err) (Spec.lag ny i.1) (Spec.lag nx i.2)| ≤ Spec.chi2Err δ zm im1 im2 err := by
  have h0 := hA.nonneg
  have h1 := hA.lt_one
  have hd : 0 < 1 - δ := by linarith
  have hr := fun p => recip_near h0 h1 (he p) (weight_le_max err p) (hA.mulR _ _)
  have hwl := (hr ((0 : Fin ny), (0 : Fin nx))).2.le_bound
  have hw := maxWeight_nonneg err
  have na := masked_near hA.base zm err im1
  have nb := masked_near hA.base zm err im2
  unfold chi2MapA
  rw [errValsA_eq]
  generalize maskA err (prepA A.toArith zm im1) = a' at na
  generalize maskA err (prepA A.toArith zm im2) = b' at nb
  unfold Spec.chi2Err
  generalize Spec.maskOf err (prep zm im1) = a at na
  generalize Spec.maskOf err (prep zm im2) = b at nb
  generalize Spec.prepNorm' δ zm im1 = X' at na
  generalize Spec.prepNorm' δ zm im2 = Y' at nb
  generalize Spec.prepNorm zm im1 = X at na
  generalize Spec.prepNorm zm im2 = Y at nb
  have hX' := na.nonneg'
  have hY' := nb.nonneg'
  have t1 := sqsum_near hA err he nb
  -- the correlation
  have c1 := (nb.wmul (fun p => (hr p).2) hw hwl).step h0
    (y := fun p => A.divR (b' p) (A.mulR (Spec.errOf err p) (Spec.errOf err p))) fun p => by
      have := hA.divR (b' p) _ (hr p).1
      rwa [mul_one_div]
  have t2 := (Near.refl (-2)).mul (corrA_near hA na c1 i)
  -- the third term
  have t3 : Near ((match (motive := ErrArg ny nx → Fin ny × Fin nx → ℝ) err with
      | .image _ => corrA A (fun p => A.mulR (a' p) (a' p)) (fun p => A.divR 1 (A.mulR (Spec.errOf err p) (Spec.errOf err p)))
      | _ => fun _ => A.sum fun p => A.divR (A.mulR (a' p) (a' p)) (A.mulR (Spec.errOf err p) (Spec.errOf err p))) i)
      (∑ p, a p ^ 2 * (1 / Spec.errOf err (Spec.move (Spec.lag ny i.1) (Spec.lag nx i.2) p) ^ 2))
      ((1 + δ) ^ 8 * (Spec.errSpread err * X' ^ 2 * (1 / (1 - δ) * Spec.maxWeight err))) (Spec.errSpread err * X ^ 2 * Spec.maxWeight err) := by
    have hp : (1 + δ) ^ 3 ≤ (1 + δ) ^ 8 := pow_le_pow_right₀ (by linarith) (by norm_num)
    have hsc : (∀ p q, Spec.errOf err p = Spec.errOf err q) →
        Near (A.sum fun p => A.divR (A.mulR (a' p) (a' p)) (A.mulR (Spec.errOf err p) (Spec.errOf err p)))
        (∑ p, a p ^ 2 * (1 / Spec.errOf err (Spec.move (Spec.lag ny i.1) (Spec.lag nx i.2) p) ^ 2))
        ((1 + δ) ^ 8 * (1 * X' ^ 2 * (1 / (1 - δ) * Spec.maxWeight err))) (1 * X ^ 2 * Spec.maxWeight err) := by
      intro hc
      have n := (sqsum_near hA err he na).mono (C' := (1 + δ) ^ 8 * (1 * X' ^ 2 * (1 / (1 - δ) * Spec.maxWeight err))) (by
        rw [one_mul]
        exact mul_le_mul_of_nonneg_right hp (by positivity))
      have e : ∑ p, a p ^ 2 / Spec.errOf err p ^ 2
          = ∑ p, a p ^ 2 * (1 / Spec.errOf err (Spec.move (Spec.lag ny i.1) (Spec.lag nx i.2) p) ^ 2) :=
        Finset.sum_congr rfl fun p _ => by rw [hc p (Spec.move (Spec.lag ny i.1) (Spec.lag nx i.2) p)]; ring
      rw [← e]
      rwa [← one_mul (X ^ 2)] at n
    cases err with
    | none => exact hsc fun _ _ => rfl
    | scalar s => exact hsc fun _ _ => rfl
    | image er =>
      have n1 := (na.mul na).step h0 (y := fun p => A.mulR (a' p) (a' p)) fun p => hA.mulR _ _
      have n2 : ∀ p, Near (A.divR 1 (A.mulR (Spec.errOf (.image er) p) (Spec.errOf (.image er) p))) (1 / Spec.errOf (.image er) p ^ 2)
          ((1 + δ) * (1 / (1 - δ) * Spec.maxWeight (.image er))) (Spec.maxWeight (.image er)) :=
        fun p => (hr p).2.step h0 (hA.divR 1 _ (hr p).1)
      have n3 := NearV.const n2 hw ((n2 ((0 : Fin ny), (0 : Fin nx))).le_bound)
      have n4 := corrA_near hA n1 n3 i
      rw [Fintype.card_prod, Fintype.card_fin, Fintype.card_fin, Nat.cast_mul] at n4
      have e1 : (1 + δ) ^ 6 * ((1 + δ) * (X' * X') * (Real.sqrt ((ny : ℝ) * nx) * ((1 + δ) * (1 / (1 - δ) * Spec.maxWeight (.image er)))))
          = (1 + δ) ^ 8 * (Real.sqrt ((ny : ℝ) * nx) * X' ^ 2 * (1 / (1 - δ) * Spec.maxWeight (.image er))) := by ring
      have e2 : X * X * (Real.sqrt ((ny : ℝ) * nx) * Spec.maxWeight (.image er))
          = Real.sqrt ((ny : ℝ) * nx) * X ^ 2 * Spec.maxWeight (.image er) := by ring
      have e3 : Spec.xcorr (fun p => a p * a p) (fun p => 1 / Spec.errOf (.image er) p ^ 2) i
          = ∑ p, a p ^ 2 * (1 / Spec.errOf (.image er) (Spec.move (Spec.lag ny i.1) (Spec.lag nx i.2) p) ^ 2) := by
        unfold Spec.xcorr Spec.lag
        exact Finset.sum_congr rfl fun p _ => by ring
      rw [e1, e2, e3] at n4
      exact n4
  have s1 := (t1.add t2).step h0 (hA.addR _ _)
  have s2 := (s1.add t3).step h0 (hA.addR _ _)
  have e : Spec.xcorr a (fun p => b p * (1 / Spec.errOf err p ^ 2)) i
      = ∑ p, a p * (b (Spec.move (Spec.lag ny i.1) (Spec.lag nx i.2) p) / Spec.errOf err (Spec.move (Spec.lag ny i.1) (Spec.lag nx i.2) p) ^ 2) := by
    unfold Spec.xcorr Spec.lag
    exact Finset.sum_congr rfl fun p _ => by ring
  rw [chi2_expand, ← e]
  refine s2.dist.trans ?_
  rw [abs_neg, abs_two]
  set W := Spec.maxWeight err
  set Q := Spec.errSpread err
  have hQ : 0 ≤ Q := errSpread_nonneg err
  have g : 0 ≤ 1 / (1 - δ) * W := by positivity
  have p1 : (1 + δ) ^ 5 ≤ (1 + δ) ^ 9 := pow_le_pow_right₀ (by linarith) (by norm_num)
  have p2 : (1 + δ) ^ 9 ≤ (1 + δ) ^ 9 := pow_le_pow_right₀ (by linarith) (by norm_num)
  have p3 : (1 + δ) ^ 9 ≤ (1 + δ) ^ 9 := pow_le_pow_right₀ (by linarith) (by norm_num)
  have k1 := mul_le_mul_of_nonneg_right p1 (by positivity : 0 ≤ Y' ^ 2 * (1 / (1 - δ) * W))
  have k2 := mul_le_mul_of_nonneg_right p2 (by positivity : 0 ≤ 2 * (X' * Y') * (1 / (1 - δ) * W))
  have k3 := mul_le_mul_of_nonneg_right p3 (by positivity : 0 ≤ Q * X' ^ 2 * (1 / (1 - δ) * W))
  have el : (1 + δ) * ((1 + δ) * ((1 + δ) ^ 3 * (Y' ^ 2 * (1 / (1 - δ) * W)) + 2 * ((1 + δ) ^ 6 * (X' * ((1 + δ) * (Y' * (1 / (1 - δ) * W))))))
      + (1 + δ) ^ 8 * (Q * X' ^ 2 * (1 / (1 - δ) * W)))
      = (1 + δ) ^ 5 * (Y' ^ 2 * (1 / (1 - δ) * W)) + (1 + δ) ^ 9 * (2 * (X' * Y') * (1 / (1 - δ) * W))
        + (1 + δ) ^ 9 * (Q * X' ^ 2 * (1 / (1 - δ) * W)) := by ring
  have er : (1 + δ) ^ 9 / (1 - δ) * (W * (Y' ^ 2 + 2 * (X' * Y') + Q * X' ^ 2))
      = (1 + δ) ^ 9 * (Y' ^ 2 * (1 / (1 - δ) * W)) + (1 + δ) ^ 9 * (2 * (X' * Y') * (1 / (1 - δ) * W))
        + (1 + δ) ^ 9 * (Q * X' ^ 2 * (1 / (1 - δ) * W)) := by ring
  have em : W * (Y ^ 2 + 2 * (X * Y) + Q * X ^ 2) = Y ^ 2 * W + 2 * (X * (Y * W)) + Q * X ^ 2 * W := by ring
  rw [el, er, em]
  linarith

end

end ImgReg
