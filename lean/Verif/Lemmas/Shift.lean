import Verif.Model.Shift
import Verif.Spec

/-!
# Lemmas about the FFT backends and the Fourier shift
-/

open Complex Finset
open scoped ComplexConjugate

set_option linter.unusedSectionVars false

namespace ImgReg

section generic
variable {ι : Type} [AddCommGroup ι] [Fintype ι] [DecidableEq ι] [FFTIndex ι]

theorem fftwn_eq (t : ℕ) : (fftwn t : (ι → CPix) → ι → CPix) = Np.fftn := by
  funext x; unfold fftwn Np.fftwForward Np.fftn dft; rfl

theorem ifftwn_eq (t : ℕ) : (ifftwn t : (ι → CPix) → ι → CPix) = Np.ifftn := by
  funext x i; unfold ifftwn Np.fftwBackward Np.ifftn idft
  split_ifs with h
  · simp only [Option.map_some]; congr 1; ring
  · rfl

theorem getFfts_eq (cfg : FFTConfig) :
    (getFfts cfg : ((ι → CPix) → ι → CPix) × ((ι → CPix) → ι → CPix)) = (Np.fftn, Np.ifftn) := by
  unfold getFfts
  split_ifs
  · rw [fftwn_eq, ifftwn_eq]
  · rfl
  · rfl

/-- multiply the spectrum by a kernel -/
noncomputable def filt (K : ι → ℂ) (x : ι → ℂ) : ι → ℂ := idft fun k => dft x k * K k

theorem filt_filt (K L x : ι → ℂ) : filt K (filt L x) = filt (fun k => L k * K k) x := by
  unfold filt; rw [dft_idft]; congr 1; funext k; ring

theorem filt_one (x : ι → ℂ) : filt (fun _ => 1) x = x := by
  unfold filt; simp [idft_dft]

theorem filt_add (K x y : ι → ℂ) : filt K (fun i => x i + y i) = fun i => filt K x i + filt K y i := by
  unfold filt; rw [dft_add]; simp_rw [add_mul]; rw [idft_add]

theorem filt_smul (K x : ι → ℂ) (c : ℂ) : filt K (fun i => c * x i) = fun i => c * filt K x i := by
  unfold filt; rw [dft_smul]; simp_rw [mul_assoc]; rw [idft_smul]

theorem filt_smul_kernel (K x : ι → ℂ) (c : ℂ) :
    filt (fun k => K k * c) x = fun i => c * filt K x i := by
  unfold filt; rw [← idft_smul]; congr 1; funext k; ring

/-- a character kernel rolls the array -/
theorem filt_conj_e (x : ι → ℂ) (z : ι) : filt (fun k => conj (e k z)) x = fun i => x (i - z) := by
  apply dft_injective
  unfold filt
  rw [dft_idft]
  funext k
  unfold dft
  rw [Finset.sum_mul, ← Equiv.sum_comp (Equiv.subRight z)]
  refine Finset.sum_congr rfl fun j _ => ?_
  simp only [Equiv.subRight_apply]
  have : e k j = e k (j - z) * e k z := by rw [← FFTIndex.e_add, sub_add_cancel]
  rw [this, map_mul]; ring

theorem sum_filt (K x : ι → ℂ) : ∑ i, filt K x i = (∑ i, x i) * K 0 := by
  have h : ∀ y : ι → ℂ, ∑ i, y i = dft y 0 := by
    intro y; unfold dft; simp [e_zero_left]
  rw [h (filt K x), h x]
  unfold filt
  rw [dft_idft]

theorem energy_filt (K x : ι → ℂ) (hK : ∀ k, ‖K k‖ = 1) :
    ∑ i, ‖filt K x i‖ ^ 2 = ∑ i, ‖x i‖ ^ 2 := by
  rw [parseval_normSq, parseval_normSq x]
  unfold filt
  rw [dft_idft]
  simp [hK]

theorem dft_real_neg (x : ι → ℝ) (k : ι) :
    dft (fun i => (x i : ℂ)) (-k) = conj (dft (fun i => (x i : ℂ)) k) := by
  unfold dft
  rw [map_sum]
  refine Finset.sum_congr rfl fun j _ => ?_
  rw [e_neg_left]; simp

theorem idft_real_of_herm (X : ι → ℂ) (h : ∀ k, X (-k) = conj (X k)) (i : ι) :
    ((idft X i).re : ℂ) = idft X i := by
  rw [← Complex.conj_eq_iff_re]
  unfold idft
  rw [map_mul, map_sum]
  congr 1
  · simp
  · rw [← Equiv.sum_comp (Equiv.neg ι)]
    refine Finset.sum_congr rfl fun k _ => ?_
    simp only [Equiv.neg_apply, map_mul, h, Complex.conj_conj, e_neg_left]

theorem filt_real (K : ι → ℂ) (x : ι → ℝ) (hK : ∀ k, K (-k) = conj (K k)) (i : ι) :
    ((filt K (fun i => (x i : ℂ)) i).re : ℂ) = filt K (fun i => (x i : ℂ)) i := by
  unfold filt
  apply idft_real_of_herm
  intro k
  rw [dft_real_neg, hK, map_mul]

/-- `np.exp(-1j*2*pi*g - 1j*phase)` -/
noncomputable def shiftKernel (g phase : ℝ) : ℂ :=
  Complex.exp (-I * 2 * Real.pi * (g : ℂ) - I * (phase : ℂ))

theorem shiftKernel_eq (g phase : ℝ) :
    shiftKernel g phase = ex (-g) * Complex.exp (-I * phase) := by
  unfold shiftKernel ex; rw [← Complex.exp_add]; congr 1; push_cast; ring

theorem shiftKernel_zero (g : ℝ) : shiftKernel g 0 = ex (-g) := by
  rw [shiftKernel_eq]; simp

theorem norm_shiftKernel (g phase : ℝ) : ‖shiftKernel g phase‖ = 1 := by
  rw [shiftKernel_eq, norm_mul, norm_ex, Complex.norm_exp]; simp

/-- the array with NaN pixels set to 0 -/
noncomputable def denan {ι : Type} (x : ι → CPix) : ι → ℂ := fun i => (x i).getD 0

@[simp] theorem denan_cArr {ι : Type} (x : ι → ℂ) : denan (cArr x) = x := rfl
@[simp] theorem denan_rArr {ι : Type} (x : ι → ℝ) : denan (rArr x) = fun i => (x i : ℂ) := rfl

theorem ite_nan (x : ι → CPix) [Decidable (Np.anyNaN x)] :
    (if Np.anyNaN x then Np.nanToNum x else x) = cArr (denan x) := by
  split_ifs with h
  · rfl
  · exact Np.eq_cArr_of_not_anyNaN h

theorem shiftReturn_real (ra : Bool) (x : ι → ℂ) :
    shiftReturn ra true (cArr x) = .real (realArr fun i => (x i).re) := by
  simp [shiftReturn]

theorem shiftReturn_cplx (x : ι → ℂ) :
    shiftReturn false false (cArr x) = .cplx (cArr x) := by
  simp [shiftReturn]

theorem shiftReturn_abs (x : ι → ℂ) :
    shiftReturn true false (cArr x) = .real (realArr fun i => ‖x i‖) := by
  simp [shiftReturn]

end generic

section two
variable {ny nx : ℕ} [NeZero ny] [NeZero nx]

noncomputable def freq2 (deltax deltay : ℝ) (k : Fin ny × Fin nx) : ℝ :=
  deltax * Np.fftfreq nx k.2 + deltay * Np.fftfreq ny k.1

theorem shift2d_eq (cfg : FFTConfig) (data : Fin ny × Fin nx → CPix) (deltax deltay phase : ℝ)
    (ra rr : Bool) : shift2d cfg data deltax deltay phase ra rr
      = shiftReturn ra rr (cArr (filt (fun k => shiftKernel (freq2 deltax deltay k) phase)
          (denan data))) := by
  unfold shift2d
  simp only [getFfts_eq, ite_nan, Np.fftn_cArr]
  rw [show (fun i : Fin ny × Fin nx => some (Complex.exp (-I * 2 * Real.pi *
      ((deltax * Np.fftfreq nx i.2 + deltay * Np.fftfreq ny i.1 : ℝ) : ℂ) - I * (phase : ℂ))))
      = cArr (fun k => shiftKernel (freq2 deltax deltay k) phase) from rfl]
  rw [Np.mul_cArr, Np.ifftn_cArr]; rfl

theorem freq2_add (a b c d : ℝ) (k : Fin ny × Fin nx) :
    freq2 (a + b) (c + d) k = freq2 a c k + freq2 b d k := by
  unfold freq2; ring

theorem freq2_zero (a b : ℝ) : freq2 a b (0 : Fin ny × Fin nx) = 0 := by
  simp [freq2]

theorem freq2_neg (a b : ℝ) (k : Fin ny × Fin nx) (h1 : Odd ny) (h2 : Odd nx) :
    freq2 a b (-k) = -freq2 a b k := by
  unfold freq2
  rw [Prod.snd_neg, Prod.fst_neg, Np.fftfreq_neg, Np.fftfreq_neg]
  · ring
  · intro h; rw [← h] at h1; exact (Nat.not_odd_iff_even.2 (even_two_mul _)) h1
  · intro h; rw [← h] at h2; exact (Nat.not_odd_iff_even.2 (even_two_mul _)) h2

theorem ex_freq2_int (dx dy : ℤ) (k : Fin ny × Fin nx) :
    ex (-freq2 (dx : ℝ) (dy : ℝ) k) = conj (e k (Spec.wrap ny dy, Spec.wrap nx dx)) := by
  unfold freq2
  rw [← conj_ex, ex_add, e_prod, mul_comm (ex _),
    Np.ex_int_mul_fftfreq dx k.2 _ (Spec.wrap_modEq nx dx).symm,
    Np.ex_int_mul_fftfreq dy k.1 _ (Spec.wrap_modEq ny dy).symm]

end two

section nd
variable {D : ℕ} {s : Fin D → ℕ} [∀ d, NeZero (s d)]

noncomputable def freqND (offset : List ℝ) (k : ∀ d, Fin (s d)) : ℝ :=
  (List.zipWith (fun off d => off * Np.fftfreq (s d) (k d)) offset (List.finRange D)).sum

theorem shiftnd_eq (cfg : FFTConfig) (data : (∀ d, Fin (s d)) → CPix) (offset : List ℝ)
    (phase : ℝ) (ra rr : Bool) : shiftnd cfg data offset phase ra rr
      = shiftReturn ra rr (cArr (filt (fun k => shiftKernel (freqND offset k) phase)
          (denan data))) := by
  unfold shiftnd
  simp only [getFfts_eq, ite_nan, Np.fftn_cArr]
  rw [show (fun i : (∀ d, Fin (s d)) => some (Complex.exp (-I * 2 * Real.pi *
      (((List.zipWith (fun off d => off * Np.fftfreq (s d) (i d)) offset (List.finRange D)).sum : ℝ)
        : ℂ) - I * (phase : ℂ))))
      = cArr (fun k => shiftKernel (freqND offset k) phase) from rfl]
  rw [Np.mul_cArr, Np.ifftn_cArr]; rfl

/-- the offset that axis `d` receives: surplus entries are dropped, missing ones are 0 -/
theorem freqND_eq_sum (offset : List ℝ) (k : ∀ d, Fin (s d)) :
    freqND offset k = ∑ d : Fin D, offset.getD d 0 * Np.fftfreq (s d) (k d) := by
  unfold freqND
  have hgen : ∀ (l : List ℝ) (ds : List (Fin D)), 
      (List.zipWith (fun off d => off * Np.fftfreq (s d) (k d)) l ds).sum
        = (List.zipWith (fun i d => l.getD i 0 * Np.fftfreq (s d) (k d)) (List.range ds.length) ds).sum := by
    intro l ds
    induction ds generalizing l with
    | nil => simp
    | cons d ds ih =>
      cases l with
      | nil =>
        have h := ih []
        simp only [List.zipWith_nil_left, List.sum_nil, List.getD_nil, zero_mul] at h
        simp only [List.zipWith_nil_left, List.sum_nil, List.getD_nil, zero_mul, List.length_cons,
          List.range_succ_eq_map, List.zipWith_cons_cons, List.zipWith_map_left, List.sum_cons,
          zero_add]
        exact h
      | cons a l =>
        simp only [List.zipWith_cons_cons, List.sum_cons, List.length_cons,
          List.range_succ_eq_map, List.getD_cons_zero, List.zipWith_map_left, Nat.succ_eq_add_one,
          List.getD_cons_succ]
        rw [ih]
  rw [hgen, List.length_finRange]
  have : List.zipWith (fun i d => offset.getD i 0 * Np.fftfreq (s d) (k d)) (List.range D) (List.finRange D)
      = (List.finRange D).map (fun d : Fin D => offset.getD d 0 * Np.fftfreq (s d) (k d)) := by
    apply List.ext_getElem
    · simp
    · intro i h1 h2; simp
  rw [this]
  rw [← List.ofFn_eq_map, List.sum_ofFn]

theorem freqND_ofFn (f : Fin D → ℝ) (k : ∀ d, Fin (s d)) :
    freqND (List.ofFn f) k = ∑ d : Fin D, f d * Np.fftfreq (s d) (k d) := by
  rw [freqND_eq_sum]
  refine Finset.sum_congr rfl fun d _ => ?_
  congr 1
  simp [List.getD]

theorem freqND_zero (offset : List ℝ) : freqND offset (0 : ∀ d, Fin (s d)) = 0 := by
  rw [freqND_eq_sum]; simp

theorem freqND_neg (offset : List ℝ) (k : ∀ d, Fin (s d)) (h : ∀ d, Odd (s d)) :
    freqND offset (-k) = -freqND offset k := by
  rw [freqND_eq_sum, freqND_eq_sum, ← Finset.sum_neg_distrib]
  refine Finset.sum_congr rfl fun d _ => ?_
  rw [Pi.neg_apply, Np.fftfreq_neg]
  · ring
  · intro hh; have := h d; rw [← hh] at this
    exact (Nat.not_odd_iff_even.2 (even_two_mul _)) this

theorem ex_sum {α : Type} (t : Finset α) (f : α → ℝ) : ex (∑ a ∈ t, f a) = ∏ a ∈ t, ex (f a) := by
  classical
  induction t using Finset.induction_on with
  | empty => simp
  | insert a t ha ih => rw [Finset.sum_insert ha, Finset.prod_insert ha, ex_add, ih]

theorem ex_freqND_int (z : Fin D → ℤ) (k : ∀ d, Fin (s d)) :
    ex (-freqND (List.ofFn fun d => (z d : ℝ)) k) = conj (e k (fun d => Spec.wrap (s d) (z d))) := by
  rw [freqND_ofFn, ← conj_ex, ex_sum, e_pi]
  congr 1
  refine Finset.prod_congr rfl fun d _ => ?_
  rw [Np.ex_int_mul_fftfreq (z d) (k d) _ (Spec.wrap_modEq (s d) (z d)).symm]

end nd

end ImgReg
