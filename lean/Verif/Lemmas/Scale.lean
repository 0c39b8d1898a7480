import Verif.Model.Scale
import Verif.Lemmas.Shift

/-!
# Lemmas about Fourier interpolation
-/

open Complex Finset
open scoped ComplexConjugate

namespace ImgReg

section one
variable {n : ℕ} [NeZero n]

/-- the 1-D Fourier interpolant at the real coordinate `t` -/
noncomputable def interpC (x : Fin n → ℂ) (t : ℝ) : ℂ :=
  ∑ k, idft x k * ex (-(Np.fftfreq n k * t))

theorem kern_eq (a b : ℝ) :
    Complex.exp ((-I * 2 * Real.pi) * (a : ℂ) * (b : ℂ)) = ex (-(a * b)) := by
  unfold ex; congr 1; push_cast; ring

theorem kern_eq' (a : ℝ) :
    Complex.exp ((-I * 2 * Real.pi) * (a : ℂ)) = ex (-a) := by
  unfold ex; congr 1; push_cast; ring

/-- wrap a complex vector according to `return_real` -/
noncomputable def retReal {ι : Type} (rr : Bool) (c : ι → ℂ) : NdOut ι :=
  if rr then .real (realArr fun i => (c i).re) else .cplx (cArr c)

theorem fourierInterp1d_none (cfg : FFTConfig) (x : Fin n → ℂ) (outX : Arr) (h : outX.ndim = 1)
    (rr : Bool) : fourierInterp1d cfg (cArr x) outX none rr
      = .ok ⟨outX.dim 0, retReal rr fun i => interpC x (outX.val [i])⟩ := by
  unfold fourierInterp1d
  simp only [h, getFfts_eq, ne_eq, not_true_eq_false, if_false, Np.ifftn_cArr, kern_eq]
  rw [show (fun i : Fin n × Fin (outX.dim 0) => some (ex (-(Np.fftfreq n i.1 * outX.val [(i.2 : ℕ)]))))
    = cArr (fun i : Fin n × Fin (outX.dim 0) => ex (-(Np.fftfreq n i.1 * outX.val [(i.2 : ℕ)]))) from rfl]
  rw [Np.dotV_cArr]
  unfold retReal interpC
  cases rr <;> simp

theorem fourierInterp1d_some (cfg : FFTConfig) (x : Fin n → ℂ) (outX dx : Arr) (h : outX.ndim = 1)
    (hd : dx.shape = [n]) (rr : Bool) : fourierInterp1d cfg (cArr x) outX (some dx) rr
      = .ok ⟨outX.dim 0, retReal rr fun i => interpC x (Np.interp (outX.val [i])
          (fun j : Fin n => dx.val [j]) (fun j : Fin n => ((j : ℕ) : ℝ)))⟩ := by
  unfold fourierInterp1d
  simp only [h, hd, getFfts_eq, ne_eq, not_true_eq_false, if_false, Np.ifftn_cArr, kern_eq]
  rw [show (fun i : Fin n × Fin (outX.dim 0) => some (ex (-(Np.fftfreq n i.1 * (Np.interp (outX.val [(i.2:ℕ)])
          (fun j : Fin n => dx.val [(j:ℕ)]) (fun j : Fin n => ((j : ℕ) : ℝ)))))))
    = cArr (fun i : Fin n × Fin (outX.dim 0) => ex (-(Np.fftfreq n i.1 * (Np.interp (outX.val [(i.2:ℕ)])
          (fun j : Fin n => dx.val [(j:ℕ)]) (fun j : Fin n => ((j : ℕ) : ℝ)))))) from rfl]
  rw [Np.dotV_cArr]
  unfold retReal interpC
  cases rr <;> simp

theorem fourierInterp1d_vec (cfg : FFTConfig) (x : Fin n → ℂ) {m : ℕ} (t : Fin m → ℝ)
    (rr : Bool) : fourierInterp1d cfg (cArr x) (Arr.ofVec t) none rr
      = .ok ⟨m, retReal rr fun i => interpC x (t i)⟩ := by
  rw [fourierInterp1d_none _ _ _ rfl]
  show (Except.ok (Out1.mk m (retReal rr fun i : Fin m => interpC x ((Arr.ofVec t).val [i]))) :
    Py Out1) = _
  simp only [Arr.ofVec_val]

theorem fourierInterp1d_vec_some (cfg : FFTConfig) (x : Fin n → ℂ) {m : ℕ} (t : Fin m → ℝ)
    (dx : Fin n → ℝ) (rr : Bool) :
    fourierInterp1d cfg (cArr x) (Arr.ofVec t) (some (Arr.ofVec dx)) rr
      = .ok ⟨m, retReal rr fun i => interpC x (Np.interp (t i) dx
          (fun j : Fin n => ((j : ℕ) : ℝ)))⟩ := by
  rw [fourierInterp1d_some _ _ _ _ rfl rfl]
  show (Except.ok (Out1.mk m (retReal rr fun i : Fin m => interpC x (Np.interp
    ((Arr.ofVec t).val [i]) (fun j : Fin n => (Arr.ofVec dx).val [j])
          (fun j : Fin n => ((j : ℕ) : ℝ))))) : Py Out1) = _
  simp only [Arr.ofVec_val]

theorem interpC_int (x : Fin n → ℂ) (z : ℤ) : interpC x z = x (Spec.wrap n z) := by
  unfold interpC
  have h : ∀ k : Fin n, ex (-(Np.fftfreq n k * (z : ℝ))) = conj (e k (Spec.wrap n z)) := by
    intro k
    rw [← conj_ex, mul_comm, Np.ex_int_mul_fftfreq z k _ (Spec.wrap_modEq n z).symm]
  simp_rw [h, FFTIndex.e_symm _ (Spec.wrap n z)]
  have := congrFun (dft_idft x) (Spec.wrap n z)
  rw [← this]; rfl

theorem interpC_add_period (x : Fin n → ℂ) (t : ℝ) (c : ℤ) :
    interpC x (t + c * n) = interpC x t := by
  unfold interpC
  refine Finset.sum_congr rfl fun k _ => ?_
  congr 1
  apply ex_congr
  refine ⟨-(Np.fftfreqInt n k * c), ?_⟩
  rw [Np.fftfreq_eq]
  have hn : (n : ℝ) ≠ 0 := nR_ne_zero
  push_cast
  field_simp
  ring

theorem interpC_add (x y : Fin n → ℂ) (t : ℝ) :
    interpC (fun i => x i + y i) t = interpC x t + interpC y t := by
  unfold interpC; rw [idft_add]; simp [add_mul, Finset.sum_add_distrib]

theorem interpC_smul (x : Fin n → ℂ) (c : ℂ) (t : ℝ) :
    interpC (fun i => c * x i) t = c * interpC x t := by
  unfold interpC; rw [idft_smul]; simp [mul_assoc, Finset.mul_sum]

theorem interpC_sum {ι : Type} (T : Finset ι) (x : ι → Fin n → ℂ) (t : ℝ) :
    interpC (fun i => ∑ a ∈ T, x a i) t = ∑ a ∈ T, interpC (x a) t := by
  classical
  induction T using Finset.induction_on with
  | empty => simp [interpC, idft]
  | insert a T ha ih => simp only [Finset.sum_insert ha, interpC_add, ih]

/-- in range, the frequency of an index is the integer itself -/
theorem fftfreqInt_wrap (m : ℤ) (h : 2 * |m| < n) : Np.fftfreqInt n (Spec.wrap n m) = m := by
  have h1 : Np.fftfreqInt n (Spec.wrap n m) ≡ m [ZMOD n] :=
    (Np.fftfreqInt_modEq _ _ (Spec.wrap n m).isLt).trans (Spec.wrap_modEq n m)
  have h2 := Np.two_fftfreqInt_lt n _ (Spec.wrap n m).isLt
  have h3 := Np.neg_le_two_fftfreqInt n _ (Spec.wrap n m).isLt
  have h4 := abs_lt.1 (show |2 * m| < (n : ℤ) by rw [abs_mul]; exact h)
  obtain ⟨c, hc⟩ := h1.symm.dvd
  have hpos : (0 : ℤ) < n := by
    have := NeZero.ne n; omega
  have hc1 : c < 1 := by
    by_contra h
    have : (n : ℤ) ≤ n * c := by nlinarith
    omega
  have hc2 : -1 < c := by
    by_contra h
    have : (n : ℤ) * c ≤ -(n : ℤ) := by nlinarith
    omega
  have : c = 0 := by omega
  subst this
  omega

theorem idft_char (l k : Fin n) : idft (fun i => conj (e l i)) k = if k = l then 1 else 0 := by
  unfold idft
  have : ∀ j : Fin n, conj (e l j) * e j k = e (k - l) j := by
    intro j
    rw [FFTIndex.e_symm j k, sub_eq_add_neg, e_add_left, e_neg_left]; ring
  simp_rw [this, e_orth_right, sub_eq_zero]
  have hc := card_ne_zero' (ι := Fin n)
  split_ifs
  · field_simp
  · simp

theorem e_wrap_fin (m : ℤ) (j : Fin n) :
    e (Spec.wrap n m) j = ex ((m : ℝ) * ((j : ℕ) : ℝ) / n) := by
  rw [e_fin]
  have := ex_div_congr ((Spec.wrap_modEq n m).mul_right (((j : ℕ) : ℤ)))
  push_cast at this
  exact this

theorem interpC_exp (m : ℤ) (h : 2 * |m| < n) (t : ℝ) :
    interpC (fun j : Fin n => ex ((m : ℝ) * ((j : ℕ) : ℝ) / n)) t = ex ((m : ℝ) * t / n) := by
  have hx : (fun j : Fin n => ex ((m : ℝ) * ((j : ℕ) : ℝ) / n))
      = fun j => conj (e (Spec.wrap n (-m)) j) := by
    funext j
    rw [e_wrap_fin, conj_ex]; congr 1; push_cast; ring
  rw [hx]
  unfold interpC
  simp_rw [idft_char]
  rw [Finset.sum_eq_single (Spec.wrap n (-m))]
  · rw [if_pos rfl, one_mul, Np.fftfreq_eq, fftfreqInt_wrap (-m) (by rw [abs_neg]; exact h)]
    congr 1; push_cast; ring
  · intro k _ hk; simp [hk]
  · simp

end one

section two
variable {ny nx : ℕ} [NeZero ny] [NeZero nx]

theorem idft_sum {ι α : Type} [AddCommGroup ι] [Fintype ι] [DecidableEq ι] [FFTIndex ι]
    (T : Finset α) (f : α → ι → ℂ) (k : ι) :
    idft (fun i => ∑ a ∈ T, f a i) k = ∑ a ∈ T, idft (f a) k := by
  unfold idft
  simp_rw [Finset.sum_mul]
  rw [Finset.sum_comm, Finset.mul_sum]

theorem idft_mul_const {ι : Type} [AddCommGroup ι] [Fintype ι] [DecidableEq ι] [FFTIndex ι]
    (f : ι → ℂ) (c : ℂ) (k : ι) : idft (fun i => f i * c) k = idft f k * c := by
  simp_rw [mul_comm _ c]
  rw [idft_smul]

/-- the 2-D Fourier interpolant at `(ty, tx)` -/
noncomputable def interp2C (x : Fin ny × Fin nx → ℂ) (ty tx : ℝ) : ℂ :=
  ∑ k, idft x k * ex (-(Np.fftfreq ny k.1 * ty)) * ex (-(Np.fftfreq nx k.2 * tx))

theorem interp2C_sep (x : Fin ny × Fin nx → ℂ) (ty tx : ℝ) :
    interp2C x ty tx = interpC (fun j => interpC (fun i => x (i, j)) ty) tx := by
  have h : ∀ k : Fin ny × Fin nx, idft x k = idft (fun j => idft (fun i => x (i, j)) k.1) k.2 := by
    intro k
    rw [idft_prod]
    unfold idft
    simp_rw [Finset.mul_sum, Finset.sum_mul, Finset.mul_sum]
    rw [Finset.sum_comm]
    refine Finset.sum_congr rfl fun i _ => Finset.sum_congr rfl fun j _ => by ring
  unfold interp2C
  rw [Fintype.sum_prod_type, Finset.sum_comm]
  have hr : ∀ k2 : Fin nx, idft (fun j => interpC (fun i => x (i, j)) ty) k2
      = ∑ k1, idft (fun j => idft (fun i => x (i, j)) k1) k2 * ex (-(Np.fftfreq ny k1 * ty)) := by
    intro k2
    unfold interpC
    rw [idft_sum]
    refine Finset.sum_congr rfl fun k1 _ => ?_
    rw [idft_mul_const]
  rw [interpC]
  refine Finset.sum_congr rfl fun k2 _ => ?_
  rw [hr, Finset.sum_mul]
  refine Finset.sum_congr rfl fun k1 _ => ?_
  rw [h]

theorem interp2C_int (x : Fin ny × Fin nx → ℂ) (zy zx : ℤ) :
    interp2C x zy zx = x (Spec.wrap ny zy, Spec.wrap nx zx) := by
  rw [interp2C_sep]
  simp_rw [interpC_int]

theorem fourierInterp2d_ok (cfg : FFTConfig) (x : Fin ny × Fin nx → ℂ) (o : OutInds)
    (hc : checkOutInds o = .ok ()) (vy vx : Vec) (hy : coordY o = .ok vy) (hx : coordX o = .ok vx)
    (rr : Bool) : fourierInterp2d cfg (cArr x) o rr
      = .ok ⟨vy.1, vx.1, retReal rr fun i => interp2C x (vy.2 i.1) (vx.2 i.2)⟩ := by
  unfold fourierInterp2d
  simp only [hc, hy, hx, getFfts_eq, Np.ifftn_cArr, kern_eq', Except.bind, bind, pure, Except.pure]
  rw [show (fun i : Fin vy.1 × Fin ny => some (ex (-(Np.fftfreq ny i.2 * vy.2 i.1))))
    = cArr (fun i : Fin vy.1 × Fin ny => ex (-(Np.fftfreq ny i.2 * vy.2 i.1))) from rfl,
    show (fun i : Fin nx × Fin vx.1 => some (ex (-(Np.fftfreq nx i.1 * vx.2 i.2))))
    = cArr (fun i : Fin nx × Fin vx.1 => ex (-(Np.fftfreq nx i.1 * vx.2 i.2))) from rfl]
  rw [Np.dot_cArr, Np.dot_cArr]
  have : (fun i : Fin vy.1 × Fin vx.1 => ∑ l, (∑ l_1, ex (-(Np.fftfreq ny l_1 * vy.2 i.1)) *
      idft x (l_1, l)) * ex (-(Np.fftfreq nx l * vx.2 i.2)))
      = fun i : Fin vy.1 × Fin vx.1 => interp2C x (vy.2 i.1) (vx.2 i.2) := by
    funext i
    unfold interp2C
    rw [Fintype.sum_prod_type, Finset.sum_comm]
    refine Finset.sum_congr rfl fun k2 _ => ?_
    rw [Finset.sum_mul]
    exact Finset.sum_congr rfl fun k1 _ => by ring
  simp only [this]
  unfold retReal
  cases rr <;> simp

theorem fourierInterpnd2_ok (cfg : FFTConfig) (x : Fin ny × Fin nx → ℂ) (o : OutInds)
    (hc : checkOutInds o = .ok ()) (vy vx : Vec) (hy : coordY o = .ok vy) (hx : coordX o = .ok vx)
    (rr : Bool) : fourierInterpnd2 cfg (cArr x) o rr
      = .ok ⟨vy.1, vx.1, retReal rr fun i => interp2C x (vy.2 i.1) (vx.2 i.2)⟩ := by
  unfold fourierInterpnd2
  simp only [hc, hy, hx, getFfts_eq, Np.ifftn_cArr, kern_eq', Except.bind, bind, pure, Except.pure]
  rw [show (fun i : Fin ny × Fin vy.1 => some (ex (-(Np.fftfreq ny i.1 * vy.2 i.2))))
    = cArr (fun i : Fin ny × Fin vy.1 => ex (-(Np.fftfreq ny i.1 * vy.2 i.2))) from rfl]
  rw [show Np.swap (fun i : Fin vx.1 × Fin nx => some (ex (-(Np.fftfreq nx i.2 * vx.2 i.1))))
    = cArr (fun i : Fin nx × Fin vx.1 => ex (-(Np.fftfreq nx i.1 * vx.2 i.2))) from rfl]
  rw [show Np.swap (cArr (idft x)) = cArr (fun i : Fin nx × Fin ny => idft x (i.2, i.1)) from rfl]
  rw [Np.dot_cArr]
  rw [show ∀ f : Fin nx × Fin vy.1 → ℂ, Np.swap (cArr f) = cArr (fun i => f (i.2, i.1)) from
    fun _ => rfl]
  rw [Np.dot_cArr]
  have : (fun i : Fin vy.1 × Fin vx.1 => ∑ l, (∑ l_1, idft x (l_1, l) * ex (-(Np.fftfreq ny l_1 * vy.2 i.1))) * ex (-(Np.fftfreq nx l * vx.2 i.2)))
      = fun i : Fin vy.1 × Fin vx.1 => interp2C x (vy.2 i.1) (vx.2 i.2) := by
    funext i
    unfold interp2C
    rw [Fintype.sum_prod_type, Finset.sum_comm]
    refine Finset.sum_congr rfl fun k2 _ => ?_
    rw [Finset.sum_mul]
  simp only [this]
  unfold retReal
  cases rr <;> simp

end two

/-! ### interpolation at displaced coordinates is the conjugate of the shift -/

section conjugate
variable {ι : Type} [AddCommGroup ι] [Fintype ι] [DecidableEq ι] [FFTIndex ι]

theorem conj_filt_real (g : ι → ℝ) (x : ι → ℝ) (i : ι) :
    conj (filt (fun k => ex (-(g k))) (fun i => (x i : ℂ)) i)
      = ∑ k, idft (fun i => (x i : ℂ)) k * (conj (e k i) * ex (g k)) := by
  unfold filt
  conv_lhs => unfold idft
  rw [map_mul, map_sum, Finset.mul_sum]
  refine Finset.sum_congr rfl fun k _ => ?_
  unfold dft idft
  simp only [map_mul, map_sum, conj_ex, neg_neg, Complex.conj_conj, Complex.conj_ofReal, map_div₀,
    map_one, map_natCast]
  rw [show ∑ x_1, (x x_1 : ℂ) * e x_1 k = ∑ x_1, (x x_1 : ℂ) * e k x_1 from
    Finset.sum_congr rfl fun j _ => by rw [FFTIndex.e_symm]]
  ring

theorem interpC_displaced {n : ℕ} [NeZero n] (x : Fin n → ℝ) (d : ℝ) (i : Fin n) :
    interpC (fun i => (x i : ℂ)) (((i : ℕ) : ℝ) - d)
      = conj (filt (fun k => ex (-(d * Np.fftfreq n k))) (fun i => (x i : ℂ)) i) := by
  rw [conj_filt_real (fun k => d * Np.fftfreq n k)]
  unfold interpC
  refine Finset.sum_congr rfl fun k _ => ?_
  congr 1
  have := Np.ex_int_mul_fftfreq ((i : ℕ) : ℤ) k i rfl
  rw [← this, conj_ex, ← ex_add]
  congr 1; push_cast; ring

theorem interp2C_displaced {ny nx : ℕ} [NeZero ny] [NeZero nx] (x : Fin ny × Fin nx → ℝ)
    (dy dx : ℝ) (i : Fin ny × Fin nx) :
    interp2C (fun i => (x i : ℂ)) (((i.1 : ℕ) : ℝ) - dy) (((i.2 : ℕ) : ℝ) - dx)
      = conj (filt (fun k => ex (-(freq2 dx dy k))) (fun i => (x i : ℂ)) i) := by
  rw [conj_filt_real (fun k => freq2 dx dy k)]
  unfold interp2C
  refine Finset.sum_congr rfl fun k _ => ?_
  rw [mul_assoc]
  congr 1
  have h1 := Np.ex_int_mul_fftfreq ((i.1 : ℕ) : ℤ) k.1 i.1 rfl
  have h2 := Np.ex_int_mul_fftfreq ((i.2 : ℕ) : ℤ) k.2 i.2 rfl
  rw [e_prod, ← h1, ← h2, map_mul, conj_ex, conj_ex, ← ex_add, ← ex_add, ← ex_add]
  congr 1; unfold freq2; push_cast; ring

end conjugate

end ImgReg
