import Verif.Model.Correlate
import Verif.Lemmas.Zoom
import Mathlib.Algebra.BigOperators.Field

/-! # The padded FFT correlation in closed form -/

open Complex Finset

namespace ImgReg

/-- reversing an axis: the index `n-1-j` is `-1-j` modulo `n` -/
theorem rev_modEq {n : ℕ} (j : Fin n) : ((j.rev : ℕ) : ℤ) ≡ -1 - ((j : ℕ) : ℤ) [ZMOD n] := by
  have h : ((j.rev : ℕ) : ℤ) = -1 - ((j : ℕ) : ℤ) + n := by
    have := j.isLt
    rw [Fin.val_rev]; omega
  rw [h]; simp [Int.ModEq]

theorem ifftshift_modEq {n : ℕ} [NeZero n] (j : Fin n) :
    ((Np.ifftshiftIdx j : ℕ) : ℤ) ≡ ((j : ℕ) : ℤ) + ((n / 2 : ℕ) : ℤ) [ZMOD n] := by
  unfold Np.ifftshiftIdx
  refine (Fin.val_add_modEq _ _).trans ((Int.ModEq.refl _).add ?_)
  simp [Int.ModEq]

theorem zeroLag_eq (n : ℕ) [NeZero n] : ((Spec.zeroLag n : ℕ) : ℤ) = (n : ℤ) - 1 - ((n / 2 : ℕ) : ℤ) := by
  have := Nat.pos_of_ne_zero (NeZero.ne n)
  unfold Spec.zeroLag
  omega

/-- the index a pixel takes in the padded axis -/
def embIdx {n N : ℕ} (h : n ≤ N) (p : Fin n) : Fin N :=
  ⟨sliceStart N n + (p : ℕ), by unfold sliceStart; omega⟩

theorem place2_emb {ny nx Ny Nx : ℕ} (hy : ny ≤ Ny) (hx : nx ≤ Nx) (a : Fin ny × Fin nx → ℂ)
    (p : Fin ny × Fin nx) : place2 Ny Nx a (embIdx hy p.1, embIdx hx p.2) = a p := by
  have h1 := p.1.isLt
  have h2 := p.2.isLt
  unfold place2
  rw [dif_pos]
  · congr 1
    refine Prod.ext (Fin.ext ?_) (Fin.ext ?_) <;> simp [embIdx]
  · simp only [embIdx, sliceStart]
    omega

theorem place2_not_emb {ny nx Ny Nx : ℕ} (hy : ny ≤ Ny) (hx : nx ≤ Nx) (a : Fin ny × Fin nx → ℂ)
    (P : Fin Ny × Fin Nx) (hP : ∀ p : Fin ny × Fin nx, (embIdx hy p.1, embIdx hx p.2) ≠ P) :
    place2 Ny Nx a P = 0 := by
  unfold place2
  rw [dif_neg]
  intro h
  apply hP (⟨(P.1 : ℕ) - sliceStart Ny ny, by unfold sliceStart at *; omega⟩,
       ⟨(P.2 : ℕ) - sliceStart Nx nx, by unfold sliceStart at *; omega⟩)
  refine Prod.ext (Fin.ext ?_) (Fin.ext ?_) <;> (simp only [embIdx]; omega)

theorem embIdx_injective {ny nx Ny Nx : ℕ} (hy : ny ≤ Ny) (hx : nx ≤ Nx) :
    Function.Injective fun p : Fin ny × Fin nx => (embIdx hy p.1, embIdx hx p.2) := by
  intro p q h
  have h1 : (embIdx hy p.1 : ℕ) = embIdx hy q.1 := congrArg (fun z : Fin Ny × Fin Nx => (z.1 : ℕ)) h
  have h2 : (embIdx hx p.2 : ℕ) = embIdx hx q.2 := congrArg (fun z : Fin Ny × Fin Nx => (z.2 : ℕ)) h
  simp only [embIdx] at h1 h2
  exact Prod.ext (Fin.ext (by omega)) (Fin.ext (by omega))

/-- a sum against a padded array is a sum over the original pixels -/
theorem sum_place2 {ny nx Ny Nx : ℕ} (hy : ny ≤ Ny) (hx : nx ≤ Nx) (a : Fin ny × Fin nx → ℂ)
    (f : Fin Ny × Fin Nx → ℂ) :
    ∑ P, place2 Ny Nx a P * f P = ∑ p : Fin ny × Fin nx, a p * f (embIdx hy p.1, embIdx hx p.2) := by
  classical
  have hinj := embIdx_injective (Ny := Ny) (Nx := Nx) hy hx
  rw [← Finset.sum_subset (Finset.subset_univ (univ.image fun p : Fin ny × Fin nx => (embIdx hy p.1, embIdx hx p.2)))]
  · rw [Finset.sum_image fun p _ q _ h => hinj h]
    exact Finset.sum_congr rfl fun p _ => by rw [place2_emb]
  · intro P _ hP
    rw [place2_not_emb hy hx a P, zero_mul]
    intro p hp
    exact hP (Finset.mem_image.2 ⟨p, Finset.mem_univ _, hp⟩)

theorem place2_eq_sum {ny nx Ny Nx : ℕ} (hy : ny ≤ Ny) (hx : nx ≤ Nx) (a : Fin ny × Fin nx → ℂ)
    (P : Fin Ny × Fin Nx) :
    place2 Ny Nx a P = ∑ p : Fin ny × Fin nx, if (embIdx hy p.1, embIdx hx p.2) = P then a p else 0 := by
  have h := sum_place2 hy hx a (fun Q => if Q = P then 1 else 0)
  simp only [mul_ite, mul_one, mul_zero, Finset.sum_ite_eq', Finset.mem_univ, if_true] at h
  exact h

/-- which kernel pixel meets which array pixel -/
theorem meet_iff {n m N : ℕ} [NeZero N] (hn : n ≤ N) (hm : m ≤ N) (i p : Fin n) (q : Fin m) :
    embIdx hm q.rev = Np.ifftshiftIdx (embIdx hn i - embIdx hn p)
      ↔ ((q : ℕ) : ℤ) ≡ ((p : ℕ) : ℤ) + ((Spec.zeroLag m : ℤ) - ((i : ℕ) : ℤ)) [ZMOD N] := by
  have hq := q.isLt
  have h0 : embIdx hm q.rev = Np.ifftshiftIdx (embIdx hn i - embIdx hn p) ↔
      ((embIdx hm q.rev : ℕ) : ℤ) ≡ ((Np.ifftshiftIdx (embIdx hn i - embIdx hn p) : ℕ) : ℤ) [ZMOD N] :=
    ⟨fun h => by rw [h], Fin.eq_of_modEq⟩
  rw [h0]
  have h1 : ((Np.ifftshiftIdx (embIdx hn i - embIdx hn p) : ℕ) : ℤ) ≡ ((i : ℕ) : ℤ) - ((p : ℕ) : ℤ) + ((N / 2 : ℕ) : ℤ) [ZMOD N] := by
    refine (ifftshift_modEq _).trans (Int.ModEq.add_right _ ((Fin.val_sub_modEq _ _).trans ?_))
    simp only [embIdx]
    push_cast
    rw [add_sub_add_left_eq_sub]
  have h2 : ((embIdx hm q.rev : ℕ) : ℤ) = ((N / 2 : ℕ) : ℤ) + (Spec.zeroLag m : ℤ) - ((q : ℕ) : ℤ) := by
    simp only [embIdx, sliceStart, Fin.val_rev, Spec.zeroLag]
    omega
  rw [h2]
  constructor
  · intro h
    have h3 := (h.trans h1)
    have h4 := ((Int.ModEq.refl (((N / 2 : ℕ) : ℤ) + (Spec.zeroLag m : ℤ))).sub h3)
    have e1 : ((N / 2 : ℕ) : ℤ) + (Spec.zeroLag m : ℤ) - (((N / 2 : ℕ) : ℤ) + (Spec.zeroLag m : ℤ) - ((q : ℕ) : ℤ)) = ((q : ℕ) : ℤ) := by ring
    have e2 : ((N / 2 : ℕ) : ℤ) + (Spec.zeroLag m : ℤ) - (((i : ℕ) : ℤ) - ((p : ℕ) : ℤ) + ((N / 2 : ℕ) : ℤ))
      = ((p : ℕ) : ℤ) + ((Spec.zeroLag m : ℤ) - ((i : ℕ) : ℤ)) := by ring
    rwa [e1, e2] at h4
  · intro h
    refine Int.ModEq.trans ?_ h1.symm
    have h4 := ((Int.ModEq.refl (((N / 2 : ℕ) : ℤ) + (Spec.zeroLag m : ℤ))).sub h)
    have e2 : ((N / 2 : ℕ) : ℤ) + (Spec.zeroLag m : ℤ) - (((p : ℕ) : ℤ) + ((Spec.zeroLag m : ℤ) - ((i : ℕ) : ℤ)))
      = ((i : ℕ) : ℤ) - ((p : ℕ) : ℤ) + ((N / 2 : ℕ) : ℤ) := by ring
    rwa [e2] at h4

/-- correlation on a padded torus of shape `(Ny, Nx)`: pixel `p` of `a` meets pixel `q` of `b` at map pixel `i` when
`q = p + d` modulo the padded shape, with `d = zeroLag - i` -/
noncomputable def Spec.torusCorr {ny nx my mx : ℕ} (Ny Nx : ℕ) (a : Fin ny × Fin nx → ℝ) (b : Fin my × Fin mx → ℝ)
    (i : Fin ny × Fin nx) : ℝ :=
  ∑ p : Fin ny × Fin nx, ∑ q : Fin my × Fin mx,
    if (((q.1 : ℕ) : ℤ) ≡ ((p.1 : ℕ) : ℤ) + ((Spec.zeroLag my : ℤ) - ((i.1 : ℕ) : ℤ)) [ZMOD Ny]) ∧
      (((q.2 : ℕ) : ℤ) ≡ ((p.2 : ℕ) : ℤ) + ((Spec.zeroLag mx : ℤ) - ((i.2 : ℕ) : ℤ)) [ZMOD Nx])
    then a p * b q else 0

theorem correlate2dB_eq {ny nx my mx : ℕ} (cfg : FFTConfig) (bd : CorrBoundary) (ah : Bool)
    (a : Fin ny × Fin nx → Pix) (b : Fin my × Fin mx → Pix) (Ny Nx : ℕ)
    (hN : bd.newShape (ny, nx) (my, mx) = (Ny, Nx))
    (hs : ah = true ∨ 16 * (Ny * Nx) ≤ 10 ^ 9)
    (hy : ny ≤ Ny) (hx : nx ≤ Nx) (ky : my ≤ Ny) (kx : mx ≤ Nx) (h0 : Ny ≠ 0 ∧ Nx ≠ 0) :
    correlate2dB cfg bd ah a b = .ok (realArr (Spec.torusCorr Ny Nx (Spec.nan0 a) (Spec.nan0 b))) := by
  unfold correlate2dB convolveFft
  rw [hN]
  unfold convolveFftN
  have hc : (!ah && decide (10 ^ 9 < 16 * (Ny * Nx))) = false := by
    rcases hs with h | h
    · simp [h]
    · simp only [Bool.and_eq_false_imp, decide_eq_false_iff_not]; intro _; omega
  have hd : ((ny ≤ Ny ∧ nx ≤ Nx) ∧ my ≤ Ny ∧ mx ≤ Nx) ∧ Ny ≠ 0 ∧ Nx ≠ 0 := ⟨⟨⟨hy, hx⟩, ky, kx⟩, h0⟩
  have : NeZero Ny := ⟨h0.1⟩
  have : NeZero Nx := ⟨h0.2⟩
  simp only [hc, Bool.false_eq_true, if_false]
  rw [dif_pos hd]
  simp only [getFfts_eq, Np.fftn_cArr, Np.mul_cArr, Np.ifftn_cArr, idft_mul_dft, Np.real_cArr]
  congr 1
  funext i
  show some _ = some _
  congr 1
  have key := sum_place2 hy hx (fun i => ((Spec.nan0 a i : ℝ) : ℂ))
    (fun P => Np.ifftshift2 (place2 Ny Nx fun i => ((Spec.nan0 b (i.1.rev, i.2.rev) : ℝ) : ℂ))
      ((embIdx hy i.1, embIdx hx i.2) - P))
  refine (congrArg Complex.re key).trans ?_
  unfold Spec.torusCorr
  rw [Complex.re_sum]
  refine Finset.sum_congr rfl fun p _ => ?_
  unfold Np.ifftshift2
  rw [place2_eq_sum ky kx, Finset.mul_sum, Complex.re_sum]
  have hrev : Function.Bijective fun q : Fin my × Fin mx => (q.1.rev, q.2.rev) :=
    ⟨fun q r h => by
      simp only [Prod.mk.injEq, Fin.rev_inj] at h
      exact Prod.ext h.1 h.2, fun q => ⟨(q.1.rev, q.2.rev), by simp⟩⟩
  rw [← Fintype.sum_bijective _ hrev _ _ fun _ => rfl]
  refine Finset.sum_congr rfl fun q _ => ?_
  simp only [Fin.rev_rev, Prod.mk.injEq]
  have e1 := meet_iff hy ky i.1 p.1 q.1
  have e2 := meet_iff hx kx i.2 p.2 q.2
  simp only [Prod.fst_sub, Prod.snd_sub, e1, e2]
  split_ifs
  · rw [← Complex.ofReal_mul, Complex.ofReal_re]
  · simp

theorem correlate2dB_huge {ny nx my mx : ℕ} (cfg : FFTConfig) (bd : CorrBoundary) (ah : Bool)
    (a : Fin ny × Fin nx → Pix) (b : Fin my × Fin mx → Pix) (Ny Nx : ℕ)
    (hN : bd.newShape (ny, nx) (my, mx) = (Ny, Nx)) (hs : ¬ (ah = true ∨ 16 * (Ny * Nx) ≤ 10 ^ 9)) :
    correlate2dB cfg bd ah a b = .error .valueError := by
  unfold correlate2dB convolveFft
  rw [hN]
  unfold convolveFftN
  have hc : (!ah && decide (10 ^ 9 < 16 * (Ny * Nx))) = true := by
    push Not at hs
    simp only [Bool.and_eq_true, Bool.not_eq_true', decide_eq_true_eq]
    exact ⟨by simpa using hs.1, hs.2⟩
  simp only [hc, if_true]

end ImgReg
