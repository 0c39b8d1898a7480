import Verif.Model.Register
import Verif.Lemmas.Chi2Recover
import Verif.Lemmas.Upsample
import Mathlib.Analysis.Convex.StrictConvexSpace
import Mathlib.Analysis.Complex.Convex
import Mathlib.Analysis.InnerProductSpace.Convex

/-! # Lemmas about the model of `register_images` -/

open Complex Finset
open scoped ComplexConjugate

namespace ImgReg

section
variable {ny nx : ℕ} [NeZero ny] [NeZero nx]

/-- the correlation of `a` with `b` shifted (complex Fourier shift) by `(ty, tx)` -/
noncomputable def Spec.cc (a b : Fin ny × Fin nx → ℝ) (ty tx : ℝ) : ℂ :=
  ∑ p, (a p : ℂ) * conj (cshift ty tx b p)

theorem dft_cshift (t u : ℝ) (b : Fin ny × Fin nx → ℝ) :
    dft (cshift t u b) = fun k => dft (fun p => (b p : ℂ)) k * ex (-(freq2 u t k)) := by
  unfold cshift filt; rw [dft_idft]

theorem cc_fourier (a b : Fin ny × Fin nx → ℝ) (ty tx : ℝ) :
    Spec.cc a b ty tx = (1 / (Fintype.card (Fin ny × Fin nx) : ℂ)) *
      ∑ k, dft (fun p => (a p : ℂ)) k * conj (dft (fun p => (b p : ℂ)) k) * ex (freq2 tx ty k) := by
  unfold Spec.cc
  rw [parseval, dft_cshift]
  congr 1
  refine Finset.sum_congr rfl fun k _ => ?_
  rw [map_mul, conj_ex, neg_neg, mul_assoc]

theorem idft_cross (a b : Fin ny × Fin nx → ℝ) (r : Fin ny × Fin nx) :
    idft (fun k => dft (fun p => (a p : ℂ)) k * conj (dft (fun p => (b p : ℂ)) k)) r
      = Spec.cc a b ((r.1 : ℕ) : ℝ) ((r.2 : ℕ) : ℝ) := by
  rw [cc_fourier]
  unfold idft
  congr 1
  refine Finset.sum_congr rfl fun k _ => ?_
  congr 1
  have h1 := Np.ex_int_mul_fftfreq ((r.1 : ℕ) : ℤ) k.1 r.1 rfl
  have h2 := Np.ex_int_mul_fftfreq ((r.2 : ℕ) : ℤ) k.2 r.2 rfl
  rw [e_prod, ← h1, ← h2, ← ex_add]
  unfold freq2
  congr 1; push_cast; ring

/-! ### the twice larger array -/

theorem fftshiftIdx_val {n : ℕ} [NeZero n] (k : Fin n) :
    ((Np.fftshiftIdx k : Fin n) : ℕ) = if n / 2 ≤ (k : ℕ) then (k : ℕ) - n / 2 else k + n - n / 2 := by
  have hn := Nat.pos_of_ne_zero (NeZero.ne n)
  have hk := k.isLt
  unfold Np.fftshiftIdx
  have h2 : ((Fin.ofNat n (n / 2) : Fin n) : ℕ) = n / 2 := by
    show n / 2 % n = n / 2
    exact Nat.mod_eq_of_lt (by omega)
  rw [Fin.sub_def]
  simp only [h2]
  split_ifs with h
  · rw [show n - n / 2 + (k : ℕ) = (k - n / 2) + n by omega, Nat.add_mod_right, Nat.mod_eq_of_lt (by omega)]
  · rw [Nat.mod_eq_of_lt (by omega)]; omega

/-- the large-array index of a signed frequency -/
theorem wrap_freq_val {n : ℕ} [NeZero n] (k : Fin n) :
    ((Spec.wrap (2 * n) (Np.fftfreqInt n k) : Fin (2 * n)) : ℕ)
      = if 2 * (k : ℕ) < n then (k : ℕ) else k + n := by
  have hk := k.isLt
  have h : Spec.wrap (2 * n) (Np.fftfreqInt n k)
      = ⟨if 2 * (k : ℕ) < n then (k : ℕ) else k + n, by split_ifs <;> omega⟩ := by
    rw [Spec.wrap_eq_iff, Np.fftfreqInt_eq n k hk]
    split_ifs with h
    · rfl
    · refine Int.modEq_iff_dvd.2 ⟨1, ?_⟩
      push_cast; ring
  rw [h]

theorem ccLarge_axis {n : ℕ} [NeZero n] (K : Fin (2 * n)) :
    (∀ _ : n - n / 2 ≤ ((Np.ifftshiftIdx K : Fin (2 * n)) : ℕ) ∧
        ((Np.ifftshiftIdx K : Fin (2 * n)) : ℕ) < n + (n - 1) / 2 + 1,
      ∀ (hlt : ((Np.ifftshiftIdx K : Fin (2 * n)) : ℕ) - (n - n / 2) < n) (k : Fin n),
        Spec.wrap (2 * n) (Np.fftfreqInt n k) = K
          ↔ k = Np.fftshiftIdx ⟨((Np.ifftshiftIdx K : Fin (2 * n)) : ℕ) - (n - n / 2), hlt⟩) ∧
    (¬ (n - n / 2 ≤ ((Np.ifftshiftIdx K : Fin (2 * n)) : ℕ) ∧
        ((Np.ifftshiftIdx K : Fin (2 * n)) : ℕ) < n + (n - 1) / 2 + 1) →
      ∀ k : Fin n, Spec.wrap (2 * n) (Np.fftfreqInt n k) ≠ K) := by
  have hn := Nat.pos_of_ne_zero (NeZero.ne n)
  have hK := K.isLt
  have hI : ((Np.ifftshiftIdx K : Fin (2 * n)) : ℕ) = if (K : ℕ) < n then (K : ℕ) + n else K - n := by
    rw [ifftshiftIdx_val, show 2 * n / 2 = n by omega]
    split_ifs with h
    · exact Nat.mod_eq_of_lt (by omega)
    · rw [Nat.mod_eq_sub_mod (by omega), Nat.mod_eq_of_lt (by omega)]; omega
  rw [hI]
  constructor
  · intro h hlt k
    have hk := k.isLt
    rw [Fin.ext_iff, Fin.ext_iff, wrap_freq_val, fftshiftIdx_val]
    simp only
    split_ifs at h ⊢ <;> omega
  · intro h k hc
    have hk := k.isLt
    rw [Fin.ext_iff, wrap_freq_val] at hc
    split_ifs at h hc <;> omega

/-- the large spectrum: every coefficient keeps its signed frequency -/
theorem ifftshift_ccLarge (A B : Fin ny × Fin nx → ℂ) :
    Np.ifftshift2 (ccLarge (cArr A) (cArr B)) = cArr fun K => ∑ k : Fin ny × Fin nx,
      if Spec.wrap (2 * ny) (Np.fftfreqInt ny k.1) = K.1 ∧ Spec.wrap (2 * nx) (Np.fftfreqInt nx k.2) = K.2
        then A k * conj (B k) else 0 := by
  funext K
  unfold Np.ifftshift2 ccLarge
  simp only [cArr]
  obtain ⟨a1, a2⟩ := ccLarge_axis (n := ny) K.1
  obtain ⟨b1, b2⟩ := ccLarge_axis (n := nx) K.2
  split_ifs with h
  · have ha := a1 h.1 (by have := Nat.pos_of_ne_zero (NeZero.ne ny); omega)
    have hb := b1 h.2 (by have := Nat.pos_of_ne_zero (NeZero.ne nx); omega)
    rw [Finset.sum_eq_single (Np.fftshiftIdx ⟨((Np.ifftshiftIdx K.1 : Fin (2 * ny)) : ℕ) - (ny - ny / 2), by
        have := Nat.pos_of_ne_zero (NeZero.ne ny); omega⟩,
      Np.fftshiftIdx ⟨((Np.ifftshiftIdx K.2 : Fin (2 * nx)) : ℕ) - (nx - nx / 2), by have := Nat.pos_of_ne_zero (NeZero.ne nx); omega⟩)]
    · rw [if_pos ⟨(ha _).2 rfl, (hb _).2 rfl⟩]
      rfl
    · intro k _ hk
      rw [if_neg]
      rintro ⟨h1, h2⟩
      exact hk (Prod.ext ((ha _).1 h1) ((hb _).1 h2))
    · intro h; exact absurd (mem_univ _) h
  · congr 1
    symm
    refine Finset.sum_eq_zero fun k _ => ?_
    rw [if_neg]
    rintro ⟨h1, h2⟩
    by_cases hy : ny - ny / 2 ≤ ((Np.ifftshiftIdx K.1 : Fin (2 * ny)) : ℕ) ∧
        ((Np.ifftshiftIdx K.1 : Fin (2 * ny)) : ℕ) < ny + (ny - 1) / 2 + 1
    · exact b2 (fun hx => h ⟨hy, hx⟩) _ h2
    · exact a2 hy _ h1

theorem e_wrap_freq {n : ℕ} [NeZero n] (k : Fin n) (j : Fin (2 * n)) :
    e (Spec.wrap (2 * n) (Np.fftfreqInt n k)) j = ex (Np.fftfreq n k * (((j : ℕ) : ℝ) / 2)) := by
  rw [e_fin, Np.fftfreq_eq]
  have h := (Spec.wrap_modEq (2 * n) (Np.fftfreqInt n k)).mul_right ((j : ℕ) : ℤ)
  have h2 := ex_div_congr h
  push_cast at h2 ⊢
  rw [h2]
  congr 1
  have hn : (n : ℝ) ≠ 0 := by exact_mod_cast NeZero.ne n
  field_simp

theorem idft_ccLarge (a b : Fin ny × Fin nx → ℝ) (j : Fin (2 * ny) × Fin (2 * nx)) :
    idft (fun K : Fin (2 * ny) × Fin (2 * nx) => ∑ k : Fin ny × Fin nx,
      if Spec.wrap (2 * ny) (Np.fftfreqInt ny k.1) = K.1 ∧ Spec.wrap (2 * nx) (Np.fftfreqInt nx k.2) = K.2
        then dft (fun p => (a p : ℂ)) k * conj (dft (fun p => (b p : ℂ)) k) else 0) j
      = (1 / 4 : ℂ) * Spec.cc a b (((j.1 : ℕ) : ℝ) / 2) (((j.2 : ℕ) : ℝ) / 2) := by
  rw [cc_fourier]
  unfold idft
  have hs : ∑ K : Fin (2 * ny) × Fin (2 * nx), (∑ k : Fin ny × Fin nx,
      if Spec.wrap (2 * ny) (Np.fftfreqInt ny k.1) = K.1 ∧ Spec.wrap (2 * nx) (Np.fftfreqInt nx k.2) = K.2
        then dft (fun p => (a p : ℂ)) k * conj (dft (fun p => (b p : ℂ)) k) else 0) * e K j
      = ∑ k, dft (fun p => (a p : ℂ)) k * conj (dft (fun p => (b p : ℂ)) k)
        * ex (freq2 (((j.2 : ℕ) : ℝ) / 2) (((j.1 : ℕ) : ℝ) / 2) k) := by
    simp_rw [Finset.sum_mul]
    rw [Finset.sum_comm]
    refine Finset.sum_congr rfl fun k _ => ?_
    rw [Finset.sum_eq_single (Spec.wrap (2 * ny) (Np.fftfreqInt ny k.1), Spec.wrap (2 * nx) (Np.fftfreqInt nx k.2))]
    · rw [if_pos ⟨rfl, rfl⟩, e_prod, e_wrap_freq, e_wrap_freq, ← ex_add]
      unfold freq2
      congr 2; ring
    · intro K _ hK
      rw [if_neg, zero_mul]
      rintro ⟨h1, h2⟩
      exact hK (Prod.ext h1.symm h2.symm)
    · intro h; exact absurd (mem_univ _) h
  rw [hs, ← mul_assoc]
  congr 1
  simp only [Fintype.card_prod, Fintype.card_fin]
  have h1 : (ny : ℂ) ≠ 0 := by exact_mod_cast NeZero.ne ny
  have h2 : (nx : ℂ) ≠ 0 := by exact_mod_cast NeZero.ne nx
  push_cast
  field_simp
  norm_num

/-! ### the pieces of `dftregistration` -/

/-- is the pixel in the part of the correlation map that `maxoff` erases? -/
def Spec.erased (m n : ℕ) (maxoff : Option ℕ) (i : Fin m × Fin n) : Prop :=
  ∃ k, maxoff = some k ∧ k ≠ 0 ∧ ((k ≤ (i.1 : ℕ) ∧ (i.1 : ℕ) + k < m) ∨ (k ≤ (i.2 : ℕ) ∧ (i.2 : ℕ) + k < n))

open Classical in
/-- the values outside the erased part, 0 inside it -/
noncomputable def Spec.kept {m n : ℕ} {α : Type} [Zero α] (maxoff : Option ℕ) (v : Fin m × Fin n → α) :
    Fin m × Fin n → α := fun i => if Spec.erased m n maxoff i then 0 else v i

theorem zeroMiddle_eq {m n : ℕ} (mo : Option ℕ) (v : Fin m × Fin n → ℂ) :
    zeroMiddle mo (cArr v) = cArr (Spec.kept mo v) := by
  classical
  funext i
  unfold zeroMiddle Spec.kept
  cases mo with
  | none =>
    have : ¬ Spec.erased m n none i := by rintro ⟨k, hk, _⟩; exact absurd hk (by simp)
    simp only [cArr, if_neg this]
  | some k =>
    have : Spec.erased m n (some k) i ↔ (inMiddle m k i.1 ∨ inMiddle n k i.2) := by
      unfold Spec.erased inMiddle
      constructor
      · rintro ⟨k', hk, h0, h⟩
        obtain rfl : k = k' := by simpa using hk
        tauto
      · intro h; exact ⟨k, rfl, by tauto, by tauto⟩
    by_cases h : inMiddle m k i.1 ∨ inMiddle n k i.2
    · simp only [cArr, if_pos h, if_pos (this.2 h)]
    · simp only [cArr, if_neg h, if_neg (fun hc => h (this.1 hc))]

theorem absArgmax_cArr {m n : ℕ} [NeZero m] [NeZero n] (v : Fin m × Fin n → ℂ) :
    absArgmax (cArr v) = Np.argmax fun i => ‖v i‖ := rfl

theorem norm_kept {m n : ℕ} (mo : Option ℕ) (v : Fin m × Fin n → ℂ) (i : Fin m × Fin n) :
    ‖Spec.kept mo v i‖ = Spec.kept mo (fun i => ‖v i‖) i := by
  classical
  unfold Spec.kept
  split_ifs <;> simp

theorem argmax_smul {m n : ℕ} [NeZero m] [NeZero n] (k : ℝ) (hk : 0 < k) (f : Fin m × Fin n → ℝ) :
    Np.argmax (fun i => k * f i) = Np.argmax f :=
  Np.argmax_comp fun _ _ => mul_le_mul_iff_right₀ hk

omit [NeZero ny] [NeZero nx] in
theorem mul_conj_cArr (A B : Fin ny × Fin nx → ℂ) :
    Np.mul (cArr A) (Np.conjA (cArr B)) = cArr fun k => A k * conj (B k) := rfl

theorem dftregWhole_eq (cfg : FFTConfig) (a b : Fin ny × Fin nx → ℝ) (mo : Option ℕ) :
    ∃ loc, loc = Np.argmax (Spec.kept mo fun i : Fin ny × Fin nx =>
        ‖Spec.cc a b ((i.1 : ℕ) : ℝ) ((i.2 : ℕ) : ℝ)‖) ∧
      dftregWhole cfg (cArr (dft fun p => (a p : ℂ))) (cArr (dft fun p => (b p : ℂ))) mo
        = ⟨wrapPeak ny loc.1, wrapPeak nx loc.2, (dftregWhole cfg (cArr (dft fun p => (a p : ℂ))) (cArr (dft fun p => (b p : ℂ))) mo).ccmax⟩ := by
  refine ⟨_, rfl, ?_⟩
  unfold dftregWhole
  rw [getFfts_eq]
  simp only [mul_conj_cArr, Np.ifftn_cArr, zeroMiddle_eq, absArgmax_cArr]
  have : (fun i => ‖Spec.kept mo (idft fun k => dft (fun p => (a p : ℂ)) k * conj (dft (fun p => (b p : ℂ)) k)) i‖)
      = Spec.kept mo fun i : Fin ny × Fin nx => ‖Spec.cc a b ((i.1 : ℕ) : ℝ) ((i.2 : ℕ) : ℝ)‖ := by
    funext i
    rw [norm_kept]
    congr 1
    funext i
    rw [idft_cross]
  rw [this]

theorem dftregHalf_eq (cfg : FFTConfig) (a b : Fin ny × Fin nx → ℝ) (mo : Option ℕ) :
    ∃ loc, loc = Np.argmax (Spec.kept mo fun i : Fin (2 * ny) × Fin (2 * nx) =>
        ‖Spec.cc a b (((i.1 : ℕ) : ℝ) / 2) (((i.2 : ℕ) : ℝ) / 2)‖) ∧
      dftregHalf cfg (cArr (dft fun p => (a p : ℂ))) (cArr (dft fun p => (b p : ℂ))) mo
        = ⟨(wrapPeak (2 * ny) loc.1 : ℝ) / 2, (wrapPeak (2 * nx) loc.2 : ℝ) / 2, (dftregHalf cfg (cArr (dft fun p => (a p : ℂ))) (cArr (dft fun p => (b p : ℂ))) mo).ccmax⟩ := by
  refine ⟨_, rfl, ?_⟩
  unfold dftregHalf
  rw [getFfts_eq]
  simp only [ifftshift_ccLarge, Np.ifftn_cArr, zeroMiddle_eq, absArgmax_cArr]
  have : Np.argmax (fun i => ‖Spec.kept mo (idft (fun K : Fin (2 * ny) × Fin (2 * nx) => ∑ k : Fin ny × Fin nx,
      if Spec.wrap (2 * ny) (Np.fftfreqInt ny k.1) = K.1 ∧ Spec.wrap (2 * nx) (Np.fftfreqInt nx k.2) = K.2
        then dft (fun p => (a p : ℂ)) k * conj (dft (fun p => (b p : ℂ)) k) else 0)) i‖)
      = Np.argmax (Spec.kept mo fun i : Fin (2 * ny) × Fin (2 * nx) =>
        ‖Spec.cc a b (((i.1 : ℕ) : ℝ) / 2) (((i.2 : ℕ) : ℝ) / 2)‖) := by
    refine Eq.trans (congrArg Np.argmax ?_) (argmax_smul (1 / 4) (by norm_num) _)
    funext i
    rw [norm_kept]
    unfold Spec.kept
    split_ifs
    · simp
    · show ‖idft _ i‖ = _
      rw [idft_ccLarge, norm_mul]; norm_num
  rw [this]

/-- the coordinate tried by the refinement -/
noncomputable def Spec.refineAt (usfac : ℕ) (row2 : ℝ) (i : ℕ) : ℝ :=
  (pyRound (row2 * usfac) : ℝ) / usfac + ((i : ℝ) - ((⌈(usfac : ℝ) * (3 / 2)⌉₊ / 2 : ℕ) : ℝ)) / usfac

theorem refineSize_pos (usfac : ℕ) (hu : usfac ≠ 0) : ⌈(usfac : ℝ) * (3 / 2)⌉₊ ≠ 0 := by
  have : (0 : ℝ) < usfac := by exact_mod_cast Nat.pos_of_ne_zero hu
  exact (Nat.ceil_pos.2 (by positivity)).ne'

/-- the values of the refinement, as correlations -/
theorem dftupsVal_cc (a b : Fin ny × Fin nx → ℝ) (usfac : ℕ) (hu : usfac ≠ 0) (row2 col2 : ℝ)
    (i : Fin ⌈(usfac : ℝ) * (3 / 2)⌉₊ × Fin ⌈(usfac : ℝ) * (3 / 2)⌉₊) :
    conj (dftupsVal (fun k => dft (fun p => (b p : ℂ)) k * conj (dft (fun p => (a p : ℂ)) k)) usfac
        (((⌈(usfac : ℝ) * (3 / 2)⌉₊ / 2 : ℕ) : ℝ) - (pyRound (row2 * usfac) : ℝ) / usfac * usfac)
        (((⌈(usfac : ℝ) * (3 / 2)⌉₊ / 2 : ℕ) : ℝ) - (pyRound (col2 * usfac) : ℝ) / usfac * usfac)
        ((i.1 : ℕ) : ℝ) ((i.2 : ℕ) : ℝ)) / ((ny : ℂ) * nx * (usfac : ℂ) ^ 2)
      = ((1 / (usfac : ℝ) ^ 2 : ℝ) : ℂ)
          * Spec.cc a b (Spec.refineAt usfac row2 i.1) (Spec.refineAt usfac col2 i.2) := by
  have hu' : (usfac : ℝ) ≠ 0 := by exact_mod_cast hu
  rw [cc_fourier]
  unfold dftupsVal
  rw [map_sum]
  have : ∀ k : Fin ny × Fin nx, conj (dft (fun p => (b p : ℂ)) k * conj (dft (fun p => (a p : ℂ)) k)
      * ex (-(Np.fftfreq ny k.1 * ((((i.1 : ℕ) : ℝ) - (((⌈(usfac : ℝ) * (3 / 2)⌉₊ / 2 : ℕ) : ℝ)
        - (pyRound (row2 * usfac) : ℝ) / usfac * usfac)) / usfac)))
      * ex (-(Np.fftfreq nx k.2 * ((((i.2 : ℕ) : ℝ) - (((⌈(usfac : ℝ) * (3 / 2)⌉₊ / 2 : ℕ) : ℝ)
        - (pyRound (col2 * usfac) : ℝ) / usfac * usfac)) / usfac))))
      = dft (fun p => (a p : ℂ)) k * conj (dft (fun p => (b p : ℂ)) k)
        * ex (freq2 (Spec.refineAt usfac col2 i.2) (Spec.refineAt usfac row2 i.1) k) := by
    intro k
    rw [map_mul, map_mul, map_mul, conj_ex, conj_ex, neg_neg, neg_neg, Complex.conj_conj,
      mul_assoc, ← ex_add, mul_comm (conj _) (dft _ k)]
    congr 2
    unfold freq2 Spec.refineAt
    field_simp
    ring
  rw [Finset.sum_congr rfl fun k _ => this k]
  have h1 : (ny : ℂ) ≠ 0 := by exact_mod_cast NeZero.ne ny
  have h2 : (nx : ℂ) ≠ 0 := by exact_mod_cast NeZero.ne nx
  have h3 : (usfac : ℂ) ≠ 0 := by exact_mod_cast hu
  simp only [Fintype.card_prod, Fintype.card_fin]
  push_cast
  field_simp

theorem dftregRefine_eq (a b : Fin ny × Fin nx → ℝ) (usfac : ℕ) (hu : usfac ≠ 0) (row2 col2 : ℝ)
    [NeZero ⌈(usfac : ℝ) * (3 / 2)⌉₊] :
    ∃ (loc : Fin ⌈(usfac : ℝ) * (3 / 2)⌉₊ × Fin ⌈(usfac : ℝ) * (3 / 2)⌉₊) (c : ℂ),
      loc = Np.argmax (fun i : Fin ⌈(usfac : ℝ) * (3 / 2)⌉₊ × Fin ⌈(usfac : ℝ) * (3 / 2)⌉₊ =>
        ‖Spec.cc a b (Spec.refineAt usfac row2 i.1) (Spec.refineAt usfac col2 i.2)‖) ∧
      dftregRefine (cArr (dft fun p => (a p : ℂ))) (cArr (dft fun p => (b p : ℂ))) usfac row2 col2
        = .ok ⟨Spec.refineAt usfac row2 loc.1, Spec.refineAt usfac col2 loc.2, c⟩ ∧
      c = ((1 / (usfac : ℝ) ^ 2 : ℝ) : ℂ)
          * Spec.cc a b (Spec.refineAt usfac row2 loc.1) (Spec.refineAt usfac col2 loc.2) := by
  have hu' : (usfac : ℝ) ≠ 0 := by exact_mod_cast hu
  refine ⟨_, _, rfl, ?_, rfl⟩
  unfold dftregRefine
  simp only [mul_conj_cArr]
  rw [dftups_eq _ _ _ _ _ _ hu']
  simp only [bind, Except.bind, Option.getD_some]
  rw [dif_pos ⟨refineSize_pos usfac hu, refineSize_pos usfac hu⟩]
  simp only [pure, Except.pure]
  have hcc : ∀ i : Fin ⌈(usfac : ℝ) * (3 / 2)⌉₊ × Fin ⌈(usfac : ℝ) * (3 / 2)⌉₊,
      conj (dftupsVal (fun k => dft (fun p => (b p : ℂ)) k * conj (dft (fun p => (a p : ℂ)) k)) usfac
        (((⌈(usfac : ℝ) * (3 / 2)⌉₊ / 2 : ℕ) : ℝ) - (pyRound (row2 * usfac) : ℝ) / usfac * usfac)
        (((⌈(usfac : ℝ) * (3 / 2)⌉₊ / 2 : ℕ) : ℝ) - (pyRound (col2 * usfac) : ℝ) / usfac * usfac)
        ((i.1 : ℕ) : ℝ) ((i.2 : ℕ) : ℝ)) / ((ny : ℂ) * nx * (usfac : ℂ) ^ 2)
      = ((1 / (usfac : ℝ) ^ 2 : ℝ) : ℂ)
          * Spec.cc a b (Spec.refineAt usfac row2 i.1) (Spec.refineAt usfac col2 i.2) :=
    fun i => dftupsVal_cc a b usfac hu row2 col2 i
  have harr : (fun i : Fin ⌈(usfac : ℝ) * (3 / 2)⌉₊ × Fin ⌈(usfac : ℝ) * (3 / 2)⌉₊ =>
      (Np.conjA (cArr fun i : Fin ⌈(usfac : ℝ) * (3 / 2)⌉₊ × Fin ⌈(usfac : ℝ) * (3 / 2)⌉₊ =>
        dftupsVal (fun k => dft (fun p => (b p : ℂ)) k * conj (dft (fun p => (a p : ℂ)) k)) usfac
        (((⌈(usfac : ℝ) * (3 / 2)⌉₊ / 2 : ℕ) : ℝ) - (pyRound (row2 * usfac) : ℝ) / usfac * usfac)
        (((⌈(usfac : ℝ) * (3 / 2)⌉₊ / 2 : ℕ) : ℝ) - (pyRound (col2 * usfac) : ℝ) / usfac * usfac)
        ((i.1 : ℕ) : ℝ) ((i.2 : ℕ) : ℝ)) i).map fun z => z / ((ny : ℂ) * nx * (usfac : ℂ) ^ 2))
      = cArr fun i => ((1 / (usfac : ℝ) ^ 2 : ℝ) : ℂ)
          * Spec.cc a b (Spec.refineAt usfac row2 i.1) (Spec.refineAt usfac col2 i.2) := by
    funext i
    rw [cArr, ← hcc i]
    rfl
  have hmax : absArgmax (cArr fun i : Fin ⌈(usfac : ℝ) * (3 / 2)⌉₊ × Fin ⌈(usfac : ℝ) * (3 / 2)⌉₊ =>
      ((1 / (usfac : ℝ) ^ 2 : ℝ) : ℂ)
          * Spec.cc a b (Spec.refineAt usfac row2 i.1) (Spec.refineAt usfac col2 i.2))
      = Np.argmax (fun i : Fin ⌈(usfac : ℝ) * (3 / 2)⌉₊ × Fin ⌈(usfac : ℝ) * (3 / 2)⌉₊ =>
        ‖Spec.cc a b (Spec.refineAt usfac row2 i.1) (Spec.refineAt usfac col2 i.2)‖) := by
    rw [absArgmax_cArr]
    refine Eq.trans (congrArg Np.argmax ?_) (argmax_smul (1 / (usfac : ℝ) ^ 2) (by positivity) _)
    funext i
    rw [norm_mul, Complex.norm_real, Real.norm_of_nonneg (by positivity)]
  have key := hmax
  rw [← harr] at key
  simp only [key]
  have hv := congrFun harr (Np.argmax (fun i : Fin ⌈(usfac : ℝ) * (3 / 2)⌉₊ × Fin ⌈(usfac : ℝ) * (3 / 2)⌉₊ =>
        ‖Spec.cc a b (Spec.refineAt usfac row2 i.1) (Spec.refineAt usfac col2 i.2)‖))
  simp only [cArr] at hv
  have hv2 := congrArg (Option.getD · 0) hv
  simp only [Option.getD_some] at hv2
  rw [← hv2]
  rfl

end

end ImgReg
