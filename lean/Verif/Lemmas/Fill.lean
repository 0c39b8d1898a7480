import Verif.Lemmas.Chi2
import Mathlib.Algebra.BigOperators.Finprod

/-! # Correlation and chi-squared maps with `boundary='fill'` -/

open Complex Finset

namespace ImgReg

/-- an image continued by zeros over the whole plane -/
noncomputable def Spec.plane {ny nx : ℕ} (im : Fin ny × Fin nx → ℝ) (y x : ℤ) : ℝ :=
  if h : (0 ≤ y ∧ y < ny) ∧ 0 ≤ x ∧ x < nx then im (⟨y.toNat, by omega⟩, ⟨x.toNat, by omega⟩) else 0

/-- padding that keeps the two arrays from overlapping their periodic copies (true of all padding rules
of `astropy`) -/
def Spec.padsEnough (pad : ℕ × ℕ → ℕ × ℕ → ℕ × ℕ) : Prop :=
  ∀ s t, s.1 + t.1 ≤ (pad s t).1 ∧ s.2 + t.2 ≤ (pad s t).2

section
variable {ny nx my mx : ℕ}

theorem plane_in (im : Fin ny × Fin nx → ℝ) (p : Fin ny × Fin nx) :
    Spec.plane im ((p.1 : ℕ) : ℤ) ((p.2 : ℕ) : ℤ) = im p := by
  unfold Spec.plane
  have h1 := p.1.isLt
  have h2 := p.2.isLt
  rw [dif_pos ⟨⟨by omega, by omega⟩, by omega, by omega⟩]
  congr 1

theorem plane_out (im : Fin ny × Fin nx → ℝ) (y x : ℤ) (h : ¬ ((0 ≤ y ∧ y < ny) ∧ 0 ≤ x ∧ x < nx)) :
    Spec.plane im y x = 0 := by
  unfold Spec.plane
  rw [dif_neg h]

theorem plane_cases (y x : ℤ) (h : (0 ≤ y ∧ y < ny) ∧ 0 ≤ x ∧ x < nx) :
    ∃ p : Fin ny × Fin nx, ((p.1 : ℕ) : ℤ) = y ∧ ((p.2 : ℕ) : ℤ) = x := by
  exact ⟨(⟨y.toNat, by omega⟩, ⟨x.toNat, by omega⟩), by simp [h.1.1], by simp [h.2.1]⟩

theorem plane_eq_sum (b : Fin my × Fin mx → ℝ) (y x : ℤ) :
    Spec.plane b y x = ∑ q : Fin my × Fin mx, if ((q.1 : ℕ) : ℤ) = y ∧ ((q.2 : ℕ) : ℤ) = x then b q else 0 := by
  by_cases h : (0 ≤ y ∧ y < my) ∧ 0 ≤ x ∧ x < mx
  · obtain ⟨p, rfl, rfl⟩ := plane_cases y x h
    rw [plane_in]
    have : ∀ q : Fin my × Fin mx, ((((q.1 : ℕ) : ℤ) = ((p.1 : ℕ) : ℤ)) ∧ (((q.2 : ℕ) : ℤ) = ((p.2 : ℕ) : ℤ))) ↔ q = p := by
      intro q
      rw [Prod.ext_iff, Fin.ext_iff, Fin.ext_iff]
      omega
    simp only [this, Finset.sum_ite_eq', Finset.mem_univ, if_true]
  · rw [plane_out b y x h]
    symm
    refine Finset.sum_eq_zero fun q _ => ?_
    rw [if_neg]
    rintro ⟨rfl, rfl⟩
    exact h ⟨⟨by omega, by have := q.1.isLt; omega⟩, by omega, by have := q.2.isLt; omega⟩

/-- linear correlation: pixel `p` of `a` meets pixel `p + d` of `b` (0 outside), with `d = (m-1)//2 - i` -/
noncomputable def Spec.linCorr (a : Fin ny × Fin nx → ℝ) (b : Fin my × Fin mx → ℝ) (i : Fin ny × Fin nx) : ℝ :=
  ∑ p : Fin ny × Fin nx, a p * Spec.plane b (((p.1 : ℕ) : ℤ) + ((Spec.zeroLag my : ℤ) - ((i.1 : ℕ) : ℤ)))
    (((p.2 : ℕ) : ℤ) + ((Spec.zeroLag mx : ℤ) - ((i.2 : ℕ) : ℤ)))

theorem modEq_iff_eq_of_close {a b : ℤ} {N : ℕ} (h : |a - b| < N) : a ≡ b [ZMOD N] ↔ a = b := by
  constructor
  · intro h1
    have h2 := Int.modEq_iff_dvd.1 h1.symm
    have := Int.eq_zero_of_abs_lt_dvd h2 h
    omega
  · rintro rfl; rfl

theorem torusCorr_lin (Ny Nx : ℕ) (hy : ny + my ≤ Ny) (hx : nx + mx ≤ Nx) (a : Fin ny × Fin nx → ℝ)
    (b : Fin my × Fin mx → ℝ) : Spec.torusCorr Ny Nx a b = Spec.linCorr a b := by
  funext i
  unfold Spec.torusCorr Spec.linCorr
  refine Finset.sum_congr rfl fun p _ => ?_
  rw [plane_eq_sum, Finset.mul_sum]
  refine Finset.sum_congr rfl fun q _ => ?_
  have close : ∀ {n m N : ℕ}, n + m ≤ N → ∀ (i p : Fin n) (q : Fin m),
      ((((q : ℕ) : ℤ) ≡ ((p : ℕ) : ℤ) + ((Spec.zeroLag m : ℤ) - ((i : ℕ) : ℤ)) [ZMOD N]) ↔
        ((q : ℕ) : ℤ) = ((p : ℕ) : ℤ) + ((Spec.zeroLag m : ℤ) - ((i : ℕ) : ℤ))) := by
    intro n m N h i p q
    apply modEq_iff_eq_of_close
    have h1 := i.isLt
    have h2 := p.isLt
    have h3 := q.isLt
    unfold Spec.zeroLag
    rw [abs_lt]
    constructor <;> omega
  simp only [close hy, close hx, mul_ite, mul_zero]

theorem correlate2dB_fill (cfg : FFTConfig) (pad : ℕ × ℕ → ℕ × ℕ → ℕ × ℕ) (hp : Spec.padsEnough pad) (ah : Bool)
    (h : Spec.fits ah (pad (ny, nx) (my, mx)).1 (pad (ny, nx) (my, mx)).2) (h0 : 0 < ny ∧ 0 < nx)
    (a : Fin ny × Fin nx → Pix) (b : Fin my × Fin mx → Pix) :
    correlate2dB cfg (.fill pad) ah a b = .ok (realArr (Spec.linCorr (Spec.nan0 a) (Spec.nan0 b))) := by
  obtain ⟨h1, h2⟩ := hp (ny, nx) (my, mx)
  simp only at h1 h2
  rw [correlate2dB_eq cfg (.fill pad) ah a b _ _ rfl h (by omega) (by omega) (by omega) (by omega) ⟨by omega, by omega⟩,
    torusCorr_lin _ _ h1 h2]

/-! ### moving sums between the two frames -/

/-- `Σ_p a[p]·b[p+d] = Σ_q a[q-d]·b[q]`, with zeros outside the frames -/
theorem sum_plane_swap (a : Fin ny × Fin nx → ℝ) (b : Fin my × Fin mx → ℝ) (dy dx : ℤ) :
    ∑ p : Fin ny × Fin nx, a p * Spec.plane b (((p.1 : ℕ) : ℤ) + dy) (((p.2 : ℕ) : ℤ) + dx)
      = ∑ q : Fin my × Fin mx, Spec.plane a (((q.1 : ℕ) : ℤ) - dy) (((q.2 : ℕ) : ℤ) - dx) * b q := by
  simp only [plane_eq_sum, Finset.mul_sum, Finset.sum_mul]
  rw [Finset.sum_comm]
  refine Finset.sum_congr rfl fun q _ => Finset.sum_congr rfl fun p _ => ?_
  have : ((((q.1 : ℕ) : ℤ) = ((p.1 : ℕ) : ℤ) + dy) ∧ (((q.2 : ℕ) : ℤ) = ((p.2 : ℕ) : ℤ) + dx)) ↔
      ((((p.1 : ℕ) : ℤ) = ((q.1 : ℕ) : ℤ) - dy) ∧ (((p.2 : ℕ) : ℤ) = ((q.2 : ℕ) : ℤ) - dx)) := by omega
  simp only [this]
  split_ifs <;> ring

theorem plane_map (f : ℝ → ℝ) (hf : f 0 = 0) (a : Fin ny × Fin nx → ℝ) (y x : ℤ) :
    Spec.plane (fun p => f (a p)) y x = f (Spec.plane a y x) := by
  unfold Spec.plane
  split_ifs <;> simp [hf]

/-! ### sums over the plane -/

theorem support_plane (b : Fin ny × Fin nx → ℝ) (dy dx : ℤ) (f : ℤ × ℤ → ℝ) :
    Function.support (fun z : ℤ × ℤ => Spec.plane b (z.1 + dy) (z.2 + dx) * f z) ⊆
      ((univ.image fun q : Fin ny × Fin nx => (((q.1 : ℕ) : ℤ) - dy, ((q.2 : ℕ) : ℤ) - dx) : Finset (ℤ × ℤ)) : Set (ℤ × ℤ)) := by
  intro z hz
  by_contra hn
  apply hz
  have : Spec.plane b (z.1 + dy) (z.2 + dx) = 0 := by
    apply plane_out
    intro h
    obtain ⟨p, h1, h2⟩ := plane_cases _ _ h
    apply hn
    rw [Finset.mem_coe, Finset.mem_image]
    exact ⟨p, Finset.mem_univ _, Prod.ext (by simp only [h1]; ring) (by simp only [h2]; ring)⟩
  simp only [this, zero_mul]

theorem finsum_plane (b : Fin ny × Fin nx → ℝ) (dy dx : ℤ) (f : ℤ × ℤ → ℝ) :
    ∑ᶠ z : ℤ × ℤ, Spec.plane b (z.1 + dy) (z.2 + dx) * f z
      = ∑ q : Fin ny × Fin nx, b q * f (((q.1 : ℕ) : ℤ) - dy, ((q.2 : ℕ) : ℤ) - dx) := by
  rw [finsum_eq_sum_of_support_subset _ (support_plane b dy dx f), Finset.sum_image]
  · refine Finset.sum_congr rfl fun q _ => ?_
    simp only [sub_add_cancel, plane_in]
  · intro q _ r _ h
    simp only [Prod.mk.injEq] at h
    exact Prod.ext (Fin.ext (by omega)) (Fin.ext (by omega))

/-- squared differences over the whole plane, expanded -/
theorem finsum_sq_plane (a b : Fin ny × Fin nx → ℝ) (s : ℝ) (dy dx : ℤ) :
    ∑ᶠ z : ℤ × ℤ, (Spec.plane a z.1 z.2 - Spec.plane b (z.1 + dy) (z.2 + dx)) ^ 2 / s ^ 2
      = ∑ q, b q ^ 2 / s ^ 2
        + -2 * ∑ p : Fin ny × Fin nx, a p * (Spec.plane b (((p.1 : ℕ) : ℤ) + dy) (((p.2 : ℕ) : ℤ) + dx) / s ^ 2)
        + ∑ p, a p ^ 2 / s ^ 2 := by
  have e1 : (fun z : ℤ × ℤ => (Spec.plane a z.1 z.2 - Spec.plane b (z.1 + dy) (z.2 + dx)) ^ 2 / s ^ 2)
      = fun z => Spec.plane a (z.1 + 0) (z.2 + 0)
            * ((Spec.plane a z.1 z.2 - 2 * Spec.plane b (z.1 + dy) (z.2 + dx)) / s ^ 2)
          + Spec.plane b (z.1 + dy) (z.2 + dx) * (Spec.plane b (z.1 + dy) (z.2 + dx) / s ^ 2) := by
    funext z
    rw [add_zero, add_zero]; ring
  rw [e1, finsum_add_distrib ((Finset.finite_toSet _).subset (support_plane a 0 0 _))
    ((Finset.finite_toSet _).subset (support_plane b dy dx _)), finsum_plane, finsum_plane]
  simp only [sub_zero, sub_add_cancel, plane_in]
  rw [Finset.mul_sum]
  simp only [← Finset.sum_add_distrib]
  exact Finset.sum_congr rfl fun p _ => by ring

/-! ### the chi-squared map -/

theorem chi2nMapBodyB_fill (cfg : FFTConfig) (pad : ℕ × ℕ → ℕ × ℕ → ℕ × ℕ) (hp : Spec.padsEnough pad) (h0 : 0 < ny ∧ 0 < nx)
    (im1 im2 : Fin ny × Fin nx → Pix) (err : ErrArg ny nx)
    (zm red ah : Bool) (h : Spec.fits ah (pad (ny, nx) (ny, nx)).1 (pad (ny, nx) (ny, nx)).2) :
    ∃ m, chi2nMapBodyB cfg (.fill pad) im1 im2 err zm red ah = .ok m ∧
      m.term1 = ∑ i, Spec.maskOf err (prep zm im2) i ^ 2 / Spec.errOf err i ^ 2 ∧
      (m.term2 = fun i => -2 * Spec.linCorr (Spec.maskOf err (prep zm im1))
        (fun j => Spec.maskOf err (prep zm im2) j / Spec.errOf err j ^ 2) i) ∧
      (∀ e, err = .image e → m.term3 = .image (Spec.linCorr (fun p => Spec.maskOf err (prep zm im1) p ^ 2)
        (fun j => 1 / Spec.errOf err j ^ 2))) ∧
      ((∀ e, err ≠ .image e) → m.term3 = .scalar (∑ p, prep zm im1 p ^ 2 / Spec.errOf err p ^ 2)) ∧
      (∀ i, m.chi2 i = (m.term1 + m.term2 i + m.term3.at i) / (if red then (ny : ℝ) * nx - 2 else 1)) := by
  rw [prep_def, prep_def]
  have hc : ∀ a b : Fin ny × Fin nx → ℝ, correlate2dB cfg (.fill pad) ah (realArr a) (realArr b)
      = .ok (realArr (Spec.linCorr a b)) := fun a b => correlate2dB_fill cfg pad hp ah h h0 _ _
  unfold chi2nMapBodyB
  cases err with
  | none =>
    simp only [hc, bind, Except.bind, pure, Except.pure, finiteVals_realArr, finiteVals_nanToNum]
    refine ⟨_, rfl, rfl, ?_, fun e he => (by cases he), fun _ => ?_, ?_⟩
    · cases zm <;> rfl
    · cases zm <;> rfl
    · intro i; cases red <;> simp
  | scalar s =>
    simp only [hc, bind, Except.bind, pure, Except.pure, finiteVals_realArr, finiteVals_nanToNum]
    refine ⟨_, rfl, rfl, ?_, fun e he => (by cases he), fun _ => ?_, ?_⟩
    · cases zm <;> rfl
    · cases zm <;> rfl
    · intro i; cases red <;> simp
  | image e =>
    simp only [hc, bind, Except.bind, pure, Except.pure, finiteVals_realArr, finiteVals_nanToNum]
    refine ⟨_, rfl, rfl, ?_, fun _ _ => ?_, fun h => absurd rfl (h e), ?_⟩
    · cases zm <;> rfl
    · cases zm <;> rfl
    · intro i; cases red <;> simp

/-- with an error image: squared differences over the pixels of `im2` -/
theorem fill_chi2_image (a b σ : Fin ny × Fin nx → ℝ) (dy dx : ℤ) :
    ∑ q, b q ^ 2 / σ q ^ 2
      + -2 * ∑ p : Fin ny × Fin nx, a p * Spec.plane (fun j => b j / σ j ^ 2) (((p.1 : ℕ) : ℤ) + dy) (((p.2 : ℕ) : ℤ) + dx)
      + ∑ p : Fin ny × Fin nx, a p ^ 2 * Spec.plane (fun j => 1 / σ j ^ 2) (((p.1 : ℕ) : ℤ) + dy) (((p.2 : ℕ) : ℤ) + dx)
    = ∑ q : Fin ny × Fin nx, (Spec.plane a (((q.1 : ℕ) : ℤ) - dy) (((q.2 : ℕ) : ℤ) - dx) - b q) ^ 2 / σ q ^ 2 := by
  rw [sum_plane_swap, sum_plane_swap, Finset.mul_sum, ← Finset.sum_add_distrib, ← Finset.sum_add_distrib]
  refine Finset.sum_congr rfl fun q _ => ?_
  rw [plane_map (· ^ 2) (by norm_num)]
  ring

end

end ImgReg
