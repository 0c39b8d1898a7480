import Verif.Props.FillShift
import Verif.Props.Chi2Recover
import Verif.Lemmas.Register
import Mathlib.Analysis.InnerProductSpace.PiL2
import Mathlib.Analysis.SpecialFunctions.Trigonometric.Bounds

/-!
# Noise: how far a disturbance of the second image can move the answer of `chi2_shift` (C96, C97)
-/

open Complex Finset

namespace ImgReg

section
variable {ny nx : ℕ} [NeZero ny] [NeZero nx]

/-! ### C96: whole-pixel recovery under noise -/

/-- chi-squared with the first image moved instead of the second -/
theorem chi2_eq_roll (a b σ : Fin ny × Fin nx → ℝ) (ey ex : ℤ) :
    Spec.chi2 a b σ ey ex = ∑ q, (Spec.roll2 ey ex a q - b q) ^ 2 / σ q ^ 2 := by
  rw [← Spec.sum_move ey ex (fun q => (Spec.roll2 ey ex a q - b q) ^ 2 / σ q ^ 2)]
  unfold Spec.chi2
  refine Finset.sum_congr rfl fun p _ => ?_
  rw [Spec.roll2_move]

theorem roll2_congr {a b c d : ℤ} (h1 : a ≡ b [ZMOD ny]) (h2 : c ≡ d [ZMOD nx]) (x : Fin ny × Fin nx → ℝ) :
    Spec.roll2 a c x = Spec.roll2 b d x := by
  funext p
  unfold Spec.roll2
  rw [Spec.wrap_congr ny ((Int.ModEq.refl _).sub h1), Spec.wrap_congr nx ((Int.ModEq.refl _).sub h2)]

/-- the representative of `d` with `-n ≤ 2 d' < n` and its map pixel -/
theorem exists_rep (n : ℕ) [NeZero n] (d : ℤ) :
    ∃ (d' : ℤ) (q : Fin n), d' ≡ d [ZMOD n] ∧ -(n : ℤ) ≤ 2 * d' ∧ 2 * d' < n ∧ ((q : ℕ) : ℤ) = ((n - 1) / 2 : ℕ) - d' := by
  have hn := Nat.pos_of_ne_zero (NeZero.ne n)
  have hq := (Spec.wrap n (((n - 1) / 2 : ℕ) - d)).isLt
  refine ⟨((n - 1) / 2 : ℕ) - ((Spec.wrap n (((n - 1) / 2 : ℕ) - d) : ℕ) : ℤ), Spec.wrap n (((n - 1) / 2 : ℕ) - d), ?_, by omega, by omega, by omega⟩
  have := Spec.lag_wrap n d
  exact this

/-- C96: whole-pixel registration survives noise. Let `im2` be `im1` rolled by `(dy, dx)` plus any disturbance `noise`, and
let `σ` be the errors (one nonzero number, or an error image without zero or NaN pixels). If `im1` rolled by `(dy, dx)` differs from
every other roll of `im1` by more than four times the noise (both measured as sums of squares in units of `σ`), then `chi2_shift` with
`upsample_factor=1` returns exactly the shift: the representative of `(dx, dy)` modulo the image size with `-n ≤ 2·d < n`. -/
theorem C96_roll_with_noise (cfg : FFTConfig) (st : Stats) (hst : Spec.validStats st)
    (im1 noise : Fin ny × Fin nx → ℝ) (hy : 2 ≤ ny) (dy dx : ℤ)
    (err : ErrArg ny nx) (σ : Fin ny × Fin nx → ℝ) (hσ : ∀ p, σ p ≠ 0)
    (he : (∃ s, Spec.isScalarErr err s ∧ ∀ p, σ p = s) ∨ err = .image (realArr σ))
    (hnoise : ∀ ey ex : ℤ, ¬ (ey ≡ dy [ZMOD ny] ∧ ex ≡ dx [ZMOD nx]) →
      4 * ∑ p, noise p ^ 2 / σ p ^ 2 < ∑ p, (Spec.roll2 ey ex im1 p - Spec.roll2 dy dx im1 p) ^ 2 / σ p ^ 2)
    (nf : ℝ) (mas : ℕ) (mns : ℝ) (ah : Bool) (hf : Spec.fits ah ny nx) :
    ∃ dx' dy' : ℤ,
      chi2Shift cfg st (realArr im1) (realArr fun p => Spec.roll2 dy dx im1 p + noise p) err (.int 1) false nf false false
        false mas mns ah = .ok [.num dx', .num dy'] ∧
      dx' ≡ dx [ZMOD nx] ∧ -(nx : ℤ) ≤ 2 * dx' ∧ 2 * dx' < nx ∧
      dy' ≡ dy [ZMOD ny] ∧ -(ny : ℤ) ≤ 2 * dy' ∧ 2 * dy' < ny := by
  obtain ⟨cm, hcm, hchi⟩ := chi2nMapBody_chi2 cfg (realArr im1) (realArr fun p => Spec.roll2 dy dx im1 p + noise p) err false ah hf
  have hchi' : ∀ i, cm.chi2 i = ∑ p, (Spec.roll2 (Spec.lag ny i.1) (Spec.lag nx i.2) im1 p
      - (Spec.roll2 dy dx im1 p + noise p)) ^ 2 / σ p ^ 2 := by
    intro i
    rw [hchi, chi2_eq_roll]
    have pr : ∀ a : Fin ny × Fin nx → ℝ, prep false (realArr a) = a := by
      intro a; rw [prep_real]; funext p; simp
    rw [pr, pr]
    rcases he with ⟨s, hs, hs'⟩ | rfl
    · rw [scalarErr_errOf hs, scalarErr_maskOf hs, scalarErr_maskOf hs]
      simp only [hs']
    · have e1 : Spec.errOf (.image (realArr σ)) = σ := by
        funext p; simp [Spec.errOf, realArr, Spec.nan0, hσ p]
      have e2 : ∀ a : Fin ny × Fin nx → ℝ, Spec.maskOf (.image (realArr σ)) a = a := by
        intro a; funext p; simp [Spec.maskOf, realArr, Spec.nan0, hσ p]
      rw [e1, e2, e2]
  obtain ⟨dy', qy, cy, ly, uy, ey⟩ := exists_rep ny dy
  obtain ⟨dx', qx, cx, lx, ux, ex⟩ := exists_rep nx dx
  have lagy : Spec.lag ny qy = dy' := by unfold Spec.lag Spec.zeroLag; omega
  have lagx : Spec.lag nx qx = dx' := by unfold Spec.lag Spec.zeroLag; omega
  have h0 : cm.chi2 (qy, qx) = ∑ p, noise p ^ 2 / σ p ^ 2 := by
    rw [hchi']
    refine Finset.sum_congr rfl fun p _ => ?_
    rw [lagy, lagx, roll2_congr cy cx]
    ring
  have hlt : ∀ i, i ≠ (qy, qx) → cm.chi2 (qy, qx) < cm.chi2 i := by
    intro i hi
    have hne : ¬ (Spec.lag ny i.1 ≡ dy [ZMOD ny] ∧ Spec.lag nx i.2 ≡ dx [ZMOD nx]) := by
      rintro ⟨c1, c2⟩
      apply hi
      have back : ∀ (n : ℕ) [NeZero n] (i q : Fin n) (d : ℤ), Spec.lag n i ≡ d [ZMOD n] → Spec.lag n q ≡ d [ZMOD n] → i = q := by
        intro n _ i q d h1 h2
        have h3 := (Int.ModEq.refl (Spec.zeroLag n : ℤ)).sub (h1.trans h2.symm)
        unfold Spec.lag at h3
        rw [sub_sub_cancel, sub_sub_cancel] at h3
        exact Fin.eq_of_modEq h3
      exact Prod.ext (back ny i.1 qy dy c1 (by rw [lagy]; exact cy)) (back nx i.2 qx dx c2 (by rw [lagx]; exact cx))
    have hn := hnoise _ _ hne
    rw [h0, hchi']
    have hb : ∑ p, (Spec.roll2 (Spec.lag ny i.1) (Spec.lag nx i.2) im1 p - Spec.roll2 dy dx im1 p) ^ 2 / σ p ^ 2
        ≤ 2 * (∑ p, (Spec.roll2 (Spec.lag ny i.1) (Spec.lag nx i.2) im1 p
          - (Spec.roll2 dy dx im1 p + noise p)) ^ 2 / σ p ^ 2) + 2 * ∑ p, noise p ^ 2 / σ p ^ 2 := by
      rw [Finset.mul_sum, Finset.mul_sum, ← Finset.sum_add_distrib]
      refine Finset.sum_le_sum fun p _ => ?_
      have hp : 0 < σ p ^ 2 := by have := hσ p; positivity
      rw [← mul_div_assoc, ← mul_div_assoc, ← add_div]
      apply div_le_div_of_nonneg_right _ hp.le
      nlinarith [sq_nonneg (Spec.roll2 (Spec.lag ny i.1) (Spec.lag nx i.2) im1 p
          - (Spec.roll2 dy dx im1 p + noise p) - noise p)]
    linarith
  refine ⟨dx', dy', ?_, cx, lx, ux, cy, ly, uy⟩
  have := chi2ShiftB_one cfg .wrap st hst _ _ err false nf mas mns ah hy cm hcm (qy, qx) hlt
  refine Eq.trans this ?_
  have cast : ∀ (n : ℕ) (q : Fin n) (d : ℤ), ((q : ℕ) : ℤ) = ((n - 1) / 2 : ℕ) - d → (((n - 1) / 2 : ℕ) : ℝ) - ((q : ℕ) : ℝ) = (d : ℝ) := by
    intro n q d h
    have : (d : ℤ) = ((((n - 1) / 2 : ℕ) : ℤ)) - ((q : ℕ) : ℤ) := by omega
    rw [this, Int.cast_sub, Int.cast_natCast, Int.cast_natCast]
  rw [cast _ _ _ ey, cast _ _ _ ex]

/-- C96 with `boundary='fill'`: `im2` is `im1` moved by `(dy, dx)` with zeros moving in, plus any disturbance `noise`; the map covers
the displacement (`-n ≤ 2d < n`); the moved image differs from every other displacement of `im1` by more than four times the noise
(sums of squares in units of `σ`).  Then `chi2_shift` with `upsample_factor=1` returns exactly `[dx, dy]`: with an error image
always, with a scalar error if nothing leaves the frame. -/
theorem C96_move_with_noise (cfg : FFTConfig) (pad : ℕ × ℕ → ℕ × ℕ → ℕ × ℕ) (hp : Spec.padsEnough pad) (st : Stats)
    (hst : Spec.validStats st) (ah : Bool)
    (h : Spec.fits ah (pad (ny, nx) (ny, nx)).1 (pad (ny, nx) (ny, nx)).2) (hy : 2 ≤ ny)
    (im1 noise : Fin ny × Fin nx → ℝ) (dy dx : ℤ)
    (ly : -(ny : ℤ) ≤ 2 * dy) (uy : 2 * dy < ny) (lx : -(nx : ℤ) ≤ 2 * dx) (ux : 2 * dx < nx)
    (err : ErrArg ny nx) (σ : Fin ny × Fin nx → ℝ) (hσ : ∀ p, σ p ≠ 0)
    (he : (∃ s, Spec.isScalarErr err s ∧ (∀ p, σ p = s) ∧
        ∀ p : Fin ny × Fin nx, im1 p ≠ 0 → (0 ≤ ((p.1 : ℕ) : ℤ) + dy ∧ ((p.1 : ℕ) : ℤ) + dy < ny) ∧
          0 ≤ ((p.2 : ℕ) : ℤ) + dx ∧ ((p.2 : ℕ) : ℤ) + dx < nx) ∨ err = .image (realArr σ))
    (hnoise : ∀ ey ex : ℤ, ¬ (ey = dy ∧ ex = dx) →
      4 * ∑ q, noise q ^ 2 / σ q ^ 2 < ∑ q : Fin ny × Fin nx, (Spec.plane im1 (((q.1 : ℕ) : ℤ) - ey) (((q.2 : ℕ) : ℤ) - ex)
        - Spec.plane im1 (((q.1 : ℕ) : ℤ) - dy) (((q.2 : ℕ) : ℤ) - dx)) ^ 2 / σ q ^ 2)
    (nf : ℝ) (mas : ℕ) (mns : ℝ) :
    chi2ShiftB cfg (.fill pad) st (realArr im1)
        (realArr fun q => Spec.plane im1 (((q.1 : ℕ) : ℤ) - dy) (((q.2 : ℕ) : ℤ) - dx) + noise q) err (.int 1) false nf false false
        false mas mns ah
      = .ok [.num (dx : ℝ), .num (dy : ℝ)] := by
  have n1 := Nat.pos_of_ne_zero (NeZero.ne ny)
  have n2 := Nat.pos_of_ne_zero (NeZero.ne nx)
  generalize him2 : (fun q : Fin ny × Fin nx => Spec.plane im1 (((q.1 : ℕ) : ℤ) - dy) (((q.2 : ℕ) : ℤ) - dx) + noise q) = im2
  obtain ⟨cm, hcm, -⟩ := chi2nMapBodyB_fill cfg pad hp pos_of_neZero (realArr im1) (realArr im2) err false false ah h
  have hmap : chi2nMapB cfg (.fill pad) (realArr im1) (realArr im2) err false false false ah = .ok (.only cm.chi2) := by
    rw [chi2nMapB_same, hcm]; rfl
  let base : Fin ny × Fin nx → ℝ := fun i => ∑ q : Fin ny × Fin nx,
    (Spec.plane im1 (((q.1 : ℕ) : ℤ) - (((ny - 1) / 2 : ℕ) - ((i.1 : ℕ) : ℤ)))
        (((q.2 : ℕ) : ℤ) - (((nx - 1) / 2 : ℕ) - ((i.2 : ℕ) : ℤ))) - im2 q) ^ 2 / σ q ^ 2
  let q : Fin ny × Fin nx := (⟨(((ny - 1) / 2 : ℕ) - dy : ℤ).toNat, by omega⟩, ⟨(((nx - 1) / 2 : ℕ) - dx : ℤ).toNat, by omega⟩)
  have q1 : ((q.1 : ℕ) : ℤ) = ((ny - 1) / 2 : ℕ) - dy := by
    show (((((ny - 1) / 2 : ℕ) - dy : ℤ).toNat : ℕ) : ℤ) = _
    omega
  have q2 : ((q.2 : ℕ) : ℤ) = ((nx - 1) / 2 : ℕ) - dx := by
    show (((((nx - 1) / 2 : ℕ) - dx : ℤ).toNat : ℕ) : ℤ) = _
    omega
  have nn : ∀ im : Fin ny × Fin nx → ℝ, Spec.nan0 (realArr im) = im := fun _ => rfl
  have himg : ∀ c, chi2nMapB cfg (.fill pad) (realArr im1) (realArr im2) (.image (realArr σ)) false false false ah = .ok (.only c) →
      ∀ i, c i = base i := by
    intro c hc i
    obtain ⟨c', k, e⟩ := C93_error_image cfg pad hp ah h (realArr im1) (realArr im2) (realArr σ)
    obtain rfl : c = c' := by rw [hc] at k; simpa using k
    rw [e]
    simp only [nn, hσ, if_false]
    rfl
  have hval : cm.chi2 q = base q ∧ ∀ i, base i ≤ cm.chi2 i := by
    rcases he with ⟨s, hes, hs', hin⟩ | rfl
    · have hs : s ≠ 0 := by rw [← hs' (0, 0)]; exact hσ _
      obtain rfl : σ = fun _ => s := by funext p; exact hs' p
      obtain ⟨c0, k0, e0⟩ := C93_scalar_error cfg pad hp ah h (realArr im1) (realArr im2) err s hs hes
      obtain ⟨c, c', k1, k2, hcc⟩ := C93_scalar_vs_image cfg pad hp ah h (realArr im1) (realArr im2) s hs
      obtain ⟨cs, k3, e3⟩ := C93_scalar_error cfg pad hp ah h (realArr im1) (realArr im2) (.scalar s) s hs rfl
      obtain rfl : c = cs := by rw [k1] at k3; simpa using k3
      obtain rfl : cm.chi2 = c0 := by rw [hmap] at k0; simpa using k0
      have hc0 : ∀ i, cm.chi2 i = c i := fun i => by rw [e0, e3]
      refine ⟨?_, fun i => ?_⟩
      · rw [hc0, hcc, himg c' k2, add_eq_left]
        refine Finset.sum_eq_zero fun p _ => ?_
        split_ifs with hc
        · rfl
        · by_cases hp0 : im1 p = 0
          · rw [nn]; simp [hp0]
          · exfalso
            apply hc
            rw [q1, q2, sub_sub_cancel, sub_sub_cancel]
            exact hin p hp0
      · rw [hc0, hcc, himg c' k2]
        exact le_add_of_nonneg_right (Finset.sum_nonneg fun p _ => by split_ifs <;> positivity)
    · exact ⟨himg _ hmap q, fun i => (himg _ hmap i).ge⟩
  have h0 : base q = ∑ p, noise p ^ 2 / σ p ^ 2 := by
    refine Finset.sum_congr rfl fun r _ => ?_
    rw [q1, q2, sub_sub_cancel, sub_sub_cancel, ← him2]
    ring
  have hlt : ∀ i, i ≠ q → cm.chi2 q < cm.chi2 i := by
    intro i hi
    rw [hval.1]
    refine lt_of_lt_of_le ?_ (hval.2 i)
    have hne : ¬ ((((ny - 1) / 2 : ℕ) : ℤ) - ((i.1 : ℕ) : ℤ) = dy ∧ (((nx - 1) / 2 : ℕ) : ℤ) - ((i.2 : ℕ) : ℤ) = dx) := by
      rintro ⟨c1, c2⟩
      exact hi (Prod.ext (Fin.ext (by omega)) (Fin.ext (by omega)))
    have hn := hnoise _ _ hne
    have hb : ∑ p : Fin ny × Fin nx, (Spec.plane im1 (((p.1 : ℕ) : ℤ) - (((ny - 1) / 2 : ℕ) - ((i.1 : ℕ) : ℤ)))
          (((p.2 : ℕ) : ℤ) - (((nx - 1) / 2 : ℕ) - ((i.2 : ℕ) : ℤ)))
          - Spec.plane im1 (((p.1 : ℕ) : ℤ) - dy) (((p.2 : ℕ) : ℤ) - dx)) ^ 2 / σ p ^ 2
        ≤ 2 * base i + 2 * ∑ p, noise p ^ 2 / σ p ^ 2 := by
      rw [Finset.mul_sum, Finset.mul_sum, ← Finset.sum_add_distrib]
      refine Finset.sum_le_sum fun p _ => ?_
      have hp : 0 < σ p ^ 2 := by have := hσ p; positivity
      rw [← mul_div_assoc, ← mul_div_assoc, ← add_div]
      apply div_le_div_of_nonneg_right _ hp.le
      rw [← him2]
      beta_reduce
      generalize Spec.plane im1 (((p.1 : ℕ) : ℤ) - (((ny - 1) / 2 : ℕ) - ((i.1 : ℕ) : ℤ)))
          (((p.2 : ℕ) : ℤ) - (((nx - 1) / 2 : ℕ) - ((i.2 : ℕ) : ℤ))) = A
      generalize Spec.plane im1 (((p.1 : ℕ) : ℤ) - dy) (((p.2 : ℕ) : ℤ) - dx) = B
      nlinarith [sq_nonneg (A - (B + noise p) - noise p)]
    rw [h0]
    linarith
  rw [chi2ShiftB_one cfg (.fill pad) st hst _ _ err false nf mas mns ah hy cm hcm q hlt]
  have e1 : (((ny - 1) / 2 : ℕ) : ℝ) - ((q.1 : ℕ) : ℝ) = (dy : ℝ) := by
    have : (dy : ℤ) = ((((ny - 1) / 2 : ℕ) : ℤ)) - ((q.1 : ℕ) : ℤ) := by omega
    rw [this, Int.cast_sub, Int.cast_natCast, Int.cast_natCast]
  have e2 : (((nx - 1) / 2 : ℕ) : ℝ) - ((q.2 : ℕ) : ℝ) = (dx : ℝ) := by
    have : (dx : ℤ) = ((((nx - 1) / 2 : ℕ) : ℤ)) - ((q.2 : ℕ) : ℤ) := by omega
    rw [this, Int.cast_sub, Int.cast_natCast, Int.cast_natCast]
  rw [e1, e2]

/-! ### C97: sub-pixel accuracy -/

/-- root of the sum of squares -/
noncomputable def l2 {ι : Type} [Fintype ι] (f : ι → ℂ) : ℝ := Real.sqrt (∑ p, ‖f p‖ ^ 2)

theorem l2_nonneg {ι : Type} [Fintype ι] (f : ι → ℂ) : 0 ≤ l2 f := Real.sqrt_nonneg _

theorem l2_add {ι : Type} [Fintype ι] (f g : ι → ℂ) : l2 (fun p => f p + g p) ≤ l2 f + l2 g := by
  have h := norm_add_le (WithLp.toLp 2 f) (WithLp.toLp 2 g)
  rw [EuclideanSpace.norm_eq, EuclideanSpace.norm_eq, EuclideanSpace.norm_eq] at h
  exact h

theorem l2_neg {ι : Type} [Fintype ι] (f : ι → ℂ) : l2 (fun p => -f p) = l2 f := by
  unfold l2; simp

theorem l2_le_of_sq {ι : Type} [Fintype ι] {f g : ι → ℂ} (h : ∑ p, ‖f p‖ ^ 2 ≤ ∑ p, ‖g p‖ ^ 2) : l2 f ≤ l2 g :=
  Real.sqrt_le_sqrt h

theorem l2_sub_mean {ι : Type} [Fintype ι] (f : ι → ℂ) (c : ℂ) (hc : ∑ p, f p = (Fintype.card ι : ℂ) * c) :
    l2 (fun p => f p - c) ≤ l2 f := by
  apply l2_le_of_sq
  have h : ∀ p, ‖f p‖ ^ 2 = ‖f p - c‖ ^ 2 + 2 * ((f p - c) * (starRingEnd ℂ) c).re + ‖c‖ ^ 2 := by
    intro p
    have e : f p = (f p - c) + c := by ring
    conv_lhs => rw [e]
    rw [← Complex.normSq_eq_norm_sq, ← Complex.normSq_eq_norm_sq, ← Complex.normSq_eq_norm_sq, Complex.normSq_add]
    ring
  have h2 : ∑ p, ((f p - c) * (starRingEnd ℂ) c).re = 0 := by
    rw [← Complex.re_sum, ← Finset.sum_mul, Finset.sum_sub_distrib, hc]
    simp
  simp only [h]
  rw [Finset.sum_add_distrib, Finset.sum_add_distrib, ← Finset.mul_sum, h2]
  have : 0 ≤ ∑ _p : ι, ‖c‖ ^ 2 := Finset.sum_nonneg fun _ _ => by positivity
  linarith

theorem cshift_sub_const (ty tx m : ℝ) (a : Fin ny × Fin nx → ℝ) (p : Fin ny × Fin nx) :
    cshift ty tx (fun p => a p - m) p = cshift ty tx a p - m := by
  unfold cshift
  have h1 : (fun i => ((a i - m : ℝ) : ℂ)) = fun i => (a i : ℂ) + (-m : ℂ) * 1 := by
    funext i; push_cast; ring
  rw [h1, filt_add, filt_smul]
  have h2 : filt (fun k : Fin ny × Fin nx => ex (-(freq2 tx ty k))) (fun _ => (1 : ℂ)) = fun _ => 1 := by
    have hconst : ∀ k : Fin ny × Fin nx, dft (fun _ : Fin ny × Fin nx => (1 : ℂ)) k * ex (-(freq2 tx ty k))
        = dft (fun _ : Fin ny × Fin nx => (1 : ℂ)) k := by
      intro k
      by_cases hk : k = 0
      · rw [hk, freq2_zero]; simp
      · have h0 : dft (fun _ : Fin ny × Fin nx => (1 : ℂ)) k = 0 := by
          unfold dft
          simp only [one_mul]
          rw [← map_sum, e_orth_right, if_neg hk, map_zero]
        rw [h0, zero_mul]
    unfold filt
    simp only [hconst]
    exact idft_dft _
  rw [h2]; ring

/-- shifting the second image back is as good as shifting the first image forth -/
theorem resid_swap_real (a b : Fin ny × Fin nx → ℝ) (t u : ℝ) :
    ∑ p, ‖(a p : ℂ) - cshift (-t) (-u) b p‖ ^ 2 = ∑ p, ‖cshift t u a p - (b p : ℂ)‖ ^ 2 := by
  rw [← energy_filt (fun k : Fin ny × Fin nx => ex (-(freq2 u t k))) _ fun k => norm_ex _]
  refine Finset.sum_congr rfl fun p _ => ?_
  congr 2
  have e : (fun i => (a i : ℂ) - cshift (-t) (-u) b i) = fun i => (a i : ℂ) + (-1) * cshift (-t) (-u) b i := by
    funext i; ring
  rw [e, filt_add, filt_smul]
  have h : filt (fun k => ex (-freq2 u t k)) (cshift (-t) (-u) b) = fun p => (b p : ℂ) := by
    unfold cshift
    rw [filt_filt]
    have : (fun k : Fin ny × Fin nx => ex (-freq2 (-u) (-t) k) * ex (-freq2 u t k)) = fun _ => 1 := by
      funext k
      rw [← ex_add]
      have : -freq2 (-u) (-t) k + -freq2 u t k = 0 := by unfold freq2; ring
      rw [this, ex_zero]
    rw [this, filt_one]
  rw [h]
  unfold cshift
  ring

/-- what `shift2d` returns, as the shifted image -/
theorem shift2d_cplx {cfg : FFTConfig} {im : Fin ny × Fin nx → ℝ} {dx dy : ℝ} {o : Fin ny × Fin nx → ℂ}
    (h : shift2d cfg (rArr im) dx dy 0 false false = .cplx (cArr o)) : o = cshift dy dx im := by
  rw [shift2d_eq, denan_rArr] at h
  simp only [shiftKernel_zero] at h
  rw [shiftReturn_cplx] at h
  have h1 : cArr (filt (fun k => ex (-freq2 dx dy k)) fun i => (im i : ℂ)) = cArr o := by
    injection h
  funext p
  have h2 := congrFun h1 p
  simp only [cArr, Option.some.injEq] at h2
  exact h2.symm

theorem near_best_core (zm : Bool) (im1 im2 : Fin ny × Fin nx → ℝ) (s : ℝ) (hs : s ≠ 0) (dy dx ry rx gy gx : ℝ)
    (h : Spec.resid (prep zm (realArr im1)) (prep zm (realArr im2)) s (-ry) (-rx)
      ≤ Spec.resid (prep zm (realArr im1)) (prep zm (realArr im2)) s (-gy) (-gx)) :
    l2 (fun p => cshift ry rx im1 p - cshift dy dx im1 p)
      ≤ l2 (fun p => cshift gy gx im1 p - cshift dy dx im1 p) + 2 * l2 (fun p => (im2 p : ℂ) - cshift dy dx im1 p) := by
  unfold Spec.resid at h
  rw [← Finset.sum_div, ← Finset.sum_div, div_le_div_iff_of_pos_right (by positivity), resid_swap_real, resid_swap_real,
    prep_real, prep_real] at h
  have hl := l2_le_of_sq h
  simp only [cshift_sub_const] at hl
  generalize hm1 : (if zm = true then Spec.mean im1 else 0) = m1 at hl
  generalize hm2 : (if zm = true then Spec.mean im2 else 0) = m2 at hl
  have hN : l2 (fun p => ((im2 p : ℂ) - cshift dy dx im1 p) - ((m2 - m1 : ℝ) : ℂ)) ≤ l2 (fun p => (im2 p : ℂ) - cshift dy dx im1 p) := by
    cases zm with
    | false =>
      simp only [Bool.false_eq_true, if_false] at hm1 hm2
      subst hm1 hm2
      simp
    | true =>
      simp only [if_true] at hm1 hm2
      apply l2_sub_mean
      have h := sum_filt (fun k => ex (-(freq2 dx dy k))) (fun i : Fin ny × Fin nx => (im1 i : ℂ))
      rw [freq2_zero, neg_zero, ex_zero, mul_one] at h
      rw [Finset.sum_sub_distrib]
      have e : ∑ p, cshift dy dx im1 p = ∑ p, (im1 p : ℂ) := h
      rw [e, ← hm1, ← hm2]
      have c0 : (Fintype.card (Fin ny × Fin nx) : ℝ) ≠ 0 := by
        exact_mod_cast Fintype.card_ne_zero
      unfold Spec.mean
      rw [← sub_div]
      norm_cast
      simp only [Fintype.card_prod, Fintype.card_fin] at c0 ⊢
      push_cast at c0 ⊢
      rw [mul_div_cancel₀ _ c0]
  have a1 := l2_add (fun p => cshift ry rx im1 p - m1 - ((im2 p - m2 : ℝ) : ℂ))
    (fun p => ((im2 p : ℂ) - cshift dy dx im1 p) - ((m2 - m1 : ℝ) : ℂ))
  have a2 := l2_add (fun p => cshift gy gx im1 p - cshift dy dx im1 p)
    (fun p => -(((im2 p : ℂ) - cshift dy dx im1 p) - ((m2 - m1 : ℝ) : ℂ)))
  rw [l2_neg] at a2
  have e1 : (fun p => cshift ry rx im1 p - m1 - ((im2 p - m2 : ℝ) : ℂ) + (((im2 p : ℂ) - cshift dy dx im1 p) - ((m2 - m1 : ℝ) : ℂ)))
      = fun p => cshift ry rx im1 p - cshift dy dx im1 p := by
    funext p; push_cast; ring
  have e2 : (fun p => cshift gy gx im1 p - cshift dy dx im1 p + -(((im2 p : ℂ) - cshift dy dx im1 p) - ((m2 - m1 : ℝ) : ℂ)))
      = fun p => cshift gy gx im1 p - m1 - ((im2 p - m2 : ℝ) : ℂ) := by
    funext p; push_cast; ring
  rw [e1] at a1
  rw [e2] at a2
  linarith

/-- C97: accuracy of the sub-pixel answer, no noise model assumed. Take any two real images, any displacement `(dx, dy)` and compare
`im2` with `o_d = shift2d(im1, dx, dy)`: the difference is "the noise". Then the image shifted by the reported `(rx, ry)` is as close
to `o_d` as the image shifted by any other grid point `g` of the returned arrays, up to twice the noise (root sum of squares). -/
theorem C97_near_best (cfg cfg' : FFTConfig) (st : Stats) (hst : Spec.validStats st)
    (im1 im2 : Fin ny × Fin nx → ℝ) (dy dx : ℝ) (err : ErrArg ny nx) (s : ℝ) (hs : s ≠ 0) (herr : Spec.isScalarErr err s)
    (us : UsFactor) (zm : Bool) (nf : ℝ) (mas : ℕ) (mns : ℝ) (ah : Bool) (hf : Spec.fits ah ny nx) (hus : Spec.validUs ny mas us) :
    ∃ (rx ry : ℝ) (s1 s2 : ℕ) (xv yv c : Fin s1 × Fin s2 → ℝ),
      chi2Shift cfg st (realArr im1) (realArr im2) err us zm nf false false true mas mns ah
        = .ok [.num rx, .num ry, .arrays s1 s2 xv yv c] ∧
      ∀ (o_d o_r o_g : Fin ny × Fin nx → ℂ) (g : Fin s1 × Fin s2),
        shift2d cfg' (rArr im1) dx dy 0 false false = .cplx (cArr o_d) →
        shift2d cfg' (rArr im1) rx ry 0 false false = .cplx (cArr o_r) →
        shift2d cfg' (rArr im1) (-xv g) (-yv g) 0 false false = .cplx (cArr o_g) →
        Real.sqrt (∑ p, ‖o_r p - o_d p‖ ^ 2)
          ≤ Real.sqrt (∑ p, ‖o_g p - o_d p‖ ^ 2) + 2 * Real.sqrt (∑ p, ‖(im2 p : ℂ) - o_d p‖ ^ 2) := by
  obtain ⟨cm, hcm, hchi, s1, s2, i1, i2, hg, uu, huu, hu0, yv, xv, hyv, hxv, c, hc, er, her, hres⟩ :=
    chi2Shift_scalar cfg st hst (realArr im1) (realArr im2) err s herr us zm nf mas mns ah hf hus
  refine ⟨_, _, s1, s2, xv, yv, c, (hres false true).trans rfl, ?_⟩
  intro o_d o_r o_g g hd hr hgg
  rw [shift2d_cplx hd, shift2d_cplx hr, shift2d_cplx hgg]
  have hmin := (Np.argmin_spec c).1 g
  rw [hc] at hmin
  beta_reduce at hmin
  rw [← hc] at hmin
  apply near_best_core zm im1 im2 s hs
  rw [neg_neg, neg_neg, neg_neg, neg_neg]
  exact hmin

/-! ### from images to positions -/

theorem norm_ex_sub (a b : ℝ) : ‖ex a - ex b‖ = 2 * |Real.sin (Real.pi * (a - b))| := by
  have h : ex a - ex b = ex b * (ex (a - b) - 1) := by
    rw [mul_sub, ← ex_add]; simp
  rw [h, norm_mul, norm_ex, one_mul]
  have e : ex (a - b) = Complex.exp (Complex.I * ((2 * Real.pi * (a - b) : ℝ) : ℂ)) := by
    unfold ex; congr 1; push_cast; ring
  rw [e, Complex.norm_exp_I_mul_ofReal_sub_one, norm_mul, Real.norm_eq_abs, Real.norm_eq_abs, abs_two]
  congr 3; ring

theorem norm_ex_sub_le (a b : ℝ) : ‖ex a - ex b‖ ≤ 2 * Real.pi * |a - b| := by
  rw [norm_ex_sub]
  have h : |Real.sin (Real.pi * (a - b))| ≤ |Real.pi * (a - b)| := Real.abs_sin_le_abs
  rw [abs_mul, abs_of_pos Real.pi_pos] at h
  linarith

/-- the energy of the difference of two shifts of the same image, in Fourier space -/
theorem cshift_diff_energy (a : Fin ny × Fin nx → ℝ) (t u t' u' : ℝ) :
    ((ny : ℝ) * nx) * ∑ p, ‖cshift t u a p - cshift t' u' a p‖ ^ 2
      = ∑ k, ‖dft (fun p => (a p : ℂ)) k‖ ^ 2 * ‖ex (-(freq2 u t k)) - ex (-(freq2 u' t' k))‖ ^ 2 := by
  have e : (fun p => cshift t u a p - cshift t' u' a p) = fun p => cshift t u a p + (-1) * cshift t' u' a p := by
    funext i; ring
  rw [parseval_normSq (fun p => cshift t u a p - cshift t' u' a p), e, dft_add, dft_smul, dft_cshift, dft_cshift]
  have c0 : (ny : ℝ) * nx ≠ 0 := by
    have := NeZero.ne ny; have := NeZero.ne nx; positivity
  simp only [Fintype.card_prod, Fintype.card_fin]
  push_cast
  rw [← mul_assoc, mul_one_div_cancel c0, one_mul]
  refine Finset.sum_congr rfl fun k _ => ?_
  rw [← mul_pow, ← norm_mul]
  congr 2
  ring

theorem abs_fftfreq_le (n : ℕ) [NeZero n] (k : Fin n) : |Np.fftfreq n k| ≤ 1 / 2 := by
  have hn : (0 : ℝ) < n := by exact_mod_cast Nat.pos_of_ne_zero (NeZero.ne n)
  rw [Np.fftfreq_eq, abs_div, abs_of_pos hn, div_le_iff₀ hn]
  have h1 := Np.two_fftfreqInt_lt n k k.isLt
  have h2 := Np.neg_le_two_fftfreqInt n k k.isLt
  have h1' : 2 * (Np.fftfreqInt n k : ℝ) ≤ n := by exact_mod_cast h1.le
  have h2' : -(n : ℝ) ≤ 2 * (Np.fftfreqInt n k : ℝ) := by exact_mod_cast h2
  rw [abs_le]
  constructor <;> linarith

/-- shifts that are close give images that are close -/
theorem cshift_lipschitz (a : Fin ny × Fin nx → ℝ) (t u t' u' : ℝ) :
    l2 (fun p => cshift t u a p - cshift t' u' a p)
      ≤ Real.pi * (|t - t'| + |u - u'|) * Real.sqrt (∑ p, a p ^ 2) := by
  have c0 : (0 : ℝ) < (ny : ℝ) * nx := by
    have := Nat.pos_of_ne_zero (NeZero.ne ny); have := Nat.pos_of_ne_zero (NeZero.ne nx); positivity
  have hk : ∀ k : Fin ny × Fin nx, ‖ex (-(freq2 u t k)) - ex (-(freq2 u' t' k))‖ ≤ Real.pi * (|t - t'| + |u - u'|) := by
    intro k
    refine (norm_ex_sub_le _ _).trans ?_
    have e : -(freq2 u t k) - -(freq2 u' t' k) = -((u - u') * Np.fftfreq nx k.2 + (t - t') * Np.fftfreq ny k.1) := by
      unfold freq2; ring
    rw [e, abs_neg]
    have h1 := abs_add_le ((u - u') * Np.fftfreq nx k.2) ((t - t') * Np.fftfreq ny k.1)
    rw [abs_mul, abs_mul] at h1
    have h2 := mul_le_mul_of_nonneg_left (abs_fftfreq_le nx k.2) (abs_nonneg (u - u'))
    have h3 := mul_le_mul_of_nonneg_left (abs_fftfreq_le ny k.1) (abs_nonneg (t - t'))
    have : |(u - u') * Np.fftfreq nx k.2 + (t - t') * Np.fftfreq ny k.1| ≤ (|t - t'| + |u - u'|) / 2 := by linarith
    nlinarith [Real.pi_pos]
  have hs : ∑ p, ‖cshift t u a p - cshift t' u' a p‖ ^ 2 ≤ (Real.pi * (|t - t'| + |u - u'|)) ^ 2 * ∑ p, a p ^ 2 := by
    have h1 := cshift_diff_energy a t u t' u'
    have h2 : ∑ p, a p ^ 2 = (1 / ((ny : ℝ) * nx)) * ∑ k, ‖dft (fun p => (a p : ℂ)) k‖ ^ 2 := by
      have := parseval_normSq (fun p => (a p : ℂ))
      simpa using this
    rw [← mul_le_mul_iff_right₀ c0, h1, h2]
    have e : (ny : ℝ) * nx * ((Real.pi * (|t - t'| + |u - u'|)) ^ 2 * (1 / ((ny : ℝ) * nx) * ∑ k, ‖dft (fun p => (a p : ℂ)) k‖ ^ 2))
        = ∑ k, ‖dft (fun p => (a p : ℂ)) k‖ ^ 2 * (Real.pi * (|t - t'| + |u - u'|)) ^ 2 := by
      have c1 := c0.ne'
      rw [← Finset.sum_mul]
      generalize (ny : ℝ) * nx = N at c1
      field_simp
    rw [e]
    refine Finset.sum_le_sum fun k _ => ?_
    exact mul_le_mul_of_nonneg_left (pow_le_pow_left₀ (norm_nonneg _) (hk k) 2) (by positivity)
  have hpos : 0 ≤ Real.pi * (|t - t'| + |u - u'|) := by have := Real.pi_pos; positivity
  unfold l2
  refine (Real.sqrt_le_sqrt hs).trans ?_
  rw [Real.sqrt_mul (by positivity), Real.sqrt_sq hpos]

/-- images that are close have shifts that are close, at every frequency that is present -/
theorem sin_le_l2 (a : Fin ny × Fin nx → ℝ) (t u t' u' : ℝ) (k : Fin ny × Fin nx) :
    2 * ‖dft (fun p => (a p : ℂ)) k‖ * |Real.sin (Real.pi * ((t - t') * Np.fftfreq ny k.1 + (u - u') * Np.fftfreq nx k.2))|
      ≤ Real.sqrt ((ny : ℝ) * nx) * l2 (fun p => cshift t u a p - cshift t' u' a p) := by
  have h1 := cshift_diff_energy a t u t' u'
  have h2 := Finset.single_le_sum (f := fun k => ‖dft (fun p => (a p : ℂ)) k‖ ^ 2 * ‖ex (-(freq2 u t k)) - ex (-(freq2 u' t' k))‖ ^ 2)
    (fun k _ => by positivity) (Finset.mem_univ k)
  rw [← h1] at h2
  rw [norm_ex_sub, ← mul_pow] at h2
  have h3 := Real.sqrt_le_sqrt h2
  rw [Real.sqrt_sq (by positivity), Real.sqrt_mul (by positivity)] at h3
  have e : Real.pi * (-(freq2 u t k) - -(freq2 u' t' k))
      = -(Real.pi * ((t - t') * Np.fftfreq ny k.1 + (u - u') * Np.fftfreq nx k.2)) := by
    unfold freq2; ring
  rw [e, Real.sin_neg, abs_neg] at h3
  unfold l2
  linarith

/-- `|sin(πx/n)|` is at least `2/n` times the distance of `x` to a multiple of `n` -/
theorem exists_near_multiple (n : ℕ) [NeZero n] (x : ℝ) :
    ∃ z : ℤ, |x - z * n| * 2 ≤ n * |Real.sin (Real.pi * (x / n))| := by
  have hn : (0 : ℝ) < n := by exact_mod_cast Nat.pos_of_ne_zero (NeZero.ne n)
  refine ⟨round (x / n), ?_⟩
  have hr := abs_sub_round (x / n)
  set y := x / n - round (x / n) with hy
  have hx : x - (round (x / n) : ℝ) * n = y * n := by rw [hy]; field_simp
  have hsin : |Real.sin (Real.pi * (x / n))| = |Real.sin (Real.pi * y)| := by
    have : Real.pi * y = Real.pi * (x / n) - (round (x / n) : ℤ) * Real.pi := by rw [hy]; ring
    rw [this, Real.sin_sub_int_mul_pi, abs_mul, abs_zpow]
    simp
  rw [hx, hsin, abs_mul, abs_of_pos hn]
  have key : 2 * |y| ≤ |Real.sin (Real.pi * y)| := by
    have h := Real.mul_le_sin (x := Real.pi * |y|) (by have := Real.pi_pos; positivity) (by nlinarith [Real.pi_pos])
    have e : 2 / Real.pi * (Real.pi * |y|) = 2 * |y| := by field_simp
    rw [e] at h
    refine h.trans ?_
    rcases abs_cases y with ⟨h1, -⟩ | ⟨h1, -⟩
    · rw [h1]; exact le_abs_self _
    · rw [h1, mul_neg, Real.sin_neg]; exact neg_le_abs _
  nlinarith

theorem abs_sin_fftfreq_one (n : ℕ) [NeZero n] (hn : 2 ≤ n) (x : ℝ) :
    |Real.sin (Real.pi * (x * Np.fftfreq n 1))| = |Real.sin (Real.pi * (x / n))| := by
  have h1 : ((1 : Fin n) : ℕ) = 1 := by
    rw [Fin.val_one', Nat.mod_eq_of_lt (by omega)]
  rw [Np.fftfreq_eq, h1, Np.fftfreqInt_eq n 1 (by omega)]
  split_ifs with h
  · congr 3; push_cast; ring
  · have : n = 2 := by omega
    subst this
    rw [← abs_neg (Real.sin _), ← Real.sin_neg]
    congr 2; push_cast; ring

/-- C97: how far from the truth the answer can be. For any two real images, any displacement `(dx, dy)`, with
`noise = im2 - shift2d(im1, dx, dy)`, and for every grid point `g` of the returned arrays: the error of the reported row shift
(up to whole image heights) is at most `ny/(4·|F(1,0)|)·sqrt(ny·nx)·(π·(|gy - dy| + |gx - dx|)·‖im1‖ + 2·‖noise‖)`, where `F` is the
discrete Fourier transform of `im1` and `‖·‖` is the root of the sum of squares; and the same along the other axis.  (If `(-dx, -dy)` is a
grid point, only the noise term is left.) -/
theorem C97_position (cfg cfg' : FFTConfig) (st : Stats) (hst : Spec.validStats st)
    (im1 im2 : Fin ny × Fin nx → ℝ) (hy : 2 ≤ ny) (hx : 2 ≤ nx) (dy dx : ℝ)
    (o : Fin ny × Fin nx → ℂ) (ho : shift2d cfg' (rArr im1) dx dy 0 false false = .cplx (cArr o))
    (err : ErrArg ny nx) (s : ℝ) (hs : s ≠ 0) (herr : Spec.isScalarErr err s)
    (us : UsFactor) (zm : Bool) (nf : ℝ) (mas : ℕ) (mns : ℝ) (ah : Bool) (hf : Spec.fits ah ny nx) (hus : Spec.validUs ny mas us) :
    ∃ (rx ry : ℝ) (s1 s2 : ℕ) (xv yv c : Fin s1 × Fin s2 → ℝ),
      chi2Shift cfg st (realArr im1) (realArr im2) err us zm nf false false true mas mns ah
        = .ok [.num rx, .num ry, .arrays s1 s2 xv yv c] ∧
      ∀ g : Fin s1 × Fin s2,
        (∃ z : ℤ, 4 * ‖dft (fun p => (im1 p : ℂ)) (1, 0)‖ * |ry - dy - z * ny|
          ≤ ny * Real.sqrt ((ny : ℝ) * nx) * (Real.pi * (|-yv g - dy| + |-xv g - dx|) * Real.sqrt (∑ p, im1 p ^ 2)
            + 2 * Real.sqrt (∑ p, ‖(im2 p : ℂ) - o p‖ ^ 2))) ∧
        ∃ z : ℤ, 4 * ‖dft (fun p => (im1 p : ℂ)) (0, 1)‖ * |rx - dx - z * nx|
          ≤ nx * Real.sqrt ((ny : ℝ) * nx) * (Real.pi * (|-yv g - dy| + |-xv g - dx|) * Real.sqrt (∑ p, im1 p ^ 2)
            + 2 * Real.sqrt (∑ p, ‖(im2 p : ℂ) - o p‖ ^ 2)) := by
  obtain ⟨cm, hcm, hchi, s1, s2, i1, i2, hg, uu, huu, hu0, yv, xv, hyv, hxv, c, hc, er, her, hres⟩ :=
    chi2Shift_scalar cfg st hst (realArr im1) (realArr im2) err s herr us zm nf mas mns ah hf hus
  refine ⟨_, _, s1, s2, xv, yv, c, (hres false true).trans rfl, ?_⟩
  intro g
  rw [shift2d_cplx ho]
  have hmin := (Np.argmin_spec c).1 g
  rw [hc] at hmin
  beta_reduce at hmin
  rw [← hc] at hmin
  generalize Np.argmin c = q at *
  have h1 := near_best_core zm im1 im2 s hs dy dx (-yv q) (-xv q) (-yv g) (-xv g)
    (by rw [neg_neg, neg_neg, neg_neg, neg_neg]; exact hmin)
  have h2 := cshift_lipschitz im1 (-yv g) (-xv g) dy dx
  have h3 : l2 (fun p => cshift (-yv q) (-xv q) im1 p - cshift dy dx im1 p)
      ≤ Real.pi * (|-yv g - dy| + |-xv g - dx|) * Real.sqrt (∑ p, im1 p ^ 2)
        + 2 * Real.sqrt (∑ p, ‖(im2 p : ℂ) - cshift dy dx im1 p‖ ^ 2) := by
    refine h1.trans ?_
    unfold l2 at h2 ⊢
    linarith
  generalize Real.pi * (|-yv g - dy| + |-xv g - dx|) * Real.sqrt (∑ p, im1 p ^ 2)
        + 2 * Real.sqrt (∑ p, ‖(im2 p : ℂ) - cshift dy dx im1 p‖ ^ 2) = R at h3
  have fin : ∀ (n : ℕ) [NeZero n] (F x : ℝ), 0 ≤ F → 2 * F * |Real.sin (Real.pi * (x / n))| ≤ Real.sqrt ((ny : ℝ) * nx) * R →
      ∃ z : ℤ, 4 * F * |x - z * n| ≤ n * Real.sqrt ((ny : ℝ) * nx) * R := by
    intro n _ F x hF h
    obtain ⟨z, hz⟩ := exists_near_multiple n x
    refine ⟨z, ?_⟩
    have hn : (0 : ℝ) ≤ n := Nat.cast_nonneg n
    calc 4 * F * |x - z * n| = 2 * F * (|x - z * n| * 2) := by ring
      _ ≤ 2 * F * (n * |Real.sin (Real.pi * (x / n))|) := mul_le_mul_of_nonneg_left hz (by positivity)
      _ = n * (2 * F * |Real.sin (Real.pi * (x / n))|) := by ring
      _ ≤ n * (Real.sqrt ((ny : ℝ) * nx) * R) := mul_le_mul_of_nonneg_left h hn
      _ = _ := by ring
  have h4 := mul_le_mul_of_nonneg_left h3 (Real.sqrt_nonneg ((ny : ℝ) * nx))
  constructor
  · apply fin ny _ _ (norm_nonneg _)
    have h5 := sin_le_l2 im1 (-yv q) (-xv q) dy dx (1, 0)
    simp only [Np.fftfreq_zero, mul_zero, add_zero] at h5
    rw [abs_sin_fftfreq_one ny hy] at h5
    exact h5.trans h4
  · apply fin nx _ _ (norm_nonneg _)
    have h5 := sin_le_l2 im1 (-yv q) (-xv q) dy dx (0, 1)
    simp only [Np.fftfreq_zero, mul_zero, zero_add] at h5
    rw [abs_sin_fftfreq_one nx hx] at h5
    exact h5.trans h4

end

/-! ### the hypotheses are satisfiable -/

/-- C96 applies to a single bright pixel, noise of one tenth everywhere, and every displacement. -/
example (cfg : FFTConfig) (st : Stats) (hst : Spec.validStats st) (dy dx : ℤ) :
    ∃ dx' dy' : ℤ, chi2Shift cfg st (realArr fun p : Fin 4 × Fin 5 => if p = (0, 0) then 1 else 0)
      (realArr fun p : Fin 4 × Fin 5 => Spec.roll2 dy dx (fun p : Fin 4 × Fin 5 => if p = (0, 0) then (1 : ℝ) else 0) p + 1 / 10)
      (.image (realArr fun _ => 2)) (.int 1) false 2 false false false 512 5 true = .ok [.num dx', .num dy'] ∧
      dx' ≡ dx [ZMOD 5] ∧ dy' ≡ dy [ZMOD 4] := by
  obtain ⟨dx', dy', h, cx, -, -, cy, -, -⟩ := C96_roll_with_noise (ny := 4) (nx := 5) cfg st hst
    (fun p => if p = (0, 0) then 1 else 0) (fun _ => 1 / 10) (by norm_num) dy dx (.image (realArr fun _ => 2)) (fun _ => 2)
    (fun _ => by norm_num) (.inr rfl) (fun ey ex hne => by
      let p : Fin 4 × Fin 5 := (Spec.wrap 4 dy, Spec.wrap 5 dx)
      have h1 := Finset.single_le_sum (f := fun p : Fin 4 × Fin 5 =>
        (Spec.roll2 ey ex (fun p : Fin 4 × Fin 5 => if p = (0, 0) then (1 : ℝ) else 0) p
          - Spec.roll2 dy dx (fun p : Fin 4 × Fin 5 => if p = (0, 0) then (1 : ℝ) else 0) p) ^ 2 / 2 ^ 2)
        (fun p _ => by positivity) (Finset.mem_univ p)
      refine lt_of_lt_of_le ?_ h1
      have w : ∀ (n : ℕ) [NeZero n] (d e : ℤ), Spec.wrap n (((Spec.wrap n d : Fin n) : ℕ) - e) = 0 ↔ e ≡ d [ZMOD n] := by
        intro n _ d e
        rw [Spec.wrap_eq_iff]
        have e0 : (((0 : Fin n) : ℕ) : ℤ) = 0 := by simp
        rw [e0]
        have h2 := (Spec.wrap_modEq n d).sub (Int.ModEq.refl e)
        constructor
        · intro h
          have h3 := (h2.symm.trans h).add (Int.ModEq.refl e)
          rw [sub_add_cancel, zero_add] at h3
          exact h3.symm
        · intro h
          have h3 := h2.trans (h.symm.sub (Int.ModEq.refl e))
          rwa [sub_self] at h3
      have r1 : Spec.roll2 dy dx (fun p : Fin 4 × Fin 5 => if p = (0, 0) then (1 : ℝ) else 0) p = 1 := by
        unfold Spec.roll2
        beta_reduce
        rw [if_pos]
        exact Prod.ext ((w 4 dy dy).2 rfl) ((w 5 dx dx).2 rfl)
      have r2 : Spec.roll2 ey ex (fun p : Fin 4 × Fin 5 => if p = (0, 0) then (1 : ℝ) else 0) p = 0 := by
        unfold Spec.roll2
        beta_reduce
        rw [if_neg]
        intro h
        exact hne ⟨(w 4 dy ey).1 (congrArg Prod.fst h), (w 5 dx ex).1 (congrArg Prod.snd h)⟩
      rw [r1, r2]
      simp
      norm_num) 2 512 5 true (.inl rfl)
  exact ⟨dx', dy', h, cx, cy⟩

/-- C96 (`fill`) applies to a bright pixel moved by one row, with noise of 1/20 everywhere and a scalar error. -/
example (cfg : FFTConfig) (pad : ℕ × ℕ → ℕ × ℕ → ℕ × ℕ) (hp : Spec.padsEnough pad) (st : Stats) (hst : Spec.validStats st) :
    chi2ShiftB cfg (.fill pad) st (realArr fun p : Fin 5 × Fin 5 => if p = (2, 2) then 1 else 0)
        (realArr fun q : Fin 5 × Fin 5 => Spec.plane (fun p : Fin 5 × Fin 5 => if p = (2, 2) then (1 : ℝ) else 0)
          (((q.1 : ℕ) : ℤ) - 1) (((q.2 : ℕ) : ℤ) - 0) + 1 / 20)
        .none (.int 1) false 2 false false false 512 5 true
      = .ok [.num ((0 : ℤ) : ℝ), .num ((1 : ℤ) : ℝ)] := by
  have pl : ∀ y x : ℤ, Spec.plane (fun p : Fin 5 × Fin 5 => if p = (2, 2) then (1 : ℝ) else 0) y x
      = if y = 2 ∧ x = 2 then 1 else 0 := by
    intro y x
    unfold Spec.plane
    by_cases hc : y = 2 ∧ x = 2
    · obtain ⟨rfl, rfl⟩ := hc
      rw [dif_pos (by norm_num), if_pos (by norm_num)]
      exact if_pos (Prod.ext rfl rfl)
    · rw [if_neg hc]
      split_ifs with h1
      · refine if_neg fun h2 => hc ?_
        have h3 := congrArg (fun p : Fin 5 × Fin 5 => (p.1 : ℕ)) h2
        have h4 := congrArg (fun p : Fin 5 × Fin 5 => (p.2 : ℕ)) h2
        have e2 : ((2 : Fin 5) : ℕ) = 2 := rfl
        simp only [e2] at h3 h4
        omega
      · rfl
  apply C96_move_with_noise cfg pad hp st hst true (.inl rfl) (by norm_num) (fun p : Fin 5 × Fin 5 => if p = (2, 2) then 1 else 0)
    (fun _ => 1 / 20) 1 0 (by norm_num) (by norm_num) (by norm_num) (by norm_num) .none (fun _ => 1) (fun _ => by norm_num)
    (.inl ⟨1, rfl, fun _ => rfl, fun p hp => by
      have : p = (2, 2) := by
        by_contra hne
        rw [if_neg hne] at hp
        exact hp rfl
      subst this
      decide⟩)
  intro ey ex hne
  have h1 := Finset.single_le_sum (f := fun q : Fin 5 × Fin 5 =>
    (Spec.plane (fun p : Fin 5 × Fin 5 => if p = (2, 2) then (1 : ℝ) else 0) (((q.1 : ℕ) : ℤ) - ey) (((q.2 : ℕ) : ℤ) - ex)
      - Spec.plane (fun p : Fin 5 × Fin 5 => if p = (2, 2) then (1 : ℝ) else 0) (((q.1 : ℕ) : ℤ) - 1) (((q.2 : ℕ) : ℤ) - 0)) ^ 2 / 1 ^ 2)
    (fun p _ => by positivity) (Finset.mem_univ (3, 2))
  refine lt_of_lt_of_le ?_ h1
  have e3 : (((3 : Fin 5) : ℕ) : ℤ) = 3 := rfl
  have e2 : (((2 : Fin 5) : ℕ) : ℤ) = 2 := rfl
  rw [pl, pl, e3, e2, if_neg (by omega), if_pos (by norm_num)]
  simp
  norm_num

/-- C97 applies to every pair of images, every displacement and the automatic upsampling factor. -/
example (cfg : FFTConfig) (st : Stats) (hst : Spec.validStats st) (im1 im2 : Fin 6 × Fin 7 → ℝ) (dy dx : ℝ) :
    ∃ (o : Fin 6 × Fin 7 → ℂ) (rx ry : ℝ) (s1 s2 : ℕ) (xv yv c : Fin s1 × Fin s2 → ℝ),
      shift2d cfg (rArr im1) dx dy 0 false false = .cplx (cArr o) ∧
      chi2Shift cfg st (realArr im1) (realArr im2) (.scalar 3) .auto true 2 false false true 512 5 true
        = .ok [.num rx, .num ry, .arrays s1 s2 xv yv c] := by
  have ho : shift2d cfg (rArr im1) dx dy 0 false false = .cplx (cArr (cshift dy dx im1)) := by
    rw [shift2d_eq, denan_rArr]
    simp only [shiftKernel_zero]
    rw [shiftReturn_cplx]
    rfl
  obtain ⟨rx, ry, s1, s2, xv, yv, c, h, -⟩ := C97_position cfg cfg st hst im1 im2 (by norm_num) (by norm_num) dy dx _ ho
    (.scalar 3) 3 (by norm_num) rfl .auto true 2 512 5 true (.inl rfl) (by show 0 < 512; norm_num)
  exact ⟨_, rx, ry, s1, s2, xv, yv, c, ho, h⟩

end ImgReg
