import Verif.Props.RegisterSymm
import Verif.Props.Chi2Shift
import Verif.Props.CrossCorr

/-!
# The two axes are treated alike (C120)

Transposing the images transposes the maps and exchanges the two shifts: no function confuses the axes, whatever the (rectangular) size.
-/

open Complex Finset
open scoped ComplexConjugate

namespace ImgReg

/-- the transposed array, `a.T` -/
def Spec.transpose {ny nx : ℕ} {α : Type} (a : Fin ny × Fin nx → α) : Fin nx × Fin ny → α := fun p => a (p.2, p.1)

/-- the transposed error argument -/
def Spec.transposeErr {ny nx : ℕ} : ErrArg ny nx → ErrArg nx ny
  | .none => .none
  | .scalar s => .scalar s
  | .image e => .image (Spec.transpose e)

/-- term 3 of the transposed map -/
def Spec.transposeTerm3 {ny nx : ℕ} : Term3 ny nx → Term3 nx ny
  | .scalar t => .scalar t
  | .image t => .image (Spec.transpose t)

/-- the transposed result of `chi2n_map`: the arrays are transposed -/
def Spec.transposeRet {ny nx : ℕ} : Chi2Ret ny nx → Chi2Ret nx ny
  | .only c => .only (Spec.transpose c)
  | .all m => .all ⟨Spec.transpose m.chi2, m.term1, Spec.transpose m.term2, Spec.transposeTerm3 m.term3⟩

/-- the transposed result of `shift2d` -/
def Spec.transposeOut {ny nx : ℕ} : NdOut (Fin ny × Fin nx) → NdOut (Fin nx × Fin ny)
  | .real a => .real (Spec.transpose a)
  | .cplx a => .cplx (Spec.transpose a)

section
variable {ny nx : ℕ} [NeZero ny] [NeZero nx]

theorem sum_transpose {β : Type} [AddCommMonoid β] {m n : ℕ} (f : Fin n × Fin m → β) : ∑ p : Fin m × Fin n, f (p.2, p.1) = ∑ p, f p :=
  Fintype.sum_equiv (Equiv.prodComm (Fin m) (Fin n)) _ _ fun _ => rfl

theorem e_swap (k j : Fin ny × Fin nx) : e (k.2, k.1) (j.2, j.1) = e k j := by
  rw [e_prod, e_prod]; exact mul_comm _ _

theorem dft_transpose (x : Fin ny × Fin nx → ℂ) : dft (Spec.transpose x) = Spec.transpose (dft x) := by
  funext k
  have h := sum_transpose fun j : Fin ny × Fin nx => x j * conj (e (k.2, k.1) j)
  refine Eq.trans ?_ h
  refine Finset.sum_congr rfl fun j _ => ?_
  rw [e_swap]; rfl

theorem idft_transpose (x : Fin ny × Fin nx → ℂ) : idft (Spec.transpose x) = Spec.transpose (idft x) := by
  funext k
  have h := sum_transpose fun j : Fin ny × Fin nx => x j * e j (k.2, k.1)
  have hc : (Fintype.card (Fin nx × Fin ny) : ℂ) = Fintype.card (Fin ny × Fin nx) := by
    simp only [Fintype.card_prod, Fintype.card_fin, Nat.cast_mul, mul_comm]
  unfold idft
  show _ = 1 / (Fintype.card (Fin ny × Fin nx) : ℂ) * ∑ j : Fin ny × Fin nx, x j * e j (k.2, k.1)
  rw [hc, ← h]
  congr 1
  refine Finset.sum_congr rfl fun j _ => ?_
  rw [e_swap]; rfl

theorem filt_transpose (K x : Fin ny × Fin nx → ℂ) :
    filt (Spec.transpose K) (Spec.transpose x) = Spec.transpose (filt K x) := by
  unfold filt
  rw [dft_transpose]
  exact idft_transpose fun k => dft x k * K k

omit [NeZero ny] [NeZero nx] in
theorem freq2_transpose (dx dy : ℝ) (k : Fin nx × Fin ny) : freq2 dy dx k = freq2 dx dy (k.2, k.1) := by
  unfold freq2; exact add_comm _ _

/-- C120: `shift2d` of the transposed array with the two shifts exchanged is the transposed `shift2d`. -/
theorem C120_shift2d (cfg : FFTConfig) (data : Fin ny × Fin nx → CPix) (deltax deltay phase : ℝ) (ra rr : Bool) :
    shift2d cfg (Spec.transpose data) deltay deltax phase ra rr = Spec.transposeOut (shift2d cfg data deltax deltay phase ra rr) := by
  rw [shift2d_eq, shift2d_eq]
  have e1 : (fun k : Fin nx × Fin ny => shiftKernel (freq2 deltay deltax k) phase)
      = Spec.transpose fun k => shiftKernel (freq2 deltax deltay k) phase := by
    funext k; rw [freq2_transpose]; rfl
  have e2 : denan (Spec.transpose data) = Spec.transpose (denan data) := rfl
  rw [e1, e2, filt_transpose]
  unfold shiftReturn
  cases rr <;> cases ra <;> rfl

theorem move_transpose (dy dx : ℤ) (p : Fin nx × Fin ny) :
    Spec.move dx dy p = ((Spec.move dy dx (p.2, p.1)).2, (Spec.move dy dx (p.2, p.1)).1) := rfl

theorem xcorr_transpose (a b : Fin ny × Fin nx → ℝ) :
    Spec.xcorr (Spec.transpose a) (Spec.transpose b) = Spec.transpose (Spec.xcorr a b) := by
  funext i
  unfold Spec.xcorr
  exact sum_transpose fun p : Fin ny × Fin nx => a p * b (Spec.move ((Spec.zeroLag ny : ℤ) - ((i.2 : ℕ) : ℤ))
    ((Spec.zeroLag nx : ℤ) - ((i.1 : ℕ) : ℤ)) p)

omit [NeZero ny] [NeZero nx] in
theorem fits_transpose (ah : Bool) : Spec.fits ah nx ny ↔ Spec.fits ah ny nx := by
  unfold Spec.fits; rw [mul_comm ny nx]

/-- C120: `correlate2d` of the transposed images is the transposed `correlate2d` (or the same exception). -/
theorem C120_correlate2d (cfg : FFTConfig) (ah : Bool) (a b : Fin ny × Fin nx → Pix) :
    correlate2d cfg ah (Spec.transpose a) (Spec.transpose b) = (correlate2d cfg ah a b).map Spec.transpose := by
  by_cases h : Spec.fits ah ny nx
  · rw [correlate2d_nan0 cfg ah h, correlate2d_nan0 cfg ah ((fits_transpose ah).2 h)]
    have e1 : Spec.nan0 (Spec.transpose a) = Spec.transpose (Spec.nan0 a) := rfl
    have e2 : Spec.nan0 (Spec.transpose b) = Spec.transpose (Spec.nan0 b) := rfl
    rw [e1, e2, xcorr_transpose]
    rfl
  · rw [correlate2d_huge cfg ah h, correlate2d_huge cfg ah (fun hc => h ((fits_transpose ah).1 hc))]
    rfl

omit [NeZero ny] [NeZero nx] in
theorem prep_transpose (zm : Bool) (im : Fin ny × Fin nx → Pix) : prep zm (Spec.transpose im) = Spec.transpose (prep zm im) := by
  have h1 : (univ.filter fun p : Fin nx × Fin ny => (Spec.transpose im p).isSome).card = (univ.filter fun p => (im p).isSome).card := by
    rw [Finset.card_filter, Finset.card_filter]
    exact sum_transpose fun p : Fin ny × Fin nx => if (im p).isSome then 1 else 0
  have h2 : ∑ p, (Spec.transpose im p).getD 0 = ∑ p, (im p).getD 0 := sum_transpose fun p : Fin ny × Fin nx => (im p).getD 0
  have h : Spec.finiteMean (Spec.transpose im) = Spec.finiteMean im := by
    unfold Spec.finiteMean; rw [h1, h2]
  funext p
  unfold prep
  rw [h]; rfl

omit [NeZero ny] [NeZero nx] in
theorem errOf_transpose (err : ErrArg ny nx) : Spec.errOf (Spec.transposeErr err) = Spec.transpose (Spec.errOf err) := by
  cases err <;> rfl

omit [NeZero ny] [NeZero nx] in
theorem maskOf_transpose (err : ErrArg ny nx) (im : Fin ny × Fin nx → ℝ) :
    Spec.maskOf (Spec.transposeErr err) (Spec.transpose im) = Spec.transpose (Spec.maskOf err im) := by
  cases err <;> rfl

/-- the map of the transposed images -/
theorem chi2nMapBody_transpose (cfg : FFTConfig) (im1 im2 : Fin ny × Fin nx → Pix) (err : ErrArg ny nx) (zm red ah : Bool) :
    chi2nMapBody cfg (Spec.transpose im1) (Spec.transpose im2) (Spec.transposeErr err) zm red ah
      = (chi2nMapBody cfg im1 im2 err zm red ah).map fun m =>
        ⟨Spec.transpose m.chi2, m.term1, Spec.transpose m.term2, Spec.transposeTerm3 m.term3⟩ := by
  by_cases h : Spec.fits ah ny nx
  swap
  · rw [chi2nMapBody_huge _ _ _ _ _ _ _ h, chi2nMapBody_huge _ _ _ _ _ _ _ fun hc => h ((fits_transpose ah).1 hc)]
    rfl
  obtain ⟨⟨c, t1, t2, t3⟩, hm, h1, h2, h3, h4, h5⟩ := chi2nMapBody_eq cfg im1 im2 err zm red ah h
  obtain ⟨⟨c', t1', t2', t3'⟩, hm', h1', h2', h3', h4', h5'⟩ := chi2nMapBody_eq cfg (Spec.transpose im1) (Spec.transpose im2)
    (Spec.transposeErr err) zm red ah ((fits_transpose ah).2 h)
  rw [hm, hm']
  simp only at h1 h2 h3 h4 h5 h1' h2' h3' h4' h5'
  rw [prep_transpose] at h1' h2' h3'
  rw [prep_transpose] at h2'
  rw [maskOf_transpose, errOf_transpose] at h1' h2' h3'
  rw [maskOf_transpose] at h2'
  have k1 : t1' = t1 := by
    rw [h1', h1]
    exact sum_transpose fun p : Fin ny × Fin nx => Spec.maskOf err (prep zm im2) p ^ 2 / Spec.errOf err p ^ 2
  have k2 : t2' = Spec.transpose t2 := by
    rw [h2', h2]
    have := xcorr_transpose (Spec.maskOf err (prep zm im1)) fun j => Spec.maskOf err (prep zm im2) j / Spec.errOf err j ^ 2
    funext i
    have := congrFun this i
    show -2 * Spec.xcorr _ (Spec.transpose fun j => Spec.maskOf err (prep zm im2) j / Spec.errOf err j ^ 2) i = _
    rw [this]; rfl
  have k3 : ∀ i : Fin nx × Fin ny, t3'.at i = t3.at (i.2, i.1) := by
    intro i
    rw [h3', h3]
    exact sum_transpose fun p : Fin ny × Fin nx => Spec.maskOf err (prep zm im1) p ^ 2 *
      (1 / Spec.errOf err (Spec.move (Spec.lag ny i.2) (Spec.lag nx i.1) p) ^ 2)
  have k4 : t3' = Spec.transposeTerm3 t3 := by
    have hi : (∃ e, Spec.transposeErr err = ErrArg.image e) ↔ ∃ e, err = ErrArg.image e := by
      cases err <;> simp [Spec.transposeErr]
    rw [hi, ← h4] at h4'
    cases t3 with
    | scalar t =>
      cases t3' with
      | scalar t' => have := k3 (0, 0); simp only [Term3.at] at this; rw [this]; rfl
      | image t' => simp at h4'
    | image t =>
      cases t3' with
      | scalar t' => simp at h4'
      | image t' => have : t' = Spec.transpose t := funext fun i => k3 i
                    rw [this]; rfl
  have k5 : c' = Spec.transpose c := by
    funext i
    show c' i = c (i.2, i.1)
    rw [h5', h5, k3, k1, k2, mul_comm (nx : ℝ)]
    rfl
  rw [k1, k2, k4, k5]
  rfl

/-- C120: `chi2n_map` of the transposed images and errors is the transposed `chi2n_map` (or the same exception), whatever the flags. -/
theorem C120_chi2n_map (cfg : FFTConfig) (im1 im2 : Fin ny × Fin nx → Pix) (err : ErrArg ny nx) (zm ra red ah : Bool) :
    chi2nMap cfg (Spec.transpose im1) (Spec.transpose im2) (Spec.transposeErr err) zm ra red ah
      = (chi2nMap cfg im1 im2 err zm ra red ah).map Spec.transposeRet := by
  rw [chi2nMap_same, chi2nMap_same, chi2nMapBody_transpose]
  cases chi2nMapBody cfg im1 im2 err zm red ah with
  | error e => rfl
  | ok m => cases ra <;> rfl

/-! ### `cross_correlation_shifts` -/

omit [NeZero ny] [NeZero nx] in
theorem ext0_transpose (c : Fin ny × Fin nx → ℝ) (y x : ℤ) : Spec.ext0 (Spec.transpose c) x y = Spec.ext0 c y x := by
  unfold Spec.ext0
  by_cases h : (0 ≤ y ∧ y < ny) ∧ (0 ≤ x ∧ x < nx)
  · rw [dif_pos h, dif_pos h.symm]; rfl
  · rw [dif_neg h, dif_neg fun hc => h hc.symm]

/-- the position of a unique largest value -/
theorem argmax_transpose (c : Fin ny × Fin nx → ℝ) (h : ∀ j, j ≠ Np.argmax c → c j < c (Np.argmax c)) :
    Np.argmax (Spec.transpose c) = ((Np.argmax c).2, (Np.argmax c).1) := by
  apply Np.argmax_eq_of_unique
  intro j hj
  exact h (j.2, j.1) fun hc => hj (by rw [← hc])

theorem argmin_transpose (c : Fin ny × Fin nx → ℝ) (h : ∀ j, j ≠ Np.argmin c → c (Np.argmin c) < c j) :
    Np.argmin (Spec.transpose c) = ((Np.argmin c).2, (Np.argmin c).1) := by
  apply Np.argmin_eq_of_unique
  intro j hj
  exact h (j.2, j.1) fun hc => hj (by rw [← hc])

theorem ccFromMap_transpose (cfg : FFTConfig) (ah : Bool) (hf : Spec.fits ah ny nx) (agpy : Agpy ny nx) (agpy' : Agpy nx ny)
    (a b c : Fin ny × Fin nx → ℝ) (a' b' : Fin nx × Fin ny → ℝ)
    (e1 e2 : Option (Fin ny × Fin nx → Pix)) (e1' e2' : Option (Fin nx × Fin ny → Pix)) (mo : Option ℕ)
    (h : ∀ j, j ≠ Np.argmax c → c j < c (Np.argmax c)) :
    ccFromMap cfg ah agpy' a' b' (Spec.transpose c) e1' e2' mo false false
      = (ccFromMap cfg ah agpy a b c e1 e2 mo false false).map List.reverse := by
  have harg := argmax_transpose c h
  have hf' := (fits_transpose ah).2 hf
  have hv : Spec.transpose c (Np.argmax (Spec.transpose c)) = c (Np.argmax c) := by rw [harg]; rfl
  by_cases h0 : c (Np.argmax c) = 0
  · rw [ccFromMap_zero _ _ _ _ _ _ _ _ _ _ _ h0, ccFromMap_zero _ _ _ _ _ _ _ _ _ _ _ (by rw [hv, h0])]
    rfl
  have h0' : Spec.transpose c (Np.argmax (Spec.transpose c)) ≠ 0 := by rw [hv]; exact h0
  cases mo with
  | some k =>
    rw [ccFromMap_maxoff _ _ _ _ _ _ _ _ _ _ _ h0, ccFromMap_maxoff _ _ _ _ _ _ _ _ _ _ _ h0']
    rfl
  | none =>
    by_cases hedge : ((Np.argmax c).1 : ℕ) = 0 ∨ ((Np.argmax c).2 : ℕ) = 0
    · rw [ccFromMap_edge _ _ hf _ _ _ _ _ _ _ h0 hedge,
        ccFromMap_edge _ _ hf' _ _ _ _ _ _ _ h0' (by rw [harg]; exact hedge.symm)]
      rfl
    · rw [ccFromMap_eq cfg ah hf agpy a b c e1 e2 false h0 (by omega) (by omega) _ _ rfl rfl _ _ _ _ _ rfl rfl rfl rfl rfl,
        ccFromMap_eq cfg ah hf' agpy' a' b' _ e1' e2' false h0' (by rw [harg]; dsimp only; omega) (by rw [harg]; dsimp only; omega)
          _ _ rfl rfl _ _ _ _ _ rfl rfl rfl rfl rfl]
      simp only [Bool.false_eq_true, if_false, Except.map, List.reverse_cons, List.reverse_nil, List.nil_append, List.cons_append]
      rw [harg]
      dsimp only
      generalize (((Np.argmax c).1 : ℕ) : ℤ) = y
      generalize (((Np.argmax c).2 : ℕ) : ℤ) = x
      have e1 : Spec.curvX (Spec.ext0 (Spec.transpose c)) x y = Spec.curvY (Spec.ext0 c) y x := by
        unfold Spec.curvX Spec.curvY; simp only [ext0_transpose]
      have e2 : Spec.curvY (Spec.ext0 (Spec.transpose c)) x y = Spec.curvX (Spec.ext0 c) y x := by
        unfold Spec.curvX Spec.curvY; simp only [ext0_transpose]
      have e3 : Spec.mixed (Spec.ext0 (Spec.transpose c)) x y = Spec.mixed (Spec.ext0 c) y x := by
        unfold Spec.mixed; simp only [ext0_transpose]; ring
      have e4 : Spec.slopeX ny (Spec.ext0 (Spec.transpose c)) x y = Spec.slopeY ny (Spec.ext0 c) y x := by
        unfold Spec.slopeX Spec.slopeY; simp only [ext0_transpose]
      have e5 : Spec.slopeY nx (Spec.ext0 (Spec.transpose c)) x y = Spec.slopeX nx (Spec.ext0 c) y x := by
        unfold Spec.slopeX Spec.slopeY; simp only [ext0_transpose]
      rw [e1, e2, e3, e4, e5, mul_comm (Spec.curvY _ _ _) (Spec.curvX _ _ _)]

theorem ccMap_transpose (a b : Fin ny × Fin nx → ℝ) :
    Spec.ccMap (Spec.transpose a) (Spec.transpose b) = Spec.transpose (Spec.ccMap a b) := by
  unfold Spec.ccMap
  rw [xcorr_transpose, mul_comm ny nx]
  rfl

/-- C120: `cross_correlation_shifts` of the transposed images returns the two shifts in the other order (or the same exception), when
the correlation has a unique largest value (ties are broken row by row, so a tie can break the symmetry). -/
theorem C120_cross_correlation_shifts (cfg : FFTConfig) (agpy : Agpy ny nx) (agpy' : Agpy nx ny) (im1 im2 : Fin ny × Fin nx → Pix)
    (e1 e2 : Option (Fin ny × Fin nx → Pix)) (mo : Option ℕ) (zm ah : Bool) (loc : Fin ny × Fin nx)
    (hloc : ∀ j, j ≠ loc → Spec.xcorr (prep zm im1) (prep zm im2) j < Spec.xcorr (prep zm im1) (prep zm im2) loc) :
    crossCorrelationShifts cfg agpy' (Spec.transpose im1) (Spec.transpose im2) (e1.map Spec.transpose) (e2.map Spec.transpose)
        mo false false zm ah
      = (crossCorrelationShifts cfg agpy im1 im2 e1 e2 mo false false zm ah).map List.reverse := by
  by_cases hf : Spec.fits ah ny nx
  · rw [ccShifts_eq _ _ _ _ _ _ _ _ _ _ _ hf, ccShifts_eq _ _ _ _ _ _ _ _ _ _ _ ((fits_transpose ah).2 hf), prep_transpose,
      prep_transpose, ccMap_transpose]
    have hu : ∀ j, j ≠ loc → Spec.ccMap (prep zm im1) (prep zm im2) j < Spec.ccMap (prep zm im1) (prep zm im2) loc := by
      intro j hj
      have : (0 : ℝ) < ((ny * nx : ℕ) : ℝ) := by
        exact_mod_cast Nat.mul_pos (Nat.pos_of_ne_zero (NeZero.ne ny)) (Nat.pos_of_ne_zero (NeZero.ne nx))
      exact div_lt_div_of_pos_right (hloc j hj) this
    have harg : Np.argmax (Spec.ccMap (prep zm im1) (prep zm im2)) = loc := Np.argmax_eq_of_unique hu
    apply ccFromMap_transpose cfg ah hf
    rw [harg]; exact hu
  · unfold crossCorrelationShifts
    rw [dif_pos ⟨rfl, rfl⟩, dif_pos ⟨rfl, rfl⟩]
    unfold ccShiftsBody
    simp only [correlate2d_huge cfg ah hf, correlate2d_huge cfg ah (fun hc => hf ((fits_transpose ah).1 hc)), bind, Except.bind]
    rfl

/-! ### `register_images` -/

theorem cshift_transpose (t u : ℝ) (b : Fin ny × Fin nx → ℝ) : cshift u t (Spec.transpose b) = Spec.transpose (cshift t u b) := by
  unfold cshift
  rw [← filt_transpose]
  congr 1
  funext k
  rw [freq2_transpose]; rfl

theorem cc_transpose (a b : Fin ny × Fin nx → ℝ) (t u : ℝ) : Spec.cc (Spec.transpose a) (Spec.transpose b) u t = Spec.cc a b t u := by
  unfold Spec.cc
  rw [cshift_transpose]
  exact sum_transpose fun p : Fin ny × Fin nx => (a p : ℂ) * conj (cshift t u b p)

omit [NeZero ny] [NeZero nx] in
theorem ClearMatch.transpose {F : ℝ → ℝ → ℝ} {usfac : ℕ} {row2 col2 t0 u0 : ℝ} (h : Spec.ClearMatch F ny nx usfac row2 col2 t0 u0) :
    Spec.ClearMatch (fun t u => F u t) nx ny usfac col2 row2 u0 t0 := by
  obtain ⟨⟨j, k, h1, h2, h3, h4, h5⟩, hf⟩ := h
  refine ⟨⟨k, j, h2, h1, h4, h3, fun j' k' a b hne => h5 k' j' b a fun hc => hne ?_⟩, ?_⟩
  · rw [Prod.mk.injEq] at hc ⊢; exact hc.symm
  · by_cases hu : usfac ≤ 2
    · rw [if_pos hu] at hf ⊢; exact hf.symm
    · rw [if_neg hu] at hf ⊢
      obtain ⟨f1, f2, f3, f4, f5⟩ := hf
      refine ⟨f2, f1, f4, f3, fun z w a b hne => f5 w z b a fun hc => hne ?_⟩
      rw [Prod.mk.injEq] at hc ⊢; exact hc.symm

/-- C120: `register_images` of the transposed images returns the two shifts in the other order, for every `usfac`, when one displacement
is clearly the best match. -/
theorem C120_register_images (cfg : FFTConfig) (im1 im2 : Fin ny × Fin nx → Pix) (usfac : ℕ) (hu : 1 ≤ usfac)
    (hsz : usfac = 1 ∨ (2 ≤ ny ∧ 2 ≤ nx)) (zm : Bool) (row2 col2 t0 u0 : ℝ)
    (h : Spec.ClearMatch (fun t u => ‖Spec.cc (prep zm im1) (prep zm im2) t u‖) ny nx usfac row2 col2 t0 u0) :
    ∃ dx dy : ℝ, registerImages cfg im1 im2 usfac false false zm none = .ok [.num dx, .num dy] ∧
      registerImages cfg (Spec.transpose im1) (Spec.transpose im2) usfac false false zm none = .ok [.num dy, .num dx] := by
  refine ⟨_, _, C119_clear_match cfg im1 im2 usfac hu hsz zm row2 col2 t0 u0 h, ?_⟩
  apply C119_clear_match cfg _ _ usfac hu (hsz.imp_right And.symm) zm col2 row2 u0 t0
  have := ClearMatch.transpose h
  convert this using 3
  rename_i t u
  rw [prep_transpose, prep_transpose, cc_transpose]

/-! ### `chi2_shift` -/

theorem interp2C_transpose (x : Fin ny × Fin nx → ℂ) (ty tx : ℝ) : interp2C (Spec.transpose x) tx ty = interp2C x ty tx := by
  unfold interp2C
  rw [idft_transpose, ← sum_transpose]
  refine Finset.sum_congr rfl fun k _ => ?_
  show idft x (k.1, k.2) * _ * _ = _
  rw [mul_right_comm]

theorem minOver_transpose {m n : ℕ} (S : Finset (Fin m × Fin n)) (S' : Finset (Fin n × Fin m)) (h : S.Nonempty) (h' : S'.Nonempty)
    (hS : ∀ i : Fin n × Fin m, i ∈ S' ↔ (i.2, i.1) ∈ S) (f : Fin m × Fin n → ℝ) (g : Fin n × Fin m → ℝ)
    (hg : ∀ i, g i = f (i.2, i.1)) : Np.minOver S' h' g = Np.minOver S h f := by
  obtain rfl : S' = S.map (Equiv.prodComm (Fin m) (Fin n)).toEmbedding := by
    ext ⟨i, j⟩
    simp [hS]
  unfold Np.minOver
  rw [Finset.inf'_map]
  congr 1
  funext i
  exact hg _

theorem maxOver_transpose {m n : ℕ} (S : Finset (Fin m × Fin n)) (S' : Finset (Fin n × Fin m)) (h : S.Nonempty) (h' : S'.Nonempty)
    (hS : ∀ i : Fin n × Fin m, i ∈ S' ↔ (i.2, i.1) ∈ S) (f : Fin m × Fin n → ℝ) (g : Fin n × Fin m → ℝ)
    (hg : ∀ i, g i = f (i.2, i.1)) : Np.maxOver S' h' g = Np.maxOver S h f := by
  obtain rfl : S' = S.map (Equiv.prodComm (Fin m) (Fin n)).toEmbedding := by
    ext ⟨i, j⟩
    simp [hS]
  unfold Np.maxOver
  rw [Finset.sup'_map]
  congr 1
  funext i
  exact hg _

theorem regionSize_transpose (c : Fin ny × Fin nx → ℝ) (t : ℝ) (h : ∀ j, j ≠ Np.argmin c → c (Np.argmin c) < c j) :
    Spec.regionSize (Spec.transpose c) t = Spec.regionSize c t := by
  classical
  have hv : Spec.transpose c (Np.argmin (Spec.transpose c)) = c (Np.argmin c) := by rw [argmin_transpose c h]; rfl
  have hS : ∀ i : Fin nx × Fin ny, i ∈ (univ.filter fun i => Spec.transpose c i - Spec.transpose c (Np.argmin (Spec.transpose c)) < t) ↔
      (i.2, i.1) ∈ (univ.filter fun i => c i - c (Np.argmin c) < t) := by
    intro i; rw [hv]; simp only [Finset.mem_filter, Finset.mem_univ, true_and]; rfl
  have hcard : (univ.filter fun i => Spec.transpose c i - Spec.transpose c (Np.argmin (Spec.transpose c)) < t).card
      = (univ.filter fun i => c i - c (Np.argmin c) < t).card := by
    rw [hv, Finset.card_filter, Finset.card_filter]
    exact sum_transpose fun p : Fin ny × Fin nx => if c p - c (Np.argmin c) < t then 1 else 0
  unfold Spec.regionSize
  by_cases h1 : 1 < (univ.filter fun i => c i - c (Np.argmin c) < t).card
  · rw [dif_pos h1, dif_pos (by rw [hcard]; exact h1), max_comm]
    congr 1
    · rw [maxOver_transpose _ _ _ _ hS (fun i => ((i.2 : ℕ) : ℝ)) _ fun i => rfl,
        minOver_transpose _ _ _ _ hS (fun i => ((i.2 : ℕ) : ℝ)) _ fun i => rfl]
    · rw [maxOver_transpose _ _ _ _ hS (fun i => ((i.1 : ℕ) : ℝ)) _ fun i => rfl,
        minOver_transpose _ _ _ _ hS (fun i => ((i.1 : ℕ) : ℝ)) _ fun i => rfl]
  · rw [dif_neg h1, dif_neg (by rw [hcard]; exact h1)]

/-- C120: the error bars of the transposed map are those of the map, x and y exchanged (unique minimum). -/
theorem C120_chi2map_to_errors (st : Stats) (c : Fin ny × Fin nx → ℝ) (zf nsig nf : ℝ) (p : Fin ny × Fin nx)
    (hp : ∀ j, j ≠ p → c p < c j) :
    chi2mapToErrors st (Spec.transpose c) zf nsig nf
      = (chi2mapToErrors st c zf nsig nf).map fun er => ⟨er.yLow, er.yHigh, er.xLow, er.xHigh⟩ := by
  classical
  have hpa : Np.argmin c = p := Np.argmin_eq_of_unique hp
  have harg : Np.argmin (Spec.transpose c) = ((Np.argmin c).2, (Np.argmin c).1) :=
    argmin_transpose c (by rw [hpa]; exact hp)
  unfold chi2mapToErrors
  simp only []
  rw [harg]
  have hS : ∀ i : Fin nx × Fin ny, i ∈ (univ.filter fun i =>
        Spec.transpose c i - Spec.transpose c ((Np.argmin c).2, (Np.argmin c).1) < sigmaToChi2 st nf nsig) ↔
      (i.2, i.1) ∈ (univ.filter fun i => c i - c (Np.argmin c) < sigmaToChi2 st nf nsig) := by
    intro i; simp only [Finset.mem_filter, Finset.mem_univ, true_and]; rfl
  by_cases hne : (univ.filter fun i => c i - c (Np.argmin c) < sigmaToChi2 st nf nsig).Nonempty
  · have hne' : (univ.filter fun i : Fin nx × Fin ny =>
        Spec.transpose c i - Spec.transpose c ((Np.argmin c).2, (Np.argmin c).1) < sigmaToChi2 st nf nsig).Nonempty := by
      obtain ⟨i, hi⟩ := hne
      exact ⟨(i.2, i.1), (hS _).2 hi⟩
    rw [dif_pos hne, dif_pos hne']
    show Except.ok _ = Except.ok _
    rw [Except.ok.injEq, Errors.mk.injEq]
    refine ⟨?_, ?_, ?_, ?_⟩
    · exact congrArg₂ (· - ·) rfl (minOver_transpose _ _ hne hne' hS (fun i => (((i.1 : ℕ) : ℝ) - (ny : ℝ) / 2) / zf) _ fun i => rfl)
    · exact congrArg₂ (· - ·) (maxOver_transpose _ _ hne hne' hS (fun i => (((i.1 : ℕ) : ℝ) - (ny : ℝ) / 2) / zf) _ fun i => rfl) rfl
    · exact congrArg₂ (· - ·) rfl (minOver_transpose _ _ hne hne' hS (fun i => (((i.2 : ℕ) : ℝ) - (nx : ℝ) / 2) / zf) _ fun i => rfl)
    · exact congrArg₂ (· - ·) (maxOver_transpose _ _ hne hne' hS (fun i => (((i.2 : ℕ) : ℝ) - (nx : ℝ) / 2) / zf) _ fun i => rfl) rfl
  · rw [dif_neg hne, dif_neg (fun ⟨i, hi⟩ => hne ⟨(i.2, i.1), (hS i).1 hi⟩)]
    rfl

/-- C120: `chi2_shift` of the transposed images and errors returns the two shifts, and the two error bars, in the other order, and the
transposed arrays (the x and y coordinate arrays exchanged), when the chi-squared map and its upsampled part have a unique minimum each, and
both sizes are on the same side of the upsampling factor. -/
theorem C120_chi2_shift (cfg : FFTConfig) (st : Stats) (hst : Spec.validStats st) (im1 im2 : Fin ny × Fin nx → Pix) (err : ErrArg ny nx)
    (us : UsFactor) (zm : Bool) (nf : ℝ) (mas : ℕ) (mns : ℝ) (ah : Bool)
    (hus : Spec.validUs ny mas us) (hus' : Spec.validUs nx mas us) (hside : ∀ u, us = .int u → (ny ≤ u ↔ nx ≤ u))
    (cmap : Fin ny × Fin nx → ℝ) (hmap : chi2nMap cfg im1 im2 err zm false false ah = .ok (.only cmap))
    (p : Fin ny × Fin nx) (hp : ∀ j, j ≠ p → cmap p < cmap j)
    (dx dy ex ey : ℝ) (s1 s2 : ℕ) (xv yv c : Fin s1 × Fin s2 → ℝ)
    (hres : chi2Shift cfg st im1 im2 err us zm nf false true true mas mns ah
      = .ok [.num dx, .num dy, .num ex, .num ey, .arrays s1 s2 xv yv c])
    (q : Fin s1 × Fin s2) (hq : ∀ j, j ≠ q → c q < c j) :
    ∀ re rc, chi2Shift cfg st (Spec.transpose im1) (Spec.transpose im2) (Spec.transposeErr err) us zm nf false re rc mas mns ah
      = .ok (Spec.layout re rc dy dx ey ex (.arrays s2 s1 (Spec.transpose yv) (Spec.transpose xv) (Spec.transpose c))) := by
  have hf : Spec.fits ah ny nx := by
    by_contra hf
    rw [chi2nMap_same, chi2nMapBody_huge _ _ _ _ _ _ _ hf] at hmap
    cases hmap
  obtain ⟨cm, hcm, S1, S2, i1, i2, hg, u, hu, hu0, YV, XV, hY, hX, C, hC, er, her, hall⟩ :=
    chi2Shift_ok cfg st hst im1 im2 err us zm nf mas mns ah hf hus
  obtain ⟨cm', hcm', S1', S2', i1', i2', hg', u', hu', hu0', YV', XV', hY', hX', C', hC', er', her', hall'⟩ :=
    chi2Shift_ok cfg st hst (Spec.transpose im1) (Spec.transpose im2) (Spec.transposeErr err) us zm nf mas mns ah
      ((fits_transpose ah).2 hf) hus'
  rw [chi2nMapBody_transpose, hcm] at hcm'
  have e1 : cm'.chi2 = Spec.transpose cm.chi2 := by
    have := Except.ok.inj hcm'
    rw [← this]
  have e2 : cm.chi2 = cmap := by
    rw [chi2nMap_same, hcm] at hmap
    have := Except.ok.inj hmap
    exact Chi2Ret.only.inj this
  have hpa : Np.argmin cmap = p := Np.argmin_eq_of_unique hp
  have hmin : ∀ j, j ≠ Np.argmin cmap → cmap (Np.argmin cmap) < cmap j := by rw [hpa]; exact hp
  have harg := argmin_transpose cmap hmin
  have hsz : S1' = S2 ∧ S2' = S1 := by
    rw [Prod.ext_iff] at hg hg'
    obtain ⟨a1, a2⟩ := hg
    obtain ⟨b1, b2⟩ := hg'
    simp only at a1 a2 b1 b2
    rw [a1, a2, b1, b2]
    cases us with
    | auto => exact ⟨rfl, rfl⟩
    | float v => exact ⟨rfl, rfl⟩
    | int v =>
      have := hside v rfl
      by_cases hv : ny ≤ v
      · simp only [Spec.gridSize, if_pos hv, if_pos (this.1 hv), and_self]
      · simp only [Spec.gridSize, if_neg hv, if_neg fun hc => hv (this.2 hc), and_self]
  obtain ⟨rfl, rfl⟩ := hsz
  have hinst : i1' = i2 := Subsingleton.elim _ _
  have hinst2 : i2' = i1 := Subsingleton.elim _ _
  subst hinst hinst2
  have huu : u' = u := by
    rw [hu', hu, e1, e2]
    cases us with
    | auto => unfold Spec.usUsed; simp only; rw [regionSize_transpose cmap _ hmin]
    | float v => rfl
    | int v => rfl
  rw [e1, e2, harg, huu] at hY' hX'
  rw [e2] at hY hX
  have kY : YV' = Spec.transpose XV := by rw [hY', hX]; rfl
  have kX : XV' = Spec.transpose YV := by rw [hX', hY]; rfl
  have kC : C' = Spec.transpose C := by
    rw [hC', hC, e1, kY, kX]
    funext i
    show (interp2C (Spec.transpose fun i => (cm.chi2 i : ℂ)) _ _).re = _
    rw [interp2C_transpose]
    rfl
  have hr := hall true true
  rw [hres] at hr
  have hr := Except.ok.inj hr
  simp only [Spec.layout, if_true, List.cons_append, List.nil_append, List.cons.injEq, RetVal.num.injEq, RetVal.arrays.injEq,
    and_true] at hr
  obtain ⟨r1, r2, r3, r4, rfl, rfl, r5, r6, r7⟩ := hr
  obtain rfl := eq_of_heq r5
  obtain rfl := eq_of_heq r6
  obtain rfl := eq_of_heq r7
  have hqa : Np.argmin c = q := Np.argmin_eq_of_unique hq
  have harg2 := argmin_transpose c (by rw [hqa]; exact hq)
  rw [kC, huu, C120_chi2map_to_errors st c u 1 2 q hq, her] at her'
  have her'' := Except.ok.inj her'
  intro re rc
  rw [hall' re rc, kC, kX, kY, harg2, ← her'', r1, r2, r3, r4]
  rfl

/-- C120, the exception: only the number of rows is compared with an int upsampling factor, so with `ny ≤ u < nx` the upsampled map is
`2u × 2u`, while that of the transposed images is `nx × ny`. The two answers are then taken from different grids. -/
theorem C120_rows_decide (cfg : FFTConfig) (st : Stats) (hst : Spec.validStats st) (im1 im2 : Fin ny × Fin nx → Pix) (err : ErrArg ny nx)
    (u : ℕ) (h1 : ny ≤ u) (h2 : u < nx) (zm : Bool) (nf : ℝ) (mas : ℕ) (mns : ℝ) (ah : Bool) (hf : Spec.fits ah ny nx) :
    (∃ dx dy xv yv c, chi2Shift cfg st im1 im2 err (.int u) zm nf false false true mas mns ah
      = .ok [.num dx, .num dy, .arrays (2 * u) (2 * u) xv yv c]) ∧
    ∃ dx dy xv yv c, chi2Shift cfg st (Spec.transpose im1) (Spec.transpose im2) (Spec.transposeErr err) (.int u) zm nf false false true
        mas mns ah = .ok [.num dx, .num dy, .arrays nx ny xv yv c] := by
  have hu : 0 < u := lt_of_lt_of_le (Nat.pos_of_ne_zero (NeZero.ne ny)) h1
  constructor
  · obtain ⟨cm, hcm, S1, S2, i1, i2, hg, v, -, -, YV, XV, -, -, C, -, er, -, hall⟩ :=
      chi2Shift_ok cfg st hst im1 im2 err (.int u) zm nf mas mns ah hf hu
    simp only [Spec.gridSize, if_pos h1, Prod.mk.injEq] at hg
    obtain ⟨rfl, rfl⟩ := hg
    exact ⟨_, _, _, _, _, hall false true⟩
  · obtain ⟨cm, hcm, S1, S2, i1, i2, hg, v, -, -, YV, XV, -, -, C, -, er, -, hall⟩ :=
      chi2Shift_ok cfg st hst (Spec.transpose im1) (Spec.transpose im2) (Spec.transposeErr err) (.int u) zm nf mas mns ah
        ((fits_transpose ah).2 hf) hu
    simp only [Spec.gridSize, if_neg (Nat.not_le.2 h2), Prod.mk.injEq] at hg
    obtain ⟨rfl, rfl⟩ := hg
    exact ⟨_, _, _, _, _, hall false true⟩

/-! ### concrete cases -/

/-- C120, non-vacuity of `C120_cross_correlation_shifts`: a star moved by `(dy, dx) = (1, 2)` on a 10×9 detector gives `(5/2, 1)`, so the
transposed images give `(1, 5/2)`. -/
example (cfg : FFTConfig) :
    crossCorrelationShifts cfg none (Spec.transpose (realArr fun p : Fin 10 × Fin 9 => if p = (4, 3) then (1 : ℝ) else 0))
      (Spec.transpose (realArr (Spec.roll2 1 2 fun p : Fin 10 × Fin 9 => if p = (4, 3) then (1 : ℝ) else 0))) none none none false false
      false false = .ok [.fin 1, .fin (5 / 2)] := by
  have hp : prep false (realArr fun p : Fin 10 × Fin 9 => if p = (4, 3) then (1 : ℝ) else 0)
      = fun p => if p = (4, 3) then (1 : ℝ) else 0 := by
    rw [prep_real]; funext p; simp
  have hmax := roll_peak (fun p : Fin 10 × Fin 9 => if p = (4, 3) then (1 : ℝ) else 0) (aperiodic_point _) 1 2
    (3, 2) (by norm_num [Spec.zeroLag]) (by norm_num [Spec.zeroLag])
  have h := C120_cross_correlation_shifts cfg none none (realArr fun p : Fin 10 × Fin 9 => if p = (4, 3) then (1 : ℝ) else 0)
    (realArr (Spec.roll2 1 2 fun p : Fin 10 × Fin 9 => if p = (4, 3) then (1 : ℝ) else 0)) none none none false false (3, 2)
    (by rw [prep_roll, hp]; exact hmax)
  rw [C50_roll cfg none _ (aperiodic_point _) 1 2 (by norm_num) (by norm_num) (by norm_num) (by norm_num) none
    none false false (Or.inr (by norm_num))] at h
  refine h.trans ?_
  simp only [Except.map, List.reverse_cons, List.reverse_nil, List.nil_append, List.cons_append]
  norm_num

/-- C120, non-vacuity of `C120_register_images`: a 4×5 star and its roll by (1,-2), transposed, for every `usfac`. -/
example (cfg : FFTConfig) (usfac : ℕ) (hu : 1 ≤ usfac) :
    registerImages cfg (Spec.transpose (realArr fun p : Fin 4 × Fin 5 => if p = 0 then (1 : ℝ) else 0))
      (Spec.transpose (realArr (Spec.roll2 1 (-2) fun p : Fin 4 × Fin 5 => if p = 0 then (1 : ℝ) else 0)))
      usfac false false false none = .ok [.num 1, .num (-2)] := by
  have hd : ∀ k : Fin 4 × Fin 5,
      dft (fun p : Fin 4 × Fin 5 => ((if p = 0 then (1 : ℝ) else 0 : ℝ) : ℂ)) k ≠ 0 := by
    intro k
    have h1 : dft (fun p : Fin 4 × Fin 5 => ((if p = 0 then (1 : ℝ) else 0 : ℝ) : ℂ)) k = 1 := by
      unfold dft
      rw [Finset.sum_eq_single 0]
      · simp [FFTIndex.e_zero]
      · intro b _ hb; simp [hb]
      · simp
    rw [h1]; exact one_ne_zero
  have hid := identifiable_of_dft (Spec.candidates usfac) (fun p : Fin 4 × Fin 5 => if p = 0 then (1 : ℝ) else 0)
    (by norm_num) (by norm_num) (hd _) (hd _) (Or.inl (hd _))
  have hsz : usfac = 1 ∨ (2 ≤ 4 ∧ 2 ≤ 5) := Or.inr ⟨by norm_num, by norm_num⟩
  have hm := clearMatch_roll _ usfac hu hsz hid 1 (-2) (by norm_num) (by norm_num)
  have hp : prep false (realArr fun p : Fin 4 × Fin 5 => if p = 0 then (1 : ℝ) else 0)
      = fun p => if p = 0 then (1 : ℝ) else 0 := by
    rw [prep_real]; funext p; simp
  rw [← hp, ← prep_roll2] at hm
  have h1 := C119_clear_match cfg _ _ usfac hu hsz false _ _ _ _ hm
  obtain ⟨dx, dy, g1, g2⟩ := C120_register_images cfg _ _ usfac hu hsz false _ _ _ _ hm
  have e := Except.ok.inj (h1.symm.trans g1)
  simp only [List.cons.injEq, RegVal.num.injEq, and_true] at e
  rw [← e.1, ← e.2] at g2
  refine g2.trans ?_
  norm_num

/-- C120, non-vacuity of `C120_chi2_shift`: the star on the 10×9 detector, with a single point of the upsampled map. -/
example (cfg : FFTConfig) : ∃ dx dy ex ey : ℝ,
    chi2Shift cfg none (realArr fun p : Fin 10 × Fin 9 => if p = (4, 3) then (1 : ℝ) else 0)
      (realArr (Spec.roll2 1 2 fun p : Fin 10 × Fin 9 => if p = (4, 3) then (1 : ℝ) else 0)) .none .auto false 2 false true false 1 3 false
      = .ok [.num dx, .num dy, .num ex, .num ey] ∧
    chi2Shift cfg none (Spec.transpose (realArr fun p : Fin 10 × Fin 9 => if p = (4, 3) then (1 : ℝ) else 0))
      (Spec.transpose (realArr (Spec.roll2 1 2 fun p : Fin 10 × Fin 9 => if p = (4, 3) then (1 : ℝ) else 0))) .none .auto false 2 false true
      false 1 3 false
      = .ok [.num dy, .num dx, .num ey, .num ex] := by
  have hp : prep false (realArr fun p : Fin 10 × Fin 9 => if p = (4, 3) then (1 : ℝ) else 0)
      = fun p => if p = (4, 3) then (1 : ℝ) else 0 := by
    rw [prep_real]; funext p; simp
  have hmax := roll_peak (fun p : Fin 10 × Fin 9 => if p = (4, 3) then (1 : ℝ) else 0) (aperiodic_point _) 1 2
    (3, 2) (by norm_num [Spec.zeroLag]) (by norm_num [Spec.zeroLag])
  have hf : Spec.fits false 10 9 := Or.inr (by norm_num)
  obtain ⟨cm, hcm, S1, S2, i1, i2, hg, u, hu, hu0, YV, XV, hY, hX, C, hC, er, her, hall⟩ :=
    chi2Shift_ok cfg none trivial (realArr fun p : Fin 10 × Fin 9 => if p = (4, 3) then (1 : ℝ) else 0)
      (realArr (Spec.roll2 1 2 fun p : Fin 10 × Fin 9 => if p = (4, 3) then (1 : ℝ) else 0)) .none .auto false 2 1 3 false hf Nat.one_pos
  obtain ⟨m, hm, m1, m2, m3, -, m5⟩ := chi2nMapBody_eq cfg (realArr fun p : Fin 10 × Fin 9 => if p = (4, 3) then (1 : ℝ) else 0)
      (realArr (Spec.roll2 1 2 fun p : Fin 10 × Fin 9 => if p = (4, 3) then (1 : ℝ) else 0)) .none false false false hf
  obtain rfl : m = cm := Except.ok.inj (hm.symm.trans hcm)
  have hu : ∀ j, j ≠ ((3, 2) : Fin 10 × Fin 9) → m.chi2 (3, 2) < m.chi2 j := by
    intro j hj
    have := hmax j hj
    rw [m5, m5, m3, m3, m2]
    simp only [Spec.maskOf, Spec.errOf, Bool.false_eq_true, if_false, div_one, one_pow]
    rw [prep_roll, hp]
    linarith
  have hg' : S1 = 1 ∧ S2 = 1 := Prod.mk.inj hg
  obtain ⟨rfl, rfl⟩ := hg'
  refine ⟨_, _, _, _, hall true false, ?_⟩
  exact C120_chi2_shift cfg none trivial _ _ .none .auto false 2 1 3 false Nat.one_pos Nat.one_pos (fun u h => by cases h) m.chi2
    (by rw [chi2nMap_same, hcm]; rfl) (3, 2) hu _ _ _ _ _ _ _ _ _ (hall true true) (0, 0)
    (fun j hj => absurd (Subsingleton.elim _ _) hj) true false

end

end ImgReg
