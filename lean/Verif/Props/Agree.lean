import Verif.Props.RegisterNoise

/-!
# C102: `chi2_shift` and `register_images` agree
-/

open Complex Finset
open scoped ComplexConjugate

namespace ImgReg

section
variable {ny nx : ℕ} [NeZero ny] [NeZero nx]

/-- how much two images overlap when the first one is rolled by `(dy, dx)`: the sum of the products of their pixels -/
def Spec.overlap (a b : Fin ny × Fin nx → ℝ) (dy dx : ℤ) : ℝ := ∑ p, Spec.roll2 dy dx a p * b p

theorem overlap_congr (a b : Fin ny × Fin nx → ℝ) {dy dy' dx dx' : ℤ} (h1 : dy ≡ dy' [ZMOD ny]) (h2 : dx ≡ dx' [ZMOD nx]) :
    Spec.overlap a b dy dx = Spec.overlap a b dy' dx' := by
  unfold Spec.overlap
  rw [roll2_congr h1 h2]

theorem chi2_overlap (a b : Fin ny × Fin nx → ℝ) (s : ℝ) (dy dx : ℤ) :
    Spec.chi2 a b (fun _ => s) dy dx = (∑ p, a p ^ 2 + ∑ p, b p ^ 2 - 2 * Spec.overlap a b dy dx) / s ^ 2 := by
  rw [chi2_eq_roll]
  have h : ∑ p, Spec.roll2 dy dx a p ^ 2 = ∑ p, a p ^ 2 := Spec.roll2_sum dy dx (fun p => a p ^ 2)
  unfold Spec.overlap
  rw [← h, Finset.mul_sum, ← Finset.sum_add_distrib, ← Finset.sum_sub_distrib, Finset.sum_div]
  exact Finset.sum_congr rfl fun p _ => by ring

theorem cc_overlap (a b : Fin ny × Fin nx → ℝ) (dy dx : ℤ) :
    Spec.cc a b ((-dy : ℤ) : ℝ) ((-dx : ℤ) : ℝ) = (Spec.overlap a b dy dx : ℂ) := by
  unfold Spec.cc Spec.overlap
  rw [← Spec.sum_move dy dx (fun p => Spec.roll2 dy dx a p * b p)]
  push_cast
  refine Finset.sum_congr rfl fun p _ => ?_
  rw [Spec.roll2_move]
  have := cshift_int (-dy) (-dx) b p
  push_cast at this
  rw [this, Complex.conj_ofReal]
  congr 2
  unfold Spec.roll2 Spec.move
  simp only [sub_neg_eq_add]

/-- C102: two real images, the same `zeromean` for both functions, any nonzero scalar error. If some whole-pixel displacement makes
the images overlap more than the absolute overlap at every other displacement (modulo the image size), then `chi2_shift` with
`upsample_factor=1` and `register_images` with `usfac=1` return the same two numbers: that displacement, reduced to
`-n ≤ 2·d < n`. -/
theorem C102_same_answer (cfg cfg' : FFTConfig) (st : Stats) (hst : Spec.validStats st)
    (im1 im2 a b : Fin ny × Fin nx → ℝ) (hy : 2 ≤ ny) (zm : Bool)
    (ha : ∀ p, a p = im1 p - if zm then Spec.mean im1 else 0) (hb : ∀ p, b p = im2 p - if zm then Spec.mean im2 else 0)
    (dy dx : ℤ)
    (hpk : ∀ ey ex : ℤ, ¬ (ey ≡ dy [ZMOD ny] ∧ ex ≡ dx [ZMOD nx]) → |Spec.overlap a b ey ex| < Spec.overlap a b dy dx)
    (err : ErrArg ny nx) (s : ℝ) (hs : s ≠ 0) (herr : Spec.isScalarErr err s)
    (nf : ℝ) (mas : ℕ) (mns : ℝ) (ah : Bool) (hf : Spec.fits ah ny nx) :
    ∃ dx' dy' : ℤ,
      chi2Shift cfg st (realArr im1) (realArr im2) err (.int 1) zm nf false false false mas mns ah = .ok [.num dx', .num dy'] ∧
      registerImages cfg' (realArr im1) (realArr im2) 1 false false zm none = .ok [.num dx', .num dy'] ∧
      dx' ≡ dx [ZMOD nx] ∧ -(nx : ℤ) ≤ 2 * dx' ∧ 2 * dx' < nx ∧
      dy' ≡ dy [ZMOD ny] ∧ -(ny : ℤ) ≤ 2 * dy' ∧ 2 * dy' < ny := by
  obtain ⟨dy', qy, cy, ly, uy, ey⟩ := exists_rep ny dy
  obtain ⟨dx', qx, cx, lx, ux, ex⟩ := exists_rep nx dx
  have lagy : Spec.lag ny qy = dy' := by unfold Spec.lag Spec.zeroLag; omega
  have lagx : Spec.lag nx qx = dx' := by unfold Spec.lag Spec.zeroLag; omega
  have hap : prep zm (realArr im1) = a := by rw [prep_real]; funext p; rw [ha]
  have hbp : prep zm (realArr im2) = b := by rw [prep_real]; funext p; rw [hb]
  refine ⟨dx', dy', ?_, ?_, cx, lx, ux, cy, ly, uy⟩
  · obtain ⟨cm, hcm, hchi⟩ := chi2nMapBody_chi2 cfg (realArr im1) (realArr im2) err zm ah hf
    have hlt : ∀ i, i ≠ (qy, qx) → cm.chi2 (qy, qx) < cm.chi2 i := by
      intro i hi
      have hne : ¬ (Spec.lag ny i.1 ≡ dy [ZMOD ny] ∧ Spec.lag nx i.2 ≡ dx [ZMOD nx]) := by
        rintro ⟨c1, c2⟩
        apply hi
        have back : ∀ (n : ℕ) [NeZero n] (i q : Fin n) (d : ℤ), Spec.lag n i ≡ d [ZMOD n] → Spec.lag n q ≡ d [ZMOD n] → i = q := by
          intro n _ i q d h1 h2
          have h3 := (Int.ModEq.refl (Spec.zeroLag n : ℤ)).sub (h1.trans h2.symm)
          unfold Spec.lag at h3
          rw [sub_sub_cancel, sub_sub_cancel] at h3
          exact Fin.eq_of_modEq h3
        exact Prod.ext (back ny i.1 qy dy c1 (by rw [lagy]; exact cy)) (back nx i.2 qx dx c2 (by rw [lagx]; exact cx))
      have h1 := hpk _ _ hne
      have h2 : ∀ i, cm.chi2 i = (∑ p, a p ^ 2 + ∑ p, b p ^ 2 - 2 * Spec.overlap a b (Spec.lag ny i.1) (Spec.lag nx i.2)) / s ^ 2 := by
        intro i
        rw [hchi, hap, hbp, scalarErr_errOf herr, scalarErr_maskOf herr, scalarErr_maskOf herr]
        exact chi2_overlap a b s _ _
      rw [h2, h2, lagy, lagx, overlap_congr a b cy cx]
      have := (abs_lt.1 h1).2
      exact div_lt_div_of_pos_right (by linarith) (by positivity)
    refine Eq.trans (chi2ShiftB_one cfg .wrap st hst _ _ err zm nf mas mns ah hy cm hcm (qy, qx) hlt) ?_
    have cast : ∀ (n : ℕ) (q : Fin n) (d : ℤ), ((q : ℕ) : ℤ) = ((n - 1) / 2 : ℕ) - d → (((n - 1) / 2 : ℕ) : ℝ) - ((q : ℕ) : ℝ) = (d : ℝ) := by
      intro n q d h
      have : (d : ℤ) = ((((n - 1) / 2 : ℕ) : ℤ)) - ((q : ℕ) : ℤ) := by omega
      rw [this, Int.cast_sub, Int.cast_natCast, Int.cast_natCast]
    rw [cast _ _ _ ey, cast _ _ _ ex]
  · rw [registerImages_same]
    have toInt : ∀ (d : ℤ) (t : ℝ), t + d ∈ Spec.candidates 1 → ∃ z : ℤ, t = ((-z : ℤ) : ℝ) := by
      rintro d t (⟨z, hz⟩ | ⟨h, -⟩)
      · refine ⟨d - z, ?_⟩
        simp only [Nat.cast_one] at hz
        push_cast
        linarith
      · omega
    have mod : ∀ (n : ℕ) (d z : ℤ), (∃ w : ℤ, ((-z : ℤ) : ℝ) + d = w * n) ↔ z ≡ d [ZMOD n] := by
      intro n d z
      rw [Int.modEq_iff_dvd]
      constructor
      · rintro ⟨w, hw⟩
        refine ⟨w, ?_⟩
        have : -z + d = w * n := by exact_mod_cast hw
        linarith
      · rintro ⟨w, hw⟩
        refine ⟨w, ?_⟩
        have : -z + d = w * n := by linarith
        exact_mod_cast this
    obtain ⟨fit, hfit, hr, hc⟩ := fit_recovers_of_peak ⟨cfg'.hasFftw, false, 1⟩ a b dy' dx' 1 le_rfl (.inl rfl)
      (fun t u t' u' ht hu hp hne => by
        obtain ⟨z, rfl⟩ := toInt _ _ ht
        obtain ⟨w, rfl⟩ := toInt _ _ hu
        obtain ⟨⟨k, hk⟩, ⟨l, hl⟩⟩ := hp
        obtain ⟨z', rfl⟩ : ∃ z' : ℤ, t' = ((-z' : ℤ) : ℝ) := ⟨dy' - k * ny, by push_cast; linarith⟩
        obtain ⟨w', rfl⟩ : ∃ w' : ℤ, u' = ((-w' : ℤ) : ℝ) := ⟨dx' - l * nx, by push_cast; linarith⟩
        rw [mod, mod] at hne
        have h1 := (mod _ _ _).1 ⟨k, hk⟩
        have h2 := (mod _ _ _).1 ⟨l, hl⟩
        rw [cc_overlap, cc_overlap, Complex.norm_real, Complex.norm_real, overlap_congr a b (h1.trans cy) (h2.trans cx)]
        refine (hpk z w ?_).trans_le (le_abs_self _)
        rintro ⟨c1, c2⟩
        exact hne ⟨c1.trans cy.symm, c2.trans cx.symm⟩)
      ⟨ly, uy⟩ ⟨lx, ux⟩ none (by intro k hk; cases hk)
    rw [registerBody_ok cfg' _ _ 1 false false zm none fit (by rw [hap, hbp]; exact hfit), hr, hc]
    simp

/-- C102 for images without negative pixels and without `zeromean`: one displacement of largest overlap is enough. -/
theorem C102_nonneg_images (cfg cfg' : FFTConfig) (st : Stats) (hst : Spec.validStats st)
    (im1 im2 : Fin ny × Fin nx → ℝ) (h1 : ∀ p, 0 ≤ im1 p) (h2 : ∀ p, 0 ≤ im2 p) (hy : 2 ≤ ny) (dy dx : ℤ)
    (hpk : ∀ ey ex : ℤ, ¬ (ey ≡ dy [ZMOD ny] ∧ ex ≡ dx [ZMOD nx]) → Spec.overlap im1 im2 ey ex < Spec.overlap im1 im2 dy dx)
    (err : ErrArg ny nx) (s : ℝ) (hs : s ≠ 0) (herr : Spec.isScalarErr err s)
    (nf : ℝ) (mas : ℕ) (mns : ℝ) (ah : Bool) (hf : Spec.fits ah ny nx) :
    ∃ dx' dy' : ℤ,
      chi2Shift cfg st (realArr im1) (realArr im2) err (.int 1) false nf false false false mas mns ah = .ok [.num dx', .num dy'] ∧
      registerImages cfg' (realArr im1) (realArr im2) 1 false false false none = .ok [.num dx', .num dy'] ∧
      dx' ≡ dx [ZMOD nx] ∧ -(nx : ℤ) ≤ 2 * dx' ∧ 2 * dx' < nx ∧
      dy' ≡ dy [ZMOD ny] ∧ -(ny : ℤ) ≤ 2 * dy' ∧ 2 * dy' < ny :=
  C102_same_answer cfg cfg' st hst im1 im2 im1 im2 hy false (fun p => by simp) (fun p => by simp) dy dx
    (fun ey ex hne => by
      have h0 : 0 ≤ Spec.overlap im1 im2 ey ex := Finset.sum_nonneg fun p _ => mul_nonneg (h1 _) (h2 p)
      rw [abs_of_nonneg h0]
      exact hpk ey ex hne)
    err s hs herr nf mas mns ah hf

end

/-- C102 applies to a single bright pixel at (0, 0) and one twice as bright at row 1, column 2. -/
example (cfg cfg' : FFTConfig) : ∃ dx' dy' : ℤ,
    chi2Shift cfg none (realArr fun p : Fin 4 × Fin 5 => if p = (0, 0) then 1 else 0)
      (realArr fun p : Fin 4 × Fin 5 => if p = (1, 2) then 2 else 0) (.scalar 3) (.int 1) false 1 false false false 10 1 true
      = .ok [.num dx', .num dy'] ∧
    registerImages cfg' (realArr fun p : Fin 4 × Fin 5 => if p = (0, 0) then 1 else 0)
      (realArr fun p : Fin 4 × Fin 5 => if p = (1, 2) then 2 else 0) 1 false false false none = .ok [.num dx', .num dy'] ∧
    dx' ≡ 2 [ZMOD 5] ∧ dy' ≡ 1 [ZMOD 4] := by
  have ho : ∀ ey ex : ℤ, Spec.overlap (fun p : Fin 4 × Fin 5 => if p = (0, 0) then (1 : ℝ) else 0)
      (fun p : Fin 4 × Fin 5 => if p = (1, 2) then 2 else 0) ey ex = if ey ≡ 1 [ZMOD 4] ∧ ex ≡ 2 [ZMOD 5] then 2 else 0 := by
    intro ey ex
    unfold Spec.overlap
    rw [Finset.sum_eq_single (1, 2)]
    · unfold Spec.roll2
      have w : ∀ (n : ℕ) [NeZero n] (k : Fin n) (d : ℤ), Spec.wrap n (((k : ℕ) : ℤ) - d) = 0 ↔ d ≡ ((k : ℕ) : ℤ) [ZMOD n] := by
        intro n _ k d
        rw [Spec.wrap_eq_iff, Int.modEq_iff_dvd, Int.modEq_iff_dvd, ← dvd_neg]
        simp
      have e1 := w 4 1 ey
      have e2 := w 5 2 ex
      have : ((1 : Fin 4) : ℕ) = 1 := rfl
      have : ((2 : Fin 5) : ℕ) = 2 := rfl
      simp only [Prod.mk.injEq, e1, e2, if_true]
      simp [*]
    · intro p _ hp; simp [hp]
    · simp
  obtain ⟨dx', dy', h1, h2, cx, -, -, cy, -, -⟩ := C102_nonneg_images (ny := 4) (nx := 5) cfg cfg' none trivial
    (fun p => if p = (0, 0) then 1 else 0) (fun p => if p = (1, 2) then 2 else 0)
    (fun p => by split_ifs <;> norm_num) (fun p => by split_ifs <;> norm_num) (by norm_num) 1 2
    (fun ey ex hne => by
      have hne' : ¬ (ey ≡ 1 [ZMOD 4] ∧ ex ≡ 2 [ZMOD 5]) := hne
      rw [ho, ho, if_neg hne', if_pos ⟨Int.ModEq.refl _, Int.ModEq.refl _⟩]
      norm_num)
    (.scalar 3) 3 (by norm_num) rfl 1 10 1 true (.inl rfl)
  exact ⟨dx', dy', h1, h2, cx, cy⟩

end ImgReg
