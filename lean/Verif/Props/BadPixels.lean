import Verif.Props.Stack
import Verif.Props.Coverage
import Verif.Props.FillShift
import Verif.Props.Noise

/-!
# Bad pixels (C147): blanked pixels are harmless, unflagged ones decide the answer
-/

open Complex Finset
open scoped ComplexConjugate

namespace ImgReg

section
variable {ny nx : ℕ} [NeZero ny] [NeZero nx]

/-- The image `f` with NaN in the pixels of the set `bad`. -/
noncomputable def Spec.blanked (bad : Set (Fin ny × Fin nx)) (f : Fin ny × Fin nx → ℝ) (p : Fin ny × Fin nx) : Pix :=
  open Classical in if p ∈ bad then none else some (f p)

/-- What an exposure loses when the pixels `bad` are blanked: in them the moved scene itself, elsewhere the disturbance is what remains. -/
noncomputable def Spec.lost (bad : Set (Fin ny × Fin nx)) (f : Fin ny × Fin nx → ℝ) (dy dx : ℤ) (n : Fin ny × Fin nx → ℝ)
    (p : Fin ny × Fin nx) : ℝ :=
  open Classical in if p ∈ bad then Spec.roll2 dy dx f p else n p

/-- the disturbance that blanking amounts to -/
noncomputable def blankNoise (bad : Set (Fin ny × Fin nx)) (f : Fin ny × Fin nx → ℝ) (dy dx : ℤ) (n : Fin ny × Fin nx → ℝ)
    (p : Fin ny × Fin nx) : ℝ :=
  open Classical in if p ∈ bad then -Spec.roll2 dy dx f p else n p

theorem nan0_blanked (bad : Set (Fin ny × Fin nx)) (f : Fin ny × Fin nx → ℝ) (dy dx : ℤ) (n : Fin ny × Fin nx → ℝ) :
    Spec.nan0 (Spec.blanked bad (Spec.exposure f dy dx n)) = Spec.exposure f dy dx (blankNoise bad f dy dx n) := by
  classical
  funext p
  unfold Spec.nan0 Spec.blanked Spec.exposure blankNoise
  by_cases hp : p ∈ bad <;> simp [hp]

theorem blankNoise_energy (bad : Set (Fin ny × Fin nx)) (f : Fin ny × Fin nx → ℝ) (dy dx : ℤ) (n : Fin ny × Fin nx → ℝ) :
    ∑ p, blankNoise bad f dy dx n p ^ 2 = ∑ p, Spec.lost bad f dy dx n p ^ 2 := by
  classical
  refine Finset.sum_congr rfl fun p _ => ?_
  unfold blankNoise Spec.lost
  by_cases hp : p ∈ bad <;> simp [hp]

/-- C147: without `zeromean` every NaN pixel counts as 0, for `register_images` … -/
theorem C147_register_nan (cfg : FFTConfig) (im1 im2 : Fin ny × Fin nx → Pix) (usfac : ℕ) (rr re : Bool) (mo : Option ℕ) :
    registerImages cfg im1 im2 usfac rr re false mo
      = registerImages cfg (realArr fun p => (im1 p).getD 0) (realArr fun p => (im2 p).getD 0) usfac rr re false mo := by
  rw [registerImages_same, registerImages_same]
  unfold registerBody
  rw [regPrep_eq, regPrep_eq, regPrep_eq, regPrep_eq, prep_def, prep_def, prep_def, prep_def]
  rfl

/-- C147: … and for `chi2_shift`, whatever the error argument, the factor and the flags. -/
theorem C147_chi2_nan (cfg : FFTConfig) (st : Stats) (im1 im2 : Fin ny × Fin nx → Pix) (err : ErrArg ny nx) (us : UsFactor) (nf : ℝ)
    (vb re ra : Bool) (mas : ℕ) (mns : ℝ) (ah : Bool) :
    chi2Shift cfg st im1 im2 err us false nf vb re ra mas mns ah
      = chi2Shift cfg st (realArr fun p => (im1 p).getD 0) (realArr fun p => (im2 p).getD 0) err us false nf vb re ra mas mns ah := by
  have h : chi2nMapB cfg .wrap im1 im2 err false true false ah
      = chi2nMapB cfg .wrap (realArr fun p => (im1 p).getD 0) (realArr fun p => (im2 p).getD 0) err false true false ah := by
    unfold chi2nMapB chi2nMapBodyB
    simp only [and_self, dite_true, Fin.cast_refl, id, Prod.mk.eta, Bool.false_eq_true, if_false, finiteVals_nanToNum]
    rfl
  unfold chi2Shift chi2ShiftB
  rw [h]

/-- C147, `register_images`: exposures of one scene `f`, exposure `k` moved by whole pixels, disturbed by `noise k` and with the pixels `bad k`
blanked (NaN). If what is lost — the scene in the blanked pixels and the disturbance in the others — has norm at most `ν`, and the autocorrelation
of the scene at every other candidate displacement stays below its value at 0 by more than `2·(2·‖f‖·ν + ν²)`, every pair is registered
exactly and consistently, whatever the blanked pixels are and whether or not they move with the scene. -/
theorem C147_blanked_register {ι : Type} (cfg : FFTConfig) (f : Fin ny × Fin nx → ℝ) (dy dx : ι → ℤ) (noise : ι → Fin ny × Fin nx → ℝ)
    (bad : ι → Set (Fin ny × Fin nx))
    (usfac : ℕ) (hu : 1 ≤ usfac) (hsz : usfac = 1 ∨ (2 ≤ ny ∧ 2 ≤ nx)) (ν : ℝ)
    (hn : ∀ k, Real.sqrt (∑ p, Spec.lost (bad k) f (dy k) (dx k) (noise k) p ^ 2) ≤ ν)
    (hmargin : ∀ t ∈ Spec.candidates usfac, ∀ u ∈ Spec.candidates usfac,
      ¬ ((∃ z : ℤ, t = z * ny) ∧ ∃ z : ℤ, u = z * nx) →
      ‖Spec.cc f f t u‖ + 2 * (2 * Real.sqrt (∑ p, f p ^ 2) * ν + ν ^ 2) < ∑ p, f p ^ 2) :
    ∃ ry rx : ι → ι → ℤ,
      (∀ i j, registerImages cfg (Spec.blanked (bad i) (Spec.exposure f (dy i) (dx i) (noise i)))
        (Spec.blanked (bad j) (Spec.exposure f (dy j) (dx j) (noise j))) usfac false false false none = .ok [.num (rx i j), .num (ry i j)]) ∧
      Spec.consistent ny nx dy dx ry rx := by
  obtain ⟨ry, rx, h1, h2, -⟩ := C145_register_stack cfg cfg f dy dx (fun k => blankNoise (bad k) f (dy k) (dx k) (noise k)) usfac hu hsz false f
    (fun p => by simp) ν (fun k => by rw [blankNoise_energy]; exact hn k) hmargin
  refine ⟨ry, rx, fun i j => ?_, h2⟩
  rw [C147_register_nan, ← h1 i j, ← nan0_blanked, ← nan0_blanked]
  rfl

/-- C147, `chi2_shift` with `upsample_factor=1` and a scalar error: the same if the scene differs from every other roll of itself by more than `6·ν`. -/
theorem C147_blanked_chi2 {ι : Type} (cfg : FFTConfig) (st : Stats) (hst : Spec.validStats st) (hy : 2 ≤ ny)
    (f : Fin ny × Fin nx → ℝ) (dy dx : ι → ℤ) (noise : ι → Fin ny × Fin nx → ℝ) (bad : ι → Set (Fin ny × Fin nx))
    (err : ErrArg ny nx) (s : ℝ) (hs : s ≠ 0) (he : Spec.isScalarErr err s) (ν : ℝ)
    (hn : ∀ k, Real.sqrt (∑ p, Spec.lost (bad k) f (dy k) (dx k) (noise k) p ^ 2) ≤ ν)
    (hmargin : ∀ gy gx : ℤ, ¬ (gy ≡ 0 [ZMOD ny] ∧ gx ≡ 0 [ZMOD nx]) → 6 * ν < Real.sqrt (∑ p, (Spec.roll2 gy gx f p - f p) ^ 2))
    (nf : ℝ) (mas : ℕ) (mns : ℝ) (ah : Bool) (hf : Spec.fits ah ny nx) :
    ∃ ry rx : ι → ι → ℤ,
      (∀ i j, chi2Shift cfg st (Spec.blanked (bad i) (Spec.exposure f (dy i) (dx i) (noise i)))
        (Spec.blanked (bad j) (Spec.exposure f (dy j) (dx j) (noise j)))
        err (.int 1) false nf false false false mas mns ah = .ok [.num (rx i j), .num (ry i j)]) ∧
      Spec.consistent ny nx dy dx ry rx := by
  obtain ⟨ry, rx, h1, h2, -⟩ := C145_chi2_stack cfg cfg st hst hy f dy dx (fun k => blankNoise (bad k) f (dy k) (dx k) (noise k)) err s hs he ν
    (fun k => by rw [blankNoise_energy]; exact hn k) hmargin nf mas mns ah hf
  refine ⟨ry, rx, fun i j => ?_, h2⟩
  rw [C147_chi2_nan, ← h1 i j, ← nan0_blanked, ← nan0_blanked]
  rfl

/-! ### a hot pixel of the detector -/

/-- The image `g` with `A` added to the pixel `q`. -/
noncomputable def Spec.hot (q : Fin ny × Fin nx) (A : ℝ) (g : Fin ny × Fin nx → ℝ) (p : Fin ny × Fin nx) : ℝ :=
  open Classical in g p + if p = q then A else 0

theorem hot_eq (q : Fin ny × Fin nx) (A : ℝ) (g : Fin ny × Fin nx → ℝ) :
    Spec.hot q A g = Spec.exposure (Spec.spot ny nx A) ((q.1 : ℕ) : ℤ) ((q.2 : ℕ) : ℤ) g := by
  classical
  funext p
  unfold Spec.hot Spec.exposure Spec.roll2 Spec.spot
  rw [add_comm]
  congr 1
  have w : ∀ (n : ℕ) [NeZero n] (i j : Fin n), i = j ↔ Spec.wrap n (((i : ℕ) : ℤ) - ((j : ℕ) : ℤ)) = 0 := by
    intro n _ i j
    rw [Spec.wrap_eq_iff]
    constructor
    · rintro rfl; simp
    · intro h
      have h' : ((i : ℕ) : ℤ) ≡ ((j : ℕ) : ℤ) [ZMOD n] := by
        have := h.add_right (((j : ℕ) : ℤ)); simpa using this
      have := (Spec.wrap_congr n h')
      rwa [Spec.wrap_val, Spec.wrap_val] at this
  have e : p = q ↔ (Spec.wrap ny (((p.1 : ℕ) : ℤ) - ((q.1 : ℕ) : ℤ)), Spec.wrap nx (((p.2 : ℕ) : ℤ) - ((q.2 : ℕ) : ℤ))) = (0 : Fin ny × Fin nx) := by
    rw [Prod.ext_iff, Prod.ext_iff, w ny, w nx]
    rfl
  by_cases h : p = q
  · rw [if_pos h, if_pos (e.1 h)]
  · rw [if_neg h, if_neg fun h' => h (e.2 h')]

theorem zero_of_rep {n : ℕ} {r : ℤ} (h : r ≡ 0 [ZMOD n]) (h1 : -(n : ℤ) ≤ 2 * r) (h2 : 2 * r < n) : r = 0 := by
  obtain ⟨z, rfl⟩ := Int.modEq_zero_iff_dvd.1 h
  have hz : z = 0 := by
    rcases lt_trichotomy z 0 with hz | hz | hz
    · nlinarith
    · exact hz
    · nlinarith
  rw [hz, mul_zero]

/-- C147: a hot detector pixel (the same pixel `q` of both images, not flagged) decides the answer: if it is at least five times brighter than the
norm of everything else in each of the images, `register_images` reports `[0, 0]`, however the images are displaced. -/
theorem C147_hot_register (cfg : FFTConfig) (q : Fin ny × Fin nx) (A : ℝ) (hA : 0 < A) (f g : Fin ny × Fin nx → ℝ)
    (hf : Real.sqrt (∑ p, f p ^ 2) ≤ A / 5) (hg : Real.sqrt (∑ p, g p ^ 2) ≤ A / 5) :
    registerImages cfg (realArr (Spec.hot q A f)) (realArr (Spec.hot q A g)) 1 false false false none = .ok [.num 0, .num 0] := by
  obtain ⟨ry, rx, h1, h2, -⟩ := C145_register_stack_example cfg cfg A hA (fun _ : Bool => ((q.1 : ℕ) : ℤ)) (fun _ => ((q.2 : ℕ) : ℤ))
    (fun k => if k then g else f) (fun k => by cases k; exacts [hf, hg])
  obtain ⟨a1, a2, a3, a4, a5, a6⟩ := h2 false true
  have := h1 false true
  simp only [Bool.false_eq_true, if_false, if_true] at this
  rw [hot_eq, hot_eq, this, zero_of_rep (by simpa using a1) a2 a3, zero_of_rep (by simpa using a4) a5 a6]
  simp

/-- C147: so does `chi2_shift` (`upsample_factor=1`, no errors) if it is seven times brighter. -/
theorem C147_hot_chi2 (cfg : FFTConfig) (st : Stats) (hst : Spec.validStats st) (hy : 2 ≤ ny) (q : Fin ny × Fin nx) (A : ℝ) (hA : 0 < A)
    (f g : Fin ny × Fin nx → ℝ) (hf : Real.sqrt (∑ p, f p ^ 2) ≤ A / 7) (hg : Real.sqrt (∑ p, g p ^ 2) ≤ A / 7)
    (nf : ℝ) (mas : ℕ) (mns : ℝ) (ah : Bool) (hfit : Spec.fits ah ny nx) :
    chi2Shift cfg st (realArr (Spec.hot q A f)) (realArr (Spec.hot q A g)) .none (.int 1) false nf false false false mas mns ah
      = .ok [.num 0, .num 0] := by
  obtain ⟨ry, rx, h1, h2, -⟩ := C145_chi2_stack_example cfg cfg st hst hy A hA (fun _ : Bool => ((q.1 : ℕ) : ℤ)) (fun _ => ((q.2 : ℕ) : ℤ))
    (fun k => if k then g else f) (fun k => by cases k; exacts [hf, hg]) nf mas mns ah hfit
  obtain ⟨a1, a2, a3, a4, a5, a6⟩ := h2 false true
  have := h1 false true
  simp only [Bool.false_eq_true, if_false, if_true] at this
  rw [hot_eq, hot_eq, this, zero_of_rep (by simpa using a1) a2 a3, zero_of_rep (by simpa using a4) a5 a6]
  simp

/-! ### a cosmic ray in one image -/

omit [NeZero ny] [NeZero nx] in
theorem hot_add (q : Fin ny × Fin nx) (A : ℝ) (g : Fin ny × Fin nx → ℝ) :
    Spec.hot q A g = fun p => g p + Spec.hot q A (fun _ => 0) p := by
  funext p; unfold Spec.hot; rw [zero_add]

theorem roll2_hot (q : Fin ny × Fin nx) (A : ℝ) (j k : ℤ) (p : Fin ny × Fin nx) :
    Spec.roll2 j k (Spec.hot q A fun _ => 0) p = Spec.hot (Spec.move j k q) A (fun _ => 0) p := by
  classical
  unfold Spec.hot
  have h1 := Spec.roll2_move j k (fun p : Fin ny × Fin nx => p) q
  by_cases h : p = Spec.move j k q
  · rw [if_pos h, h]
    have := Spec.roll2_move j k (fun p : Fin ny × Fin nx => (0 : ℝ) + if p = q then A else 0) q
    rw [this]; simp
  · rw [if_neg h]
    unfold Spec.roll2
    beta_reduce
    rw [if_neg]
    intro h'
    apply h
    have hb := (Spec.move_bijective (ny := ny) (nx := nx) j k).2 p
    obtain ⟨r, rfl⟩ := hb
    have := Spec.roll2_move j k (fun p : Fin ny × Fin nx => p) r
    unfold Spec.roll2 at this
    beta_reduce at this
    rw [this] at h'
    rw [h']

theorem cc_hot (f g : Fin ny × Fin nx → ℝ) (q : Fin ny × Fin nx) (A : ℝ) (j k : ℤ) :
    Spec.cc f (Spec.hot q A g) j k = Spec.cc f g j k + ((A * f (Spec.move j k q) : ℝ) : ℂ) := by
  classical
  rw [hot_add, cc_add]
  congr 1
  unfold Spec.cc
  rw [Finset.sum_eq_single (Spec.move j k q)]
  · rw [cshift_int, roll2_hot]
    unfold Spec.hot
    simp [mul_comm]
  · intro p _ hp
    rw [cshift_int, roll2_hot]
    unfold Spec.hot
    simp [hp]
  · simp

theorem move_eq_iff (q m : Fin ny × Fin nx) (j k : ℤ) :
    Spec.move j k q = m ↔ j ≡ ((m.1 : ℕ) : ℤ) - ((q.1 : ℕ) : ℤ) [ZMOD ny] ∧ k ≡ ((m.2 : ℕ) : ℤ) - ((q.2 : ℕ) : ℤ) [ZMOD nx] := by
  have w : ∀ (n : ℕ) [NeZero n] (a b : Fin n) (d : ℤ), Spec.wrap n (((a : ℕ) : ℤ) + d) = b ↔ d ≡ ((b : ℕ) : ℤ) - ((a : ℕ) : ℤ) [ZMOD n] := by
    intro n _ a b d
    rw [Spec.wrap_eq_iff]
    constructor
    · intro h
      have := h.sub_right (((a : ℕ) : ℤ))
      simpa using this
    · intro h
      have := h.add_left (((a : ℕ) : ℤ))
      simpa using this
  unfold Spec.move
  rw [Prod.ext_iff, ← w ny, ← w nx]

/-- C147: one unflagged cosmic ray decides the answer. Let pixel `m` be the brightest of image 1 (in modulus, by a margin `γ`), and let pixel `q` of
image 2 be hit by an amount `A` with `A·γ > 2·‖f‖·‖g‖`. Then `register_images` reports the displacement from `m` to `q` — whatever image 2 shows. -/
theorem C147_ray_register (cfg : FFTConfig) (f g : Fin ny × Fin nx → ℝ) (m q : Fin ny × Fin nx) (A γ : ℝ) (hA : 0 < A)
    (hm : ∀ p, p ≠ m → |f p| + γ ≤ |f m|)
    (hbig : 2 * (Real.sqrt (∑ p, f p ^ 2) * Real.sqrt (∑ p, g p ^ 2)) < A * γ) :
    ∃ rx ry : ℤ,
      registerImages cfg (realArr f) (realArr (Spec.hot q A g)) 1 false false false none = .ok [.num rx, .num ry] ∧
      rx ≡ ((q.2 : ℕ) : ℤ) - ((m.2 : ℕ) : ℤ) [ZMOD nx] ∧ -(nx : ℤ) ≤ 2 * rx ∧ 2 * rx < nx ∧
      ry ≡ ((q.1 : ℕ) : ℤ) - ((m.1 : ℕ) : ℤ) [ZMOD ny] ∧ -(ny : ℤ) ≤ 2 * ry ∧ 2 * ry < ny := by
  obtain ⟨ey, -, my, ly, ry, -⟩ := exists_rep ny (((q.1 : ℕ) : ℤ) - ((m.1 : ℕ) : ℤ))
  obtain ⟨ex, -, mx, lx, rx, -⟩ := exists_rep nx (((q.2 : ℕ) : ℤ) - ((m.2 : ℕ) : ℤ))
  refine ⟨ex, ey, ?_, mx, lx, rx, my, ly, ry⟩
  rw [registerImages_same]
  have int : ∀ t ∈ Spec.candidates 1, ∃ z : ℤ, t = z := by
    rintro t (⟨z, hz⟩ | ⟨h, -⟩)
    · exact ⟨z, by simpa using hz⟩
    · omega
  have int' : ∀ (t : ℝ) (e : ℤ) (n : ℕ), (∃ z : ℤ, t + e = z * n) → ∃ z : ℤ, t = z := by
    rintro t e n ⟨z, hz⟩
    exact ⟨z * n - e, by push_cast; linarith⟩
  have mq : ∀ j k : ℤ, Spec.move j k q = m ↔ (∃ z : ℤ, (j : ℝ) + ey = z * ny) ∧ ∃ z : ℤ, (k : ℝ) + ex = z * nx := by
    have one : ∀ (n : ℕ) (j e d : ℤ), e ≡ -d [ZMOD n] → (j ≡ d [ZMOD n] ↔ ∃ z : ℤ, (j : ℝ) + e = z * n) := by
      intro n j e d he
      constructor
      · intro h
        have h2 := h.add he
        rw [add_neg_cancel] at h2
        obtain ⟨z, hz⟩ := Int.modEq_zero_iff_dvd.1 h2
        exact ⟨z, by have : ((j + e : ℤ) : ℝ) = ((n * z : ℤ) : ℝ) := by rw [hz]
                     push_cast at this; linarith⟩
      · rintro ⟨z, hz⟩
        have h2 : j + e = z * n := by exact_mod_cast hz
        have h3 : j + e ≡ 0 [ZMOD n] := Int.modEq_zero_iff_dvd.2 ⟨z, by rw [h2]; ring⟩
        have := h3.sub he
        simpa using this
    intro j k
    rw [move_eq_iff, one ny j ey _ (my.trans (by rw [neg_sub])), one nx k ex _ (mx.trans (by rw [neg_sub]))]
  obtain ⟨fit, hfit, hrow, hcol⟩ := fit_recovers_of_peak ⟨cfg.hasFftw, false, 1⟩ f (Spec.hot q A g) ey ex 1 le_rfl (.inl rfl)
    (fun t u t' u' ht hu' hp hne => by
      have c1 : t ∈ Spec.candidates 1 := by
        obtain ⟨z, hz⟩ := int _ ht
        exact .inl ⟨z - ey, by push_cast; linarith⟩
      have c2 : u ∈ Spec.candidates 1 := by
        obtain ⟨z, hz⟩ := int _ hu'
        exact .inl ⟨z - ex, by push_cast; linarith⟩
      obtain ⟨j, rfl⟩ := int t c1
      obtain ⟨k, rfl⟩ := int u c2
      obtain ⟨j', rfl⟩ := int' t' ey ny hp.1
      obtain ⟨k', rfl⟩ := int' u' ex nx hp.2
      have e1 : Spec.move j' k' q = m := (mq j' k').2 hp
      have e2 : Spec.move j k q ≠ m := fun h => hne ((mq j k).1 h)
      rw [cc_hot, cc_hot, e1]
      have k1 := cc_le f g j k
      have k2 := cc_le f g j' k'
      have k3 := norm_add_le (Spec.cc f g j k) ((A * f (Spec.move j k q) : ℝ) : ℂ)
      have k4 := norm_sub_le (Spec.cc f g j' k' + ((A * f m : ℝ) : ℂ)) (Spec.cc f g j' k')
      rw [add_sub_cancel_left] at k4
      rw [Complex.norm_real, Real.norm_eq_abs, abs_mul, abs_of_pos hA] at k3 k4
      have k5 := mul_le_mul_of_nonneg_left (hm _ e2) hA.le
      nlinarith)
    ⟨ly, ry⟩ ⟨lx, rx⟩ none (by intro k hk; cases hk)
  rw [registerBody_ok cfg _ _ 1 false false false none fit (by rw [prep_false_real, prep_false_real]; exact hfit), hrow, hcol]
  simp

/-- `chi2_shift` with `upsample_factor=1` returns the displacement with the unique smallest chi-squared -/
theorem chi2_one_answer (cfg : FFTConfig) (st : Stats) (hst : Spec.validStats st) (hy : 2 ≤ ny) (im1 im2 : Fin ny × Fin nx → Pix)
    (err : ErrArg ny nx) (zm : Bool) (dy dx : ℤ)
    (h : ∀ ey ex : ℤ, ¬ (ey ≡ dy [ZMOD ny] ∧ ex ≡ dx [ZMOD nx]) →
      Spec.chi2 (Spec.maskOf err (prep zm im1)) (Spec.maskOf err (prep zm im2)) (Spec.errOf err) dy dx
        < Spec.chi2 (Spec.maskOf err (prep zm im1)) (Spec.maskOf err (prep zm im2)) (Spec.errOf err) ey ex)
    (nf : ℝ) (mas : ℕ) (mns : ℝ) (ah : Bool) (hf : Spec.fits ah ny nx) :
    ∃ rx ry : ℤ, chi2Shift cfg st im1 im2 err (.int 1) zm nf false false false mas mns ah = .ok [.num rx, .num ry] ∧
      rx ≡ dx [ZMOD nx] ∧ -(nx : ℤ) ≤ 2 * rx ∧ 2 * rx < nx ∧
      ry ≡ dy [ZMOD ny] ∧ -(ny : ℤ) ≤ 2 * ry ∧ 2 * ry < ny := by
  obtain ⟨cm, hcm, hchi⟩ := chi2nMapBody_chi2 cfg im1 im2 err zm ah hf
  obtain ⟨dy', qy, cy, ly, uy, ey⟩ := exists_rep ny dy
  obtain ⟨dx', qx, cx, lx, ux, ex⟩ := exists_rep nx dx
  have lagy : Spec.lag ny qy = dy' := by unfold Spec.lag Spec.zeroLag; omega
  have lagx : Spec.lag nx qx = dx' := by unfold Spec.lag Spec.zeroLag; omega
  have hlt : ∀ i, i ≠ (qy, qx) → cm.chi2 (qy, qx) < cm.chi2 i := by
    intro i hi
    have hne : ¬ (Spec.lag ny i.1 ≡ dy [ZMOD ny] ∧ Spec.lag nx i.2 ≡ dx [ZMOD nx]) := by
      rintro ⟨c1, c2⟩
      apply hi
      have back : ∀ (n : ℕ) [NeZero n] (i q : Fin n) (d : ℤ), Spec.lag n i ≡ d [ZMOD n] → Spec.lag n q ≡ d [ZMOD n] → i = q := by
        intro n _ i q d h1 h2
        have h3 := (Int.ModEq.refl (Spec.zeroLag n : ℤ)).sub (h1.trans h2.symm)
        unfold Spec.lag at h3
        rw [sub_sub_cancel, sub_sub_cancel] at h3
        exact Fin.eq_of_modEq h3
      exact Prod.ext (back ny i.1 qy dy c1 (by rw [lagy]; exact cy)) (back nx i.2 qx dx c2 (by rw [lagx]; exact cx))
    rw [hchi, hchi]
    have e0 : Spec.chi2 (Spec.maskOf err (prep zm im1)) (Spec.maskOf err (prep zm im2)) (Spec.errOf err) (Spec.lag ny qy) (Spec.lag nx qx)
        = Spec.chi2 (Spec.maskOf err (prep zm im1)) (Spec.maskOf err (prep zm im2)) (Spec.errOf err) dy dx := by
      rw [lagy, lagx, chi2_eq_roll, chi2_eq_roll, roll2_congr cy cx]
    show Spec.chi2 _ _ _ (Spec.lag ny qy) (Spec.lag nx qx) < _
    rw [e0]
    exact h _ _ hne
  refine ⟨dx', dy', ?_, cx, lx, ux, cy, ly, uy⟩
  have := chi2ShiftB_one cfg .wrap st hst _ _ err zm nf mas mns ah hy cm hcm (qy, qx) hlt
  refine Eq.trans this ?_
  have cast : ∀ (n : ℕ) (q : Fin n) (d : ℤ), ((q : ℕ) : ℤ) = ((n - 1) / 2 : ℕ) - d → (((n - 1) / 2 : ℕ) : ℝ) - ((q : ℕ) : ℝ) = (d : ℝ) := by
    intro n q d h
    have : (d : ℤ) = ((((n - 1) / 2 : ℕ) : ℤ)) - ((q : ℕ) : ℤ) := by omega
    rw [this, Int.cast_sub, Int.cast_natCast, Int.cast_natCast]
  rw [cast _ _ _ ey, cast _ _ _ ex]

/-- C147: the same for `chi2_shift` (`upsample_factor=1`, scalar error or none), `m` the brightest pixel of image 1. -/
theorem C147_ray_chi2 (cfg : FFTConfig) (st : Stats) (hst : Spec.validStats st) (hy : 2 ≤ ny) (f g : Fin ny × Fin nx → ℝ)
    (m q : Fin ny × Fin nx) (A γ : ℝ) (hA : 0 < A) (hm : ∀ p, p ≠ m → f p + γ ≤ f m)
    (hbig : 2 * (Real.sqrt (∑ p, f p ^ 2) * Real.sqrt (∑ p, g p ^ 2)) < A * γ)
    (err : ErrArg ny nx) (s : ℝ) (hs : s ≠ 0) (he : Spec.isScalarErr err s)
    (nf : ℝ) (mas : ℕ) (mns : ℝ) (ah : Bool) (hfit : Spec.fits ah ny nx) :
    ∃ rx ry : ℤ,
      chi2Shift cfg st (realArr f) (realArr (Spec.hot q A g)) err (.int 1) false nf false false false mas mns ah = .ok [.num rx, .num ry] ∧
      rx ≡ ((q.2 : ℕ) : ℤ) - ((m.2 : ℕ) : ℤ) [ZMOD nx] ∧ -(nx : ℤ) ≤ 2 * rx ∧ 2 * rx < nx ∧
      ry ≡ ((q.1 : ℕ) : ℤ) - ((m.1 : ℕ) : ℤ) [ZMOD ny] ∧ -(ny : ℤ) ≤ 2 * ry ∧ 2 * ry < ny := by
  classical
  refine chi2_one_answer cfg st hst hy _ _ err false _ _ (fun ey ex hne => ?_) nf mas mns ah hfit
  rw [scalarErr_errOf he, scalarErr_maskOf he, scalarErr_maskOf he, prep_false_real, prep_false_real, chi2_eq_roll, chi2_eq_roll]
  have hs2 : 0 < s ^ 2 := by positivity
  rw [← Finset.sum_div, ← Finset.sum_div, div_lt_div_iff_of_pos_right hs2]
  -- the sum of squares in terms of the scalar product with the second image
  have ex1 : ∀ ey ex : ℤ, ∑ p, (Spec.roll2 ey ex f p - Spec.hot q A g p) ^ 2
      = ∑ p, f p ^ 2 + ∑ p, Spec.hot q A g p ^ 2 - 2 * (∑ p, Spec.roll2 ey ex f p * g p + A * Spec.roll2 ey ex f q) := by
    intro ey ex
    have e : ∑ p, Spec.roll2 ey ex f p * g p + A * Spec.roll2 ey ex f q = ∑ p, Spec.roll2 ey ex f p * Spec.hot q A g p := by
      unfold Spec.hot
      simp only [mul_add, Finset.sum_add_distrib, mul_ite, mul_zero, Finset.sum_ite_eq', Finset.mem_univ, if_true]
      ring
    rw [e, ← roll2_energy ey ex f, Finset.mul_sum, ← Finset.sum_add_distrib, ← Finset.sum_sub_distrib]
    refine Finset.sum_congr rfl fun p _ => ?_
    ring
  have cs : ∀ ey ex : ℤ, |∑ p, Spec.roll2 ey ex f p * g p| ≤ Real.sqrt (∑ p, f p ^ 2) * Real.sqrt (∑ p, g p ^ 2) := by
    intro ey ex
    have h1 := Finset.sum_mul_sq_le_sq_mul_sq Finset.univ (Spec.roll2 ey ex f) g
    rw [roll2_energy] at h1
    rw [← Real.sqrt_mul (Finset.sum_nonneg fun p _ => sq_nonneg _)]
    exact Real.abs_le_sqrt h1
  rw [ex1, ex1]
  have back : ∀ ey ex : ℤ, Spec.roll2 ey ex f q = f (Spec.move (-ey) (-ex) q) := by
    intro ey ex
    unfold Spec.roll2 Spec.move
    simp only [sub_eq_add_neg]
  have e1 : Spec.move (-(((q.1 : ℕ) : ℤ) - ((m.1 : ℕ) : ℤ))) (-(((q.2 : ℕ) : ℤ) - ((m.2 : ℕ) : ℤ))) q = m := by
    rw [move_eq_iff]
    constructor <;> rw [neg_sub]
  have e2 : Spec.move (-ey) (-ex) q ≠ m := by
    intro h
    obtain ⟨h1, h2⟩ := (move_eq_iff _ _ _ _).1 h
    refine hne ⟨?_, ?_⟩
    · have := h1.neg; rwa [neg_neg, neg_sub] at this
    · have := h2.neg; rwa [neg_neg, neg_sub] at this
  rw [back, back, e1]
  have k5 := mul_le_mul_of_nonneg_left (hm _ e2) hA.le
  have c1 := (abs_le.1 (cs (((q.1 : ℕ) : ℤ) - ((m.1 : ℕ) : ℤ)) (((q.2 : ℕ) : ℤ) - ((m.2 : ℕ) : ℤ)))).1
  have c2 := (abs_le.1 (cs ey ex)).2
  nlinarith

/-- C147 (a case that meets the conditions): image 1 shows one source of height 1, image 2 nothing but noise of norm 1 and a cosmic ray of height 3 in
pixel `q`: the ray is taken for the source. -/
example (cfg : FFTConfig) (q : Fin ny × Fin nx) (g : Fin ny × Fin nx → ℝ) (hg : ∑ p, g p ^ 2 = 1) :
    ∃ rx ry : ℤ,
      registerImages cfg (realArr (Spec.spot ny nx 1)) (realArr (Spec.hot q 3 g)) 1 false false false none = .ok [.num rx, .num ry] ∧
      rx ≡ ((q.2 : ℕ) : ℤ) [ZMOD nx] ∧ ry ≡ ((q.1 : ℕ) : ℤ) [ZMOD ny] := by
  obtain ⟨rx, ry, h, h1, -, -, h2, -⟩ := C147_ray_register cfg (Spec.spot ny nx 1) g 0 q 3 1 (by norm_num)
    (fun p hp => by simp [Spec.spot, hp]) (by rw [spot_energy, hg]; norm_num)
  exact ⟨rx, ry, h, by simpa using h1, by simpa using h2⟩

/-- C147 (a case that meets the conditions of the blanked exposures): one source of height `A`, each exposure with noise and with any pixels blanked
but the one that shows the source. -/
example {ι : Type} (cfg : FFTConfig) (A : ℝ) (hA : 0 < A) (dy dx : ι → ℤ) (noise : ι → Fin ny × Fin nx → ℝ)
    (bad : ι → Set (Fin ny × Fin nx)) (hbad : ∀ k, ∀ p ∈ bad k, Spec.roll2 (dy k) (dx k) (Spec.spot ny nx A) p = 0)
    (hn : ∀ k, Real.sqrt (∑ p, noise k p ^ 2) ≤ A / 5) :
    ∃ ry rx : ι → ι → ℤ,
      (∀ i j, registerImages cfg (Spec.blanked (bad i) (Spec.exposure (Spec.spot ny nx A) (dy i) (dx i) (noise i)))
        (Spec.blanked (bad j) (Spec.exposure (Spec.spot ny nx A) (dy j) (dx j) (noise j))) 1 false false false none
        = .ok [.num (rx i j), .num (ry i j)]) ∧
      Spec.consistent ny nx dy dx ry rx := by
  classical
  refine C147_blanked_register cfg (Spec.spot ny nx A) dy dx noise bad 1 le_rfl (.inl rfl) (A / 5) (fun k => ?_) (fun t ht u hu hne => ?_)
  · refine (Real.sqrt_le_sqrt (Finset.sum_le_sum fun p _ => ?_)).trans (hn k)
    unfold Spec.lost
    by_cases hp : p ∈ bad k
    · rw [if_pos hp, hbad k p hp, zero_pow two_ne_zero]; exact sq_nonneg _
    · rw [if_neg hp]
  · exact spot_margin A hA t ht u hu hne

end

end ImgReg
