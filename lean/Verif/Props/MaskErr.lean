import Verif.Props.BadPixels

/-!
# Masking pixels with the error image (C148)

`chi2n_map` and `chi2_shift` accept an error image in which 0 or NaN marks bad pixels. Such pixels are set to 0 in both images and get the error 1 —
whatever the units of the images are.
-/

open Complex Finset
open scoped ComplexConjugate

namespace ImgReg

section
variable {ny nx : ℕ} [NeZero ny] [NeZero nx]

/-- `er` is the error image `σ` with the pixels of `bad` marked (by NaN or 0). -/
def Spec.marks (bad : Set (Fin ny × Fin nx)) (σ : Fin ny × Fin nx → ℝ) (er : Fin ny × Fin nx → Pix) : Prop :=
  (∀ p ∈ bad, er p = none ∨ er p = some 0) ∧ ∀ p ∉ bad, er p = some (σ p) ∧ σ p ≠ 0

omit [NeZero ny] [NeZero nx] in
theorem marks_nan0 {bad : Set (Fin ny × Fin nx)} {σ : Fin ny × Fin nx → ℝ} {er : Fin ny × Fin nx → Pix} (h : Spec.marks bad σ er) :
    (∀ p ∈ bad, Spec.nan0 er p = 0) ∧ ∀ p ∉ bad, Spec.nan0 er p = σ p ∧ σ p ≠ 0 := by
  refine ⟨fun p hp => ?_, fun p hp => ?_⟩
  · rcases h.1 p hp with e | e <;> simp [Spec.nan0, e]
  · obtain ⟨e, hne⟩ := h.2 p hp
    exact ⟨by simp [Spec.nan0, e], hne⟩

/-- The errors that are used: `σ`, and 1 in the marked pixels. -/
noncomputable def Spec.usedErr (bad : Set (Fin ny × Fin nx)) (σ : Fin ny × Fin nx → ℝ) (p : Fin ny × Fin nx) : ℝ :=
  open Classical in if p ∈ bad then 1 else σ p

/-- the image with NaN in the marked pixels in addition to its own -/
noncomputable def Spec.alsoBlank (bad : Set (Fin ny × Fin nx)) (im : Fin ny × Fin nx → Pix) (p : Fin ny × Fin nx) : Pix :=
  open Classical in if p ∈ bad then none else im p

/-- C148: marking pixels in the error image is the same as blanking them in both images and giving them the error 1 (without `zeromean`), for every
upsampling factor and all flags. -/
theorem C148_marked_is_blanked (cfg : FFTConfig) (bd : CorrBoundary) (st : Stats) (bad : Set (Fin ny × Fin nx)) (σ : Fin ny × Fin nx → ℝ)
    (er : Fin ny × Fin nx → Pix) (he : Spec.marks bad σ er) (im1 im2 : Fin ny × Fin nx → Pix) (us : UsFactor) (nf : ℝ)
    (vb re ra : Bool) (mas : ℕ) (mns : ℝ) (ah : Bool) :
    chi2ShiftB cfg bd st im1 im2 (.image er) us false nf vb re ra mas mns ah
      = chi2ShiftB cfg bd st (Spec.alsoBlank bad im1) (Spec.alsoBlank bad im2) (.image (realArr (Spec.usedErr bad σ))) us false nf vb re ra mas
          mns ah := by
  classical
  obtain ⟨h0, h1⟩ := marks_nan0 he
  have hu : ∀ p, Spec.usedErr bad σ p ≠ 0 := by
    intro p
    unfold Spec.usedErr
    by_cases hp : p ∈ bad
    · simp [hp]
    · rw [if_neg hp]; exact (h1 p hp).2
  have e1 : ∀ im : Fin ny × Fin nx → Pix, (fun i => if Spec.nan0 er i = 0 then 0 else Spec.nan0 im i)
      = fun i => if Spec.nan0 (realArr (Spec.usedErr bad σ)) i = 0 then 0 else Spec.nan0 (Spec.alsoBlank bad im) i := by
    intro im
    funext p
    rw [if_neg (show ¬ Spec.nan0 (realArr (Spec.usedErr bad σ)) p = 0 from hu p)]
    unfold Spec.alsoBlank Spec.nan0
    by_cases hp : p ∈ bad
    · have := h0 p hp; unfold Spec.nan0 at this; simp [hp, this]
    · have := h1 p hp; unfold Spec.nan0 at this; simp [hp, this.1, this.2]
  have e2 : (fun i => if Spec.nan0 er i = 0 then 1 else Spec.nan0 er i)
      = fun i => if Spec.nan0 (realArr (Spec.usedErr bad σ)) i = 0 then 1 else Spec.nan0 (realArr (Spec.usedErr bad σ)) i := by
    funext p
    rw [if_neg (show ¬ Spec.nan0 (realArr (Spec.usedErr bad σ)) p = 0 from hu p)]
    show _ = Spec.usedErr bad σ p
    unfold Spec.usedErr
    by_cases hp : p ∈ bad
    · rw [if_pos (h0 p hp), if_pos hp]
    · rw [if_neg hp, (h1 p hp).1, if_neg (h1 p hp).2]
  have h : chi2nMapB cfg bd im1 im2 (.image er) false true false ah
      = chi2nMapB cfg bd (Spec.alsoBlank bad im1) (Spec.alsoBlank bad im2) (.image (realArr (Spec.usedErr bad σ))) false true false ah := by
    have e1' : ∀ (im : Fin ny × Fin nx → Pix) i, (if finiteVals (Np.nanToNum er) i = 0 then 0 else finiteVals (Np.nanToNum im) i)
        = if finiteVals (Np.nanToNum (realArr (Spec.usedErr bad σ))) i = 0 then 0
          else finiteVals (Np.nanToNum (Spec.alsoBlank bad im)) i := fun im => congrFun (e1 im)
    have e2' : ∀ i, (if finiteVals (Np.nanToNum er) i = 0 then 1 else finiteVals (Np.nanToNum er) i)
        = if finiteVals (Np.nanToNum (realArr (Spec.usedErr bad σ))) i = 0 then 1
          else finiteVals (Np.nanToNum (realArr (Spec.usedErr bad σ))) i := congrFun e2
    unfold chi2nMapB chi2nMapBodyB
    simp only [and_self, dite_true, Fin.cast_refl, id, Prod.mk.eta, Bool.false_eq_true, if_false, e1', e2']
  unfold chi2ShiftB
  rw [h]

/-- C148: marked pixels hold the answer at `[0, 0]`. Let every displacement other than 0 (modulo the frame) bring an unmarked pixel of image 1 to
some marked pixel — for a single marked pixel this is always so —, let the unmarked pixels of image 1 be at least `μ` in modulus, and let the
chi-squared of the two images as they are, over the unmarked pixels, be less than `μ²`. Then `chi2_shift` (`upsample_factor=1`) reports `[0, 0]`,
whatever the true displacement: each marked pixel counts with error 1, in the units of the images. -/
theorem C148_pinned (cfg : FFTConfig) (st : Stats) (hst : Spec.validStats st) (hy : 2 ≤ ny) (bad : Set (Fin ny × Fin nx))
    (f g σ : Fin ny × Fin nx → ℝ) (er : Fin ny × Fin nx → Pix) (he : Spec.marks bad σ er) (μ : ℝ) (hμ : 0 < μ)
    (hbad : ∀ ey ex : ℤ, ¬ (ey ≡ 0 [ZMOD ny] ∧ ex ≡ 0 [ZMOD nx]) → ∃ p ∈ bad, Spec.move (-ey) (-ex) p ∉ bad)
    (hf : ∀ p ∉ bad, μ ≤ |f p|)
    (hchi : (open Classical in ∑ p, if p ∈ bad then 0 else (f p - g p) ^ 2 / σ p ^ 2) < μ ^ 2)
    (nf : ℝ) (mas : ℕ) (mns : ℝ) (ah : Bool) (hfit : Spec.fits ah ny nx) :
    chi2Shift cfg st (realArr f) (realArr g) (.image er) (.int 1) false nf false false false mas mns ah = .ok [.num 0, .num 0] := by
  classical
  obtain ⟨h0, h1⟩ := marks_nan0 he
  have hA : ∀ (x : Fin ny × Fin nx → ℝ) p, Spec.maskOf (.image er) (prep false (realArr x)) p = if p ∈ bad then 0 else x p := by
    intro x p
    rw [prep_false_real]
    show (if Spec.nan0 er p = 0 then 0 else x p) = _
    by_cases hp : p ∈ bad
    · rw [if_pos (h0 p hp), if_pos hp]
    · rw [(h1 p hp).1, if_neg (h1 p hp).2, if_neg hp]
  have hS : ∀ p, Spec.errOf (.image er) p = if p ∈ bad then 1 else σ p := by
    intro p
    show (if Spec.nan0 er p = 0 then 1 else Spec.nan0 er p) = _
    by_cases hp : p ∈ bad
    · rw [if_pos (h0 p hp), if_pos hp]
    · rw [(h1 p hp).1, if_neg (h1 p hp).2, if_neg hp]
  obtain ⟨rx, ry, h, m1, l1, u1, m2, l2, u2⟩ := chi2_one_answer cfg st hst hy (realArr f) (realArr g) (.image er) false 0 0
    (fun ey ex hne => by
      have z : Spec.chi2 (Spec.maskOf (.image er) (prep false (realArr f))) (Spec.maskOf (.image er) (prep false (realArr g)))
          (Spec.errOf (.image er)) 0 0 < μ ^ 2 := by
        rw [chi2_eq_roll]
        refine lt_of_eq_of_lt (Finset.sum_congr rfl fun p _ => ?_) hchi
        have : Spec.roll2 0 0 (Spec.maskOf (.image er) (prep false (realArr f))) p = Spec.maskOf (.image er) (prep false (realArr f)) p := by
          unfold Spec.roll2
          simp only [sub_zero, Spec.wrap_val]
        rw [this, hA, hA, hS]
        by_cases hp : p ∈ bad <;> simp [hp]
      refine z.trans_le ?_
      obtain ⟨p, hp, hp'⟩ := hbad ey ex hne
      rw [chi2_eq_roll]
      refine le_trans ?_ (Finset.single_le_sum (f := fun q => (Spec.roll2 ey ex (Spec.maskOf (.image er) (prep false (realArr f))) q
        - Spec.maskOf (.image er) (prep false (realArr g)) q) ^ 2 / Spec.errOf (.image er) q ^ 2)
        (fun q _ => div_nonneg (sq_nonneg _) (sq_nonneg _)) (Finset.mem_univ p))
      have e : Spec.roll2 ey ex (Spec.maskOf (.image er) (prep false (realArr f))) p = f (Spec.move (-ey) (-ex) p) := by
        have : Spec.roll2 ey ex (Spec.maskOf (.image er) (prep false (realArr f))) p
            = Spec.maskOf (.image er) (prep false (realArr f)) (Spec.move (-ey) (-ex) p) := by
          unfold Spec.roll2 Spec.move; simp only [sub_eq_add_neg]
        rw [this, hA, if_neg hp']
      rw [e, hA, hS, if_pos hp, if_pos hp, sub_zero, one_pow, div_one, ← sq_abs (f _)]
      have := hf _ hp'
      nlinarith) nf mas mns ah hfit
  rw [h, zero_of_rep m1 l1 u1, zero_of_rep m2 l2 u2]
  simp

/-- a single pixel is moved by every displacement but 0 -/
theorem single_moves (q : Fin ny × Fin nx) (ey ex : ℤ) (h : ¬ (ey ≡ 0 [ZMOD ny] ∧ ex ≡ 0 [ZMOD nx])) :
    ∃ p ∈ ({q} : Set (Fin ny × Fin nx)), Spec.move (-ey) (-ex) p ∉ ({q} : Set (Fin ny × Fin nx)) := by
  refine ⟨q, rfl, fun hq => h ?_⟩
  obtain ⟨h1, h2⟩ := (move_eq_iff _ _ _ _).1 hq
  rw [sub_self] at h1 h2
  exact ⟨by simpa using h1.neg, by simpa using h2.neg⟩

/-- C148: so the answer depends on the units. For any two images, image 1 without zero pixels, and any errors with one pixel `q` marked as bad, there is a
unit so small — a factor `K` — that with images and errors expressed in it, or in any smaller unit, `chi2_shift` reports `[0, 0]`. -/
theorem C148_units (cfg : FFTConfig) (st : Stats) (hst : Spec.validStats st) (hy : 2 ≤ ny) (q : Fin ny × Fin nx)
    (f g σ : Fin ny × Fin nx → ℝ) (hσ : ∀ p, σ p ≠ 0) (hf : ∀ p, f p ≠ 0) (nf : ℝ) (mas : ℕ) (mns : ℝ) (ah : Bool)
    (hfit : Spec.fits ah ny nx) :
    ∃ K : ℝ, 0 < K ∧ ∀ k : ℝ, K ≤ k →
      chi2Shift cfg st (realArr fun p => k * f p) (realArr fun p => k * g p) (.image (Spec.blanked {q} fun p => k * σ p)) (.int 1) false nf
        false false false mas mns ah = .ok [.num 0, .num 0] := by
  classical
  obtain ⟨μ, hμ, hle⟩ : ∃ μ : ℝ, 0 < μ ∧ ∀ p, μ ≤ |f p| := by
    obtain ⟨p0, -, h0⟩ := Finset.exists_min_image Finset.univ (fun p => |f p|) ⟨q, Finset.mem_univ q⟩
    exact ⟨|f p0|, abs_pos.2 (hf p0), fun p => h0 p (Finset.mem_univ p)⟩
  set C : ℝ := ∑ p, if p ∈ ({q} : Set (Fin ny × Fin nx)) then 0 else (f p - g p) ^ 2 / σ p ^ 2 with hC
  have hC0 : 0 ≤ C := Finset.sum_nonneg fun p _ => by split_ifs; exacts [le_rfl, div_nonneg (sq_nonneg _) (sq_nonneg _)]
  refine ⟨(Real.sqrt C + 1) / μ, by positivity, fun k hk => ?_⟩
  have hk0 : 0 < k := lt_of_lt_of_le (by positivity) hk
  have hkμ : Real.sqrt C + 1 ≤ k * μ := (div_le_iff₀ hμ).1 hk
  refine C148_pinned cfg st hst hy {q} _ _ (fun p => k * σ p) _ ⟨fun p hp => .inl ?_, fun p hp => ⟨?_, mul_ne_zero hk0.ne' (hσ p)⟩⟩ (k * μ)
    (by positivity) (single_moves q) (fun p _ => ?_) ?_ nf mas mns ah hfit
  · unfold Spec.blanked; rw [if_pos hp]
  · unfold Spec.blanked; rw [if_neg hp]
  · rw [abs_mul, abs_of_pos hk0]
    exact mul_le_mul_of_nonneg_left (hle p) hk0.le
  · refine lt_of_eq_of_lt (b := C) ?_ ?_
    · rw [hC]
      refine Finset.sum_congr rfl fun p _ => ?_
      by_cases hp : p ∈ ({q} : Set (Fin ny × Fin nx))
      · rw [if_pos hp, if_pos hp]
      · rw [if_neg hp, if_neg hp, ← mul_sub, mul_pow, mul_pow, mul_div_mul_left _ _ (by positivity)]
    have := Real.sq_sqrt hC0
    have h2 := Real.sqrt_nonneg C
    nlinarith

/-- C148: whereas the same pixel blanked in both images, with its own error kept, leaves the answer independent of the units: scaling images and error
image by the same factor changes nothing — the whole chi-squared map is the same. -/
theorem C148_blanked_units (cfg : FFTConfig) (ah : Bool) (hfit : Spec.fits ah ny nx) (im1 im2 : Fin ny × Fin nx → Pix) (σ : Fin ny × Fin nx → ℝ)
    (hσ : ∀ p, σ p ≠ 0) (k : ℝ) (hk : k ≠ 0) :
    ∃ c : Fin ny × Fin nx → ℝ,
      chi2nMap cfg im1 im2 (.image (realArr σ)) false false false ah = .ok (.only c) ∧
      chi2nMap cfg (fun p => (im1 p).map (k * ·)) (fun p => (im2 p).map (k * ·)) (.image (realArr fun p => k * σ p)) false false false ah
        = .ok (.only c) := by
  obtain ⟨m, h1, h2⟩ := chi2nMapBody_chi2 cfg im1 im2 (.image (realArr σ)) false ah hfit
  obtain ⟨m', h1', h2'⟩ := chi2nMapBody_chi2 cfg (fun p => (im1 p).map (k * ·)) (fun p => (im2 p).map (k * ·)) (.image (realArr fun p => k * σ p))
    false ah hfit
  refine ⟨m.chi2, by rw [chi2nMap_same, h1]; rfl, ?_⟩
  rw [chi2nMap_same, h1']
  have e : m'.chi2 = m.chi2 := by
    funext i
    rw [h2, h2']
    unfold Spec.chi2
    refine Finset.sum_congr rfl fun p _ => ?_
    have hk2 : ∀ p, k * σ p ≠ 0 := fun p => mul_ne_zero hk (hσ p)
    have a1 : ∀ (im : Fin ny × Fin nx → Pix) (p : Fin ny × Fin nx),
        Spec.maskOf (.image (realArr fun p => k * σ p)) (prep false fun p => (im p).map (k * ·)) p
          = k * Spec.maskOf (.image (realArr σ)) (prep false im) p := by
      intro im p
      have s1 : Spec.maskOf (.image (realArr fun p => k * σ p)) (prep false fun p => (im p).map (k * ·)) p
          = prep false (fun p => (im p).map (k * ·)) p := if_neg (hk2 p)
      have s2 : Spec.maskOf (.image (realArr σ)) (prep false im) p = prep false im p := if_neg (hσ p)
      rw [s1, s2]
      unfold prep
      rcases h : im p with _ | v <;> simp [h]
    have a2 : ∀ p, Spec.errOf (.image (realArr fun p => k * σ p)) p = k * Spec.errOf (.image (realArr σ)) p := by
      intro p
      have s1 : Spec.errOf (.image (realArr fun p => k * σ p)) p = k * σ p := if_neg (hk2 p)
      have s2 : Spec.errOf (.image (realArr σ)) p = σ p := if_neg (hσ p)
      rw [s1, s2]
    rw [a1, a1, a2, ← mul_sub, mul_pow, mul_pow, mul_div_mul_left _ _ (pow_ne_zero 2 hk)]
  rw [← e]; rfl

/-- C148 (a case that meets the conditions): a picture of 30 rows with values 1 and 2, its own roll by any displacement, errors 1 and one bad pixel: in a
small enough unit `chi2_shift` reports `[0, 0]`. -/
example (cfg : FFTConfig) (st : Stats) (hst : Spec.validStats st) (dy dx : ℤ) :
    ∃ K : ℝ, 0 < K ∧ ∀ k : ℝ, K ≤ k →
      chi2Shift cfg st (realArr fun p : Fin 30 × Fin 40 => k * (if p = 0 then 2 else 1))
        (realArr fun p => k * Spec.roll2 dy dx (fun p : Fin 30 × Fin 40 => if p = 0 then 2 else 1) p) (.image (Spec.blanked {(3, 4)} fun _ => k * 1)) (.int 1) false 2
        false false false 512 1.1 false = .ok [.num 0, .num 0] :=
  C148_units cfg st hst (by norm_num) (3, 4) (fun p => if p = 0 then 2 else 1) _ (fun _ => 1) (fun _ => one_ne_zero)
    (fun p => by split_ifs <;> norm_num) 2 512 1.1 false (Or.inr (by norm_num))

end

end ImgReg
