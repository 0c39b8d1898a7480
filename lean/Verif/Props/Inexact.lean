import Verif.Lemmas.Inexact

/-!
# `register_images` in floating point (C111)

The numbers `register_images` compares are sums of thousands of rounded terms.  These theorems say what is left of the exact results when
every operation has a relative error of at most `δ` (`Spec.Accurate A δ`, nothing else is known about the arithmetic `A`): the error of every
correlation value is at most `Spec.tau δ …`, and an answer that wins by more than twice this is still returned, exactly.
-/

open Complex Finset
open scoped ComplexConjugate

namespace ImgReg

/-- exact arithmetic -/
noncomputable def Arith.exact : Arith where
  fft := fun x => dft x
  ifft := fun y => idft y
  dftups := fun y _ us roff coff i => dftupsVal y us roff coff (i.1 : ℕ) (i.2 : ℕ)
  mul := fun z w => z * w
  div := fun z r => z / r
  abs := fun z => ‖z‖
  sub := fun x y => x - y
  mean := fun im => Spec.finiteMean im

theorem dftups_zero_not_ok {m n : ℕ} [NeZero m] [NeZero n] (y : Fin m × Fin n → CPix) (s t : Option ℕ) (roff coff : ℝ) (o : COut2) :
    dftups y s t 0 roff coff ≠ .ok o := by
  unfold dftups
  simp

/-- exact arithmetic is accurate -/
theorem Arith.exact_accurate : Spec.Accurate Arith.exact 0 where
  fft := fun x => by simp [Arith.exact]
  ifft := fun y i => by simp [Arith.exact]
  dftups := fun y s us roff coff o h i => by
    by_cases hus : us = 0
    · subst hus; exact absurd h (dftups_zero_not_ok _ _ _ _ _ _)
    · rw [dftups_eq y (some s) (some s) us roff coff hus] at h
      simp only [Option.getD_some, Except.ok.injEq, COut2.mk.injEq, heq_eq_eq, true_and] at h
      have h1 := congrFun h i
      simp only [cArr, Option.some.injEq] at h1
      simp [Arith.exact, h1]
  mul := fun z w => by simp [Arith.exact]
  div := fun z r _ => by simp [Arith.exact]
  abs := fun z => by simp [Arith.exact]
  sub := fun x y => by simp [Arith.exact]
  mean := fun im _ => by simp [Arith.exact]

/-- one value exceeds all others by more than `2t` -/
def Spec.clearPeak {ι : Type} (f : ι → ℝ) (t : ℝ) : Prop := ∃ i₀, ∀ i, i ≠ i₀ → f i + 2 * t < f i₀

theorem argmax_of_clearPeak {m n : ℕ} [NeZero m] [NeZero n] {f g : Fin m × Fin n → ℝ} {t : ℝ} (h : ∀ i, |g i - f i| ≤ t)
    (hc : Spec.clearPeak f t) : Np.argmax g = Np.argmax f := by
  obtain ⟨i₀, hi⟩ := hc
  have ht : 0 ≤ t := (abs_nonneg _).trans (h i₀)
  have h1 : Np.argmax g = i₀ := by
    apply Np.argmax_eq_of_unique
    intro j hj
    have a1 := abs_le.1 (h j)
    have a2 := abs_le.1 (h i₀)
    have := hi j hj
    linarith [a1.1, a1.2, a2.1, a2.2]
  have h2 : Np.argmax f = i₀ := by
    apply Np.argmax_eq_of_unique
    intro j hj
    have := hi j hj
    linarith
  rw [h1, h2]

/-- the position found is the best one up to twice the error -/
theorem argmax_near {m n : ℕ} [NeZero m] [NeZero n] {f g : Fin m × Fin n → ℝ} {t : ℝ} (h : ∀ i, |g i - f i| ≤ t) (i : Fin m × Fin n) :
    f i ≤ f (Np.argmax g) + 2 * t := by
  have h1 := (Np.argmax_spec g).1 i
  have a1 := abs_le.1 (h i)
  have a2 := abs_le.1 (h (Np.argmax g))
  linarith [a1.1, a1.2, a2.1, a2.2]

theorem kept_none {m n : ℕ} (f : Fin m × Fin n → ℝ) : Spec.kept none f = f := by
  funext i
  have : ¬ Spec.erased m n none i := by rintro ⟨k, hk, _⟩; cases hk
  unfold Spec.kept
  rw [if_neg this]

section
variable {ny nx : ℕ} [NeZero ny] [NeZero nx]

theorem registerA_ok (A : Arith) (im1 im2 : Fin ny × Fin nx → Pix) (usfac : ℕ) (zm : Bool) (mo : Option ℕ) (r c : ℝ)
    (h : dftregA A (A.fft fun p => (prepA A zm im1 p : ℂ)) (A.fft fun p => (prepA A zm im2 p : ℂ)) usfac mo = .ok (r, c)) :
    registerA A im1 im2 usfac zm mo = .ok [.num (-c), .num (-r)] := by
  unfold registerA
  simp only [h]
  rfl

theorem registerA_one {A : Arith} {δ : ℝ} (hA : Spec.Accurate A δ) (im1 im2 : Fin ny × Fin nx → Pix) (zm : Bool) (mo : Option ℕ) :
    ∃ g : Fin ny × Fin nx → ℝ,
      (∀ i, |g i - Spec.kept mo (fun i : Fin ny × Fin nx =>
        ‖Spec.cc (prep zm im1) (prep zm im2) ((i.1 : ℕ) : ℝ) ((i.2 : ℕ) : ℝ)‖) i| ≤ Spec.tau δ zm im1 im2) ∧
      registerA A im1 im2 1 zm mo = .ok [.num (-(wrapPeak nx (Np.argmax g).2 : ℝ)), .num (-(wrapPeak ny (Np.argmax g).1 : ℝ))] := by
  obtain ⟨g, hg, h⟩ := wholeA_near hA zm im1 im2 mo
  refine ⟨g, hg, registerA_ok A im1 im2 1 zm mo _ _ ?_⟩
  unfold dftregA
  rw [if_neg (by norm_num), if_pos rfl, h]

theorem registerA_two {A : Arith} {δ : ℝ} (hA : Spec.Accurate A δ) (im1 im2 : Fin ny × Fin nx → Pix) (zm : Bool) (mo : Option ℕ) :
    ∃ g : Fin (2 * ny) × Fin (2 * nx) → ℝ,
      (∀ i, |g i - Spec.kept mo (fun i : Fin (2 * ny) × Fin (2 * nx) =>
        ‖Spec.cc (prep zm im1) (prep zm im2) (((i.1 : ℕ) : ℝ) / 2) (((i.2 : ℕ) : ℝ) / 2)‖) i| ≤ Spec.tau δ zm im1 im2) ∧
      registerA A im1 im2 2 zm mo = .ok [.num (-Spec.oneAxis nx ((wrapPeak (2 * nx) (Np.argmax g).2 : ℝ) / 2)),
        .num (-Spec.oneAxis ny ((wrapPeak (2 * ny) (Np.argmax g).1 : ℝ) / 2))] := by
  obtain ⟨g, hg, h⟩ := halfA_near hA zm im1 im2 mo
  refine ⟨g, hg, registerA_ok A im1 im2 2 zm mo _ _ ?_⟩
  unfold dftregA
  rw [if_neg (by norm_num), if_neg (by norm_num), h]
  rfl

theorem registerA_gt {A : Arith} {δ : ℝ} (hA : Spec.Accurate A δ) (im1 im2 : Fin ny × Fin nx → Pix) (zm : Bool) (mo : Option ℕ)
    (usfac : ℕ) (hu : 2 < usfac) [NeZero ⌈(usfac : ℝ) * (3 / 2)⌉₊] :
    ∃ g : Fin (2 * ny) × Fin (2 * nx) → ℝ,
      (∀ i, |g i - Spec.kept mo (fun i : Fin (2 * ny) × Fin (2 * nx) =>
        ‖Spec.cc (prep zm im1) (prep zm im2) (((i.1 : ℕ) : ℝ) / 2) (((i.2 : ℕ) : ℝ) / 2)‖) i| ≤ Spec.tau δ zm im1 im2) ∧
      ∃ row2 col2 : ℝ, row2 = (wrapPeak (2 * ny) (Np.argmax g).1 : ℝ) / 2 ∧ col2 = (wrapPeak (2 * nx) (Np.argmax g).2 : ℝ) / 2 ∧
      ∃ g2 : Fin ⌈(usfac : ℝ) * (3 / 2)⌉₊ × Fin ⌈(usfac : ℝ) * (3 / 2)⌉₊ → ℝ,
      (∀ i, |g2 i - ‖Spec.cc (prep zm im1) (prep zm im2) (Spec.refineAt usfac row2 i.1) (Spec.refineAt usfac col2 i.2)‖|
        ≤ Spec.tau δ zm im1 im2) ∧
      registerA A im1 im2 usfac zm mo = .ok [.num (-Spec.oneAxis nx (Spec.refineAt usfac col2 (Np.argmax g2).2)),
        .num (-Spec.oneAxis ny (Spec.refineAt usfac row2 (Np.argmax g2).1))] := by
  obtain ⟨g, hg, h⟩ := halfA_near hA zm im1 im2 mo
  obtain ⟨g2, hg2, h2⟩ := refineA_near hA zm im1 im2 usfac (by omega)
    ((wrapPeak (2 * ny) (Np.argmax g).1 : ℝ) / 2) ((wrapPeak (2 * nx) (Np.argmax g).2 : ℝ) / 2)
  refine ⟨g, hg, _, _, rfl, rfl, g2, hg2, registerA_ok A im1 im2 usfac zm mo _ _ ?_⟩
  unfold dftregA
  rw [if_neg (by omega), if_neg (by omega), h]
  simp only [if_pos hu, h2]
  rfl

/-- if every search ends where the exact one ends, the answer is the exact one -/
theorem registerA_eq_of {A : Arith} {δ : ℝ} (hA : Spec.Accurate A δ) (cfg : FFTConfig) (im1 im2 : Fin ny × Fin nx → Pix) (usfac : ℕ)
    (zm : Bool) (mo : Option ℕ)
    (H1 : usfac = 1 → ∀ f g : Fin ny × Fin nx → ℝ, (f = Spec.kept mo fun i =>
        ‖Spec.cc (prep zm im1) (prep zm im2) ((i.1 : ℕ) : ℝ) ((i.2 : ℕ) : ℝ)‖) → (∀ i, |g i - f i| ≤ Spec.tau δ zm im1 im2) →
        Np.argmax g = Np.argmax f)
    (H2 : 2 ≤ usfac → ∀ f g : Fin (2 * ny) × Fin (2 * nx) → ℝ, (f = Spec.kept mo fun i =>
        ‖Spec.cc (prep zm im1) (prep zm im2) (((i.1 : ℕ) : ℝ) / 2) (((i.2 : ℕ) : ℝ) / 2)‖) → (∀ i, |g i - f i| ≤ Spec.tau δ zm im1 im2) →
        Np.argmax g = Np.argmax f)
    (H3 : 2 < usfac → ∀ f0 : Fin (2 * ny) × Fin (2 * nx) → ℝ, (f0 = Spec.kept mo fun i =>
        ‖Spec.cc (prep zm im1) (prep zm im2) (((i.1 : ℕ) : ℝ) / 2) (((i.2 : ℕ) : ℝ) / 2)‖) →
      ∀ [NeZero ⌈(usfac : ℝ) * (3 / 2)⌉₊] (f g : Fin ⌈(usfac : ℝ) * (3 / 2)⌉₊ × Fin ⌈(usfac : ℝ) * (3 / 2)⌉₊ → ℝ),
        (f = fun i => ‖Spec.cc (prep zm im1) (prep zm im2)
          (Spec.refineAt usfac ((wrapPeak (2 * ny) (Np.argmax f0).1 : ℝ) / 2) i.1)
          (Spec.refineAt usfac ((wrapPeak (2 * nx) (Np.argmax f0).2 : ℝ) / 2) i.2)‖) →
        (∀ i, |g i - f i| ≤ Spec.tau δ zm im1 im2) → Np.argmax g = Np.argmax f) :
    registerA A im1 im2 usfac zm mo = registerImages cfg im1 im2 usfac false false zm mo := by
  rw [registerImages_same]
  rcases Nat.lt_or_ge usfac 1 with h | h
  · obtain rfl : usfac = 0 := by omega
    rw [registerBody_err]
    unfold registerA dftregA
    simp only [if_true]
    rfl
  rcases Nat.eq_or_lt_of_le h with h1 | h1
  · subst h1
    obtain ⟨g, hg, hr⟩ := registerA_one hA im1 im2 zm mo
    obtain ⟨loc, fit, hl, hfit, fr, fc⟩ := dftregFit_one ⟨cfg.hasFftw, false, 1⟩ (prep zm im1) (prep zm im2) mo
    rw [registerBody_ok cfg _ _ 1 false false zm mo fit hfit, hr, fr, fc, hl, H1 rfl _ g rfl hg]
    simp
  rcases Nat.eq_or_lt_of_le h1 with h2 | h2
  · have h2' : usfac = 2 := h2.symm
    subst h2'
    obtain ⟨g, hg, hr⟩ := registerA_two hA im1 im2 zm mo
    obtain ⟨loc, fit, hl, hfit, fr, fc⟩ := dftregFit_two ⟨cfg.hasFftw, false, 1⟩ (prep zm im1) (prep zm im2) mo
    rw [registerBody_ok cfg _ _ 2 false false zm mo fit hfit, hr, fr, fc, hl, H2 le_rfl _ g rfl hg]
    simp
  · have h2' : 2 < usfac := h2
    have hs0 : NeZero ⌈(usfac : ℝ) * (3 / 2)⌉₊ := ⟨refineSize_pos usfac (by omega)⟩
    obtain ⟨g, hg, row2, col2, hrow, hcol, g2, hg2, hr⟩ := registerA_gt hA im1 im2 zm mo usfac h2'
    obtain ⟨loc, row2', col2', hl, hrow', hcol', loc2, fit, hl2, hfit, fr, fc⟩ :=
      dftregFit_gt ⟨cfg.hasFftw, false, 1⟩ (prep zm im1) (prep zm im2) mo usfac h2'
    have e := H2 h2'.le _ g rfl hg
    rw [e, ← hl] at hrow hcol
    have er : row2 = row2' := hrow.trans hrow'.symm
    have ec : col2 = col2' := hcol.trans hcol'.symm
    subst er ec
    have e2 := H3 h2' _ rfl _ g2 (by rw [← hl, ← hrow, ← hcol]) hg2
    rw [registerBody_ok cfg _ _ usfac false false zm mo fit hfit, hr, fr, fc, hl2, e2]
    simp

/-- C111: with error-free operations the inexact model is the exact one, for every image pair (NaNs included) and every option. -/
theorem C111_exact_arithmetic (A : Arith) (hA : Spec.Accurate A 0) (cfg : FFTConfig) (im1 im2 : Fin ny × Fin nx → Pix) (usfac : ℕ)
    (zm : Bool) (mo : Option ℕ) :
    registerA A im1 im2 usfac zm mo = registerImages cfg im1 im2 usfac false false zm mo := by
  have h0 : Spec.tau 0 zm im1 im2 = 0 := by
    unfold Spec.tau Spec.prepNorm'
    cases zm <;> simp
  have key : ∀ {ι : Type} (f g : ι → ℝ), (∀ i, |g i - f i| ≤ Spec.tau 0 zm im1 im2) → g = f := by
    intro ι f g h
    funext i
    have := h i
    rw [h0, abs_nonpos_iff, sub_eq_zero] at this
    exact this
  refine registerA_eq_of hA cfg im1 im2 usfac zm mo ?_ ?_ ?_
  · intro _ f g _ h; rw [key f g h]
  · intro _ f g _ h; rw [key f g h]
  · intro _ f0 _ _ f g _ h; rw [key f g h]

/-- C111: rounding does not change the answer when the answer is clear. If at every search the exact modulus of the cross-correlation at the best
position exceeds that at every other position searched by more than twice the error bound, the computed shifts are the exact ones: no error
at all, for every image pair (NaNs included) and every option. -/
theorem C111_same_answer (A : Arith) (δ : ℝ) (hA : Spec.Accurate A δ) (cfg : FFTConfig) (im1 im2 : Fin ny × Fin nx → Pix) (usfac : ℕ)
    (zm : Bool) (mo : Option ℕ)
    (hwhole : usfac = 1 → Spec.clearPeak (Spec.kept mo fun i : Fin ny × Fin nx =>
        ‖Spec.cc (prep zm im1) (prep zm im2) ((i.1 : ℕ) : ℝ) ((i.2 : ℕ) : ℝ)‖) (Spec.tau δ zm im1 im2))
    (hhalf : 2 ≤ usfac → Spec.clearPeak (Spec.kept mo fun i : Fin (2 * ny) × Fin (2 * nx) =>
        ‖Spec.cc (prep zm im1) (prep zm im2) (((i.1 : ℕ) : ℝ) / 2) (((i.2 : ℕ) : ℝ) / 2)‖) (Spec.tau δ zm im1 im2))
    (hfine : 2 < usfac → ∀ loc : Fin (2 * ny) × Fin (2 * nx),
      (∀ i, Spec.kept mo (fun i : Fin (2 * ny) × Fin (2 * nx) =>
          ‖Spec.cc (prep zm im1) (prep zm im2) (((i.1 : ℕ) : ℝ) / 2) (((i.2 : ℕ) : ℝ) / 2)‖) i
        ≤ Spec.kept mo (fun i : Fin (2 * ny) × Fin (2 * nx) =>
          ‖Spec.cc (prep zm im1) (prep zm im2) (((i.1 : ℕ) : ℝ) / 2) (((i.2 : ℕ) : ℝ) / 2)‖) loc) →
      Spec.clearPeak (fun i : Fin ⌈(usfac : ℝ) * (3 / 2)⌉₊ × Fin ⌈(usfac : ℝ) * (3 / 2)⌉₊ => ‖Spec.cc (prep zm im1) (prep zm im2)
          (Spec.refineAt usfac ((wrapPeak (2 * ny) loc.1 : ℝ) / 2) i.1)
          (Spec.refineAt usfac ((wrapPeak (2 * nx) loc.2 : ℝ) / 2) i.2)‖) (Spec.tau δ zm im1 im2)) :
    registerA A im1 im2 usfac zm mo = registerImages cfg im1 im2 usfac false false zm mo := by
  refine registerA_eq_of hA cfg im1 im2 usfac zm mo ?_ ?_ ?_
  · intro h f g hf hg
    exact argmax_of_clearPeak hg (by rw [hf]; exact hwhole h)
  · intro h f g hf hg
    exact argmax_of_clearPeak hg (by rw [hf]; exact hhalf h)
  · intro h f0 hf0 _ f g hf hg
    refine argmax_of_clearPeak hg ?_
    rw [hf]
    refine hfine h _ ?_
    rw [← hf0]
    exact fun i => (Np.argmax_spec f0).1 i

/-- C111: whatever the images and however the rounding errors fall, with `usfac=1` the reported shift correlates as well as every other
whole-pixel shift, up to twice the error bound. -/
theorem C111_near_optimal_whole (A : Arith) (δ : ℝ) (hA : Spec.Accurate A δ) (im1 im2 : Fin ny × Fin nx → Pix) (zm : Bool) :
    ∃ dx dy : ℤ, registerA A im1 im2 1 zm none = .ok [.num dx, .num dy] ∧
      -(ny : ℤ) ≤ 2 * dy ∧ 2 * dy < ny ∧ -(nx : ℤ) ≤ 2 * dx ∧ 2 * dx < nx ∧
      ∀ j k : ℤ, ‖Spec.cc (prep zm im1) (prep zm im2) j k‖
        ≤ ‖Spec.cc (prep zm im1) (prep zm im2) (-dy) (-dx)‖ + 2 * Spec.tau δ zm im1 im2 := by
  obtain ⟨g, hg, hr⟩ := registerA_one hA im1 im2 zm none
  have r1 := wrapPeak_range ny (Np.argmax g).1 (Fin.isLt _)
  have r2 := wrapPeak_range nx (Np.argmax g).2 (Fin.isLt _)
  refine ⟨-wrapPeak nx (Np.argmax g).2, -wrapPeak ny (Np.argmax g).1, ?_, by omega, by omega, by omega, by omega, ?_⟩
  · rw [hr]; push_cast; rfl
  intro j k
  rw [kept_none] at hg
  have h := argmax_near hg (Spec.wrap ny j, Spec.wrap nx k)
  have pm : ∀ (n : ℕ) (x y : ℤ), x ≡ y [ZMOD n] → ∃ z : ℤ, (x : ℝ) - (y : ℝ) = z * n := by
    intro n x y h
    obtain ⟨z, hz⟩ := h.dvd
    refine ⟨-z, ?_⟩
    have : (y : ℝ) - x = n * z := by exact_mod_cast hz
    push_cast; linarith
  have e1 : Spec.cc (prep zm im1) (prep zm im2) j k
      = Spec.cc (prep zm im1) (prep zm im2) (((Spec.wrap ny j : Fin ny) : ℕ) : ℝ) (((Spec.wrap nx k : Fin nx) : ℕ) : ℝ) :=
    cc_period _ _ _ _ _ _ (by have := pm ny _ _ (Spec.wrap_modEq ny j).symm; rwa [Int.cast_natCast] at this)
      (by have := pm nx _ _ (Spec.wrap_modEq nx k).symm; rwa [Int.cast_natCast] at this)
  have e2 : Spec.cc (prep zm im1) (prep zm im2) (-((-wrapPeak ny (Np.argmax g).1 : ℤ) : ℝ)) (-((-wrapPeak nx (Np.argmax g).2 : ℤ) : ℝ))
      = Spec.cc (prep zm im1) (prep zm im2) (((Np.argmax g).1 : ℕ) : ℝ) (((Np.argmax g).2 : ℕ) : ℝ) := by
    rw [Int.cast_neg, Int.cast_neg, neg_neg, neg_neg]
    exact cc_period _ _ _ _ _ _ (by have := pm ny _ _ (wrapPeak_modEq ny (Np.argmax g).1); rwa [Int.cast_natCast] at this)
      (by have := pm nx _ _ (wrapPeak_modEq nx (Np.argmax g).2); rwa [Int.cast_natCast] at this)
  rw [e1, e2]
  exact h

/-- the first estimate, in floating point -/
theorem half_near_optimal (im1 im2 : Fin ny × Fin nx → Pix) (zm : Bool) (t : ℝ) (g : Fin (2 * ny) × Fin (2 * nx) → ℝ)
    (hg : ∀ i, |g i - Spec.kept none (fun i : Fin (2 * ny) × Fin (2 * nx) =>
        ‖Spec.cc (prep zm im1) (prep zm im2) (((i.1 : ℕ) : ℝ) / 2) (((i.2 : ℕ) : ℝ) / 2)‖) i| ≤ t) :
    (∃ j k : ℤ, (wrapPeak (2 * ny) (Np.argmax g).1 : ℝ) / 2 = (j : ℝ) / 2 ∧ (wrapPeak (2 * nx) (Np.argmax g).2 : ℝ) / 2 = (k : ℝ) / 2 ∧
      -(ny : ℤ) < j ∧ j ≤ ny ∧ -(nx : ℤ) < k ∧ k ≤ nx) ∧
    ∀ j k : ℤ, ‖Spec.cc (prep zm im1) (prep zm im2) ((j : ℝ) / 2) ((k : ℝ) / 2)‖
      ≤ ‖Spec.cc (prep zm im1) (prep zm im2) ((wrapPeak (2 * ny) (Np.argmax g).1 : ℝ) / 2) ((wrapPeak (2 * nx) (Np.argmax g).2 : ℝ) / 2)‖ + 2 * t := by
  rw [kept_none] at hg
  have r1 := wrapPeak_range (2 * ny) (Np.argmax g).1 (Fin.isLt _)
  have r2 := wrapPeak_range (2 * nx) (Np.argmax g).2 (Fin.isLt _)
  refine ⟨⟨_, _, rfl, rfl, by omega, by omega, by omega, by omega⟩, ?_⟩
  intro j k
  have h := argmax_near hg (Spec.wrap (2 * ny) j, Spec.wrap (2 * nx) k)
  have halfmod : ∀ (n : ℕ) (x y : ℤ), x ≡ y [ZMOD (2 * n : ℕ)] → ∃ z : ℤ, (x : ℝ) / 2 - (y : ℝ) / 2 = z * n := by
    intro n x y h
    obtain ⟨z, hz⟩ := h.dvd
    refine ⟨-z, ?_⟩
    have : (y : ℝ) - x = 2 * n * z := by exact_mod_cast hz
    push_cast; linarith
  have e1 : Spec.cc (prep zm im1) (prep zm im2) ((j : ℝ) / 2) ((k : ℝ) / 2)
      = Spec.cc (prep zm im1) (prep zm im2) ((((Spec.wrap (2 * ny) j : Fin (2 * ny)) : ℕ) : ℝ) / 2)
        ((((Spec.wrap (2 * nx) k : Fin (2 * nx)) : ℕ) : ℝ) / 2) :=
    cc_period _ _ _ _ _ _ (by have := halfmod ny _ _ (Spec.wrap_modEq (2 * ny) j).symm; rwa [Int.cast_natCast] at this)
      (by have := halfmod nx _ _ (Spec.wrap_modEq (2 * nx) k).symm; rwa [Int.cast_natCast] at this)
  have e2 : Spec.cc (prep zm im1) (prep zm im2) ((wrapPeak (2 * ny) (Np.argmax g).1 : ℝ) / 2) ((wrapPeak (2 * nx) (Np.argmax g).2 : ℝ) / 2)
      = Spec.cc (prep zm im1) (prep zm im2) ((((Np.argmax g).1 : ℕ) : ℝ) / 2) ((((Np.argmax g).2 : ℕ) : ℝ) / 2) :=
    cc_period _ _ _ _ _ _ (by have := halfmod ny _ _ (wrapPeak_modEq (2 * ny) (Np.argmax g).1); rwa [Int.cast_natCast] at this)
      (by have := halfmod nx _ _ (wrapPeak_modEq (2 * nx) (Np.argmax g).2); rwa [Int.cast_natCast] at this)
  rw [e1, e2]
  exact h

/-- C111: with `usfac=2` the reported shift correlates as well as every other half-pixel shift, up to twice the error bound. -/
theorem C111_near_optimal_half (A : Arith) (δ : ℝ) (hA : Spec.Accurate A δ) (im1 im2 : Fin ny × Fin nx → Pix) (hy : 2 ≤ ny) (hx : 2 ≤ nx)
    (zm : Bool) :
    ∃ dx dy : ℝ, registerA A im1 im2 2 zm none = .ok [.num dx, .num dy] ∧
      (∃ j k : ℤ, -dy = (j : ℝ) / 2 ∧ -dx = (k : ℝ) / 2 ∧ -(ny : ℤ) < j ∧ j ≤ ny ∧ -(nx : ℤ) < k ∧ k ≤ nx) ∧
      ∀ j k : ℤ, ‖Spec.cc (prep zm im1) (prep zm im2) ((j : ℝ) / 2) ((k : ℝ) / 2)‖
        ≤ ‖Spec.cc (prep zm im1) (prep zm im2) (-dy) (-dx)‖ + 2 * Spec.tau δ zm im1 im2 := by
  obtain ⟨g, hg, hr⟩ := registerA_two hA im1 im2 zm none
  have o : ∀ n : ℕ, 2 ≤ n → ∀ r, Spec.oneAxis n r = r := fun n hn r => by unfold Spec.oneAxis; rw [if_neg (by omega)]
  rw [o ny hy, o nx hx] at hr
  obtain ⟨h1, h2⟩ := half_near_optimal im1 im2 zm _ g hg
  exact ⟨_, _, hr, by rw [neg_neg, neg_neg]; exact h1, by rw [neg_neg, neg_neg]; exact h2⟩

/-- C111: with `usfac > 2` the first estimate and the reported shift each maximise the modulus of the cross-correlation over the positions
searched, up to twice the error bound. -/
theorem C111_near_optimal_fine (A : Arith) (δ : ℝ) (hA : Spec.Accurate A δ) (im1 im2 : Fin ny × Fin nx → Pix) (usfac : ℕ)
    (hu : 2 < usfac) (hy : 2 ≤ ny) (hx : 2 ≤ nx) (zm : Bool) :
    ∃ dx dy row2 col2 : ℝ, registerA A im1 im2 usfac zm none = .ok [.num dx, .num dy] ∧
      (∃ j k : ℤ, row2 = (j : ℝ) / 2 ∧ col2 = (k : ℝ) / 2 ∧ -(ny : ℤ) < j ∧ j ≤ ny ∧ -(nx : ℤ) < k ∧ k ≤ nx) ∧
      (∀ j k : ℤ, ‖Spec.cc (prep zm im1) (prep zm im2) ((j : ℝ) / 2) ((k : ℝ) / 2)‖
        ≤ ‖Spec.cc (prep zm im1) (prep zm im2) row2 col2‖ + 2 * Spec.tau δ zm im1 im2) ∧
      -dy ∈ Spec.refineGrid usfac row2 ∧ -dx ∈ Spec.refineGrid usfac col2 ∧
      (∀ t ∈ Spec.refineGrid usfac row2, ∀ u ∈ Spec.refineGrid usfac col2,
        ‖Spec.cc (prep zm im1) (prep zm im2) t u‖
          ≤ ‖Spec.cc (prep zm im1) (prep zm im2) (-dy) (-dx)‖ + 2 * Spec.tau δ zm im1 im2) := by
  have hs0 : NeZero ⌈(usfac : ℝ) * (3 / 2)⌉₊ := ⟨refineSize_pos usfac (by omega)⟩
  obtain ⟨g, hg, row2, col2, hrow, hcol, g2, hg2, hr⟩ := registerA_gt hA im1 im2 zm none usfac hu
  have o : ∀ n : ℕ, 2 ≤ n → ∀ r, Spec.oneAxis n r = r := fun n hn r => by unfold Spec.oneAxis; rw [if_neg (by omega)]
  rw [o ny hy, o nx hx] at hr
  obtain ⟨h1, h2⟩ := half_near_optimal im1 im2 zm _ g hg
  rw [← hrow, ← hcol] at h1 h2
  refine ⟨_, _, row2, col2, hr, h1, h2, ?_, ?_, ?_⟩
  · rw [neg_neg]; exact ⟨_, (Np.argmax g2).1.isLt, rfl⟩
  · rw [neg_neg]; exact ⟨_, (Np.argmax g2).2.isLt, rfl⟩
  · rintro t ⟨i, hi, rfl⟩ u ⟨j, hj, rfl⟩
    rw [neg_neg, neg_neg]
    exact argmax_near hg2 (⟨i, hi⟩, ⟨j, hj⟩)

/-- the correlation at the true displacement wins by the margin `s`, in spite of the noise -/
theorem noise_gap (im1 noise : Fin ny × Fin nx → ℝ) (dy dx : ℤ) (zm : Bool) (S : Set ℝ) (s : ℝ)
    (a : Fin ny × Fin nx → ℝ) (ha : ∀ p, a p = im1 p - if zm then Spec.mean im1 else 0)
    (hmargin : ∀ t ∈ S, ∀ u ∈ S, ¬ ((∃ z : ℤ, t = z * ny) ∧ ∃ z : ℤ, u = z * nx) →
      ‖Spec.cc a a t u‖ + 2 * (Real.sqrt (∑ p, a p ^ 2) * Real.sqrt (∑ p, noise p ^ 2)) + s < ∑ p, a p ^ 2)
    (t u t' u' : ℝ) (ht : t + dy ∈ S) (hu : u + dx ∈ S) (hp : (∃ z : ℤ, t' + dy = z * ny) ∧ ∃ z : ℤ, u' + dx = z * nx)
    (hne : ¬ ((∃ z : ℤ, t + dy = z * ny) ∧ ∃ z : ℤ, u + dx = z * nx)) :
    ‖Spec.cc (prep zm (realArr im1)) (prep zm (realArr fun p => Spec.roll2 dy dx im1 p + noise p)) t u‖ + s
      < ‖Spec.cc (prep zm (realArr im1)) (prep zm (realArr fun p => Spec.roll2 dy dx im1 p + noise p)) t' u'‖ := by
  have hap : prep zm (realArr im1) = a := by rw [prep_real]; funext p; rw [ha]
  have hb : prep zm (realArr fun p => Spec.roll2 dy dx im1 p + noise p)
      = fun p => Spec.roll2 dy dx a p + (noise p - if zm then Spec.mean noise else 0) := by
    rw [prep_real]
    funext p
    have e : Spec.mean (fun p => Spec.roll2 dy dx im1 p + noise p) = Spec.mean im1 + Spec.mean noise := by
      unfold Spec.mean
      rw [Finset.sum_add_distrib, Spec.roll2_sum, add_div]
    have e2 : Spec.roll2 dy dx a p = Spec.roll2 dy dx im1 p - if zm then Spec.mean im1 else 0 := by
      unfold Spec.roll2; rw [ha]
    rw [e, e2]
    split_ifs <;> ring
  rw [hap, hb]
  set n' : Fin ny × Fin nx → ℝ := fun p => noise p - if zm then Spec.mean noise else 0 with hn'
  have hcc : ∀ t u : ℝ, Spec.cc a (fun p => Spec.roll2 dy dx a p + n' p) t u
      = Spec.cc a a (t + dy) (u + dx) + Spec.cc a n' t u := by
    intro t u
    rw [cc_add]
    congr 1
    exact cc_shifted a _ dy dx t u (Spec.roll2_eq_cshift a dy dx)
  have hE : ∀ t u : ℝ, ‖Spec.cc a n' t u‖ ≤ Real.sqrt (∑ p, a p ^ 2) * Real.sqrt (∑ p, noise p ^ 2) := by
    intro t u
    refine (cc_le a n' t u).trans ?_
    exact mul_le_mul_of_nonneg_left (Real.sqrt_le_sqrt (sum_sub_mean_le noise zm)) (Real.sqrt_nonneg _)
  have e0 := hcc t u
  have e1 := hcc t' u'
  simp only [hn'] at e0 e1
  rw [e0, e1, ← hn']
  have h1 := hmargin _ ht _ hu hne
  have h2 : ‖Spec.cc a a (t' + dy) (u' + dx)‖ = ∑ p, a p ^ 2 := by
    have := cc_eq a a 0 0 (t' + dy) (u' + dx) (fun p => by
      have := cshift_int 0 0 a p
      simp only [Int.cast_zero] at this
      rw [this]
      unfold Spec.roll2
      simp only [sub_zero, Spec.wrap_val]) (by simpa using hp)
    exact this
  have h3 := hE t u
  have h4 := hE t' u'
  have h5 := norm_add_le (Spec.cc a a (t + dy) (u + dx)) (Spec.cc a n' t u)
  have h6 := norm_sub_le (Spec.cc a a (t' + dy) (u' + dx) + Spec.cc a n' t' u') (Spec.cc a n' t' u')
  rw [add_sub_cancel_right, h2] at h6
  linarith

theorem whole_index (n : ℕ) [NeZero n] (d : ℤ) (i : Fin n) :
    (∃ z : ℤ, ((i : ℕ) : ℝ) + d = z * n) ↔ i = Spec.wrap n (-d) := by
  rw [eq_comm, Spec.wrap_eq_iff, Int.modEq_iff_dvd]
  constructor
  · rintro ⟨z, hz⟩
    refine ⟨z, ?_⟩
    have : ((i : ℕ) : ℤ) + d = z * n := by exact_mod_cast hz
    linarith
  · rintro ⟨z, hz⟩
    refine ⟨z, ?_⟩
    have h2 : ((i : ℕ) : ℤ) + d = z * n := by linarith
    exact_mod_cast h2

/-- C111: whole-pixel registration in floating point, with noise. Let `im2` be `im1` rolled by `(dy, dx)` plus any disturbance `noise`. If the
autocorrelation of `im1` (mean-subtracted with `zeromean`) at every other candidate displacement stays below its value at 0 by more than
`2·‖a‖·‖noise‖` plus twice the rounding error bound, then the shifts computed in floating point are exactly the whole numbers `dx`, `dy`
(reduced to `-n ≤ 2·d < n`). -/
theorem C111_recovers_roll (A : Arith) (δ : ℝ) (hA : Spec.Accurate A δ) (im1 noise : Fin ny × Fin nx → ℝ) (dy dx : ℤ) (usfac : ℕ)
    (hu : 1 ≤ usfac) (hsz : usfac = 1 ∨ (2 ≤ ny ∧ 2 ≤ nx)) (zm : Bool)
    (a : Fin ny × Fin nx → ℝ) (ha : ∀ p, a p = im1 p - if zm then Spec.mean im1 else 0)
    (hmargin : ∀ t ∈ Spec.candidates usfac, ∀ u ∈ Spec.candidates usfac,
      ¬ ((∃ z : ℤ, t = z * ny) ∧ ∃ z : ℤ, u = z * nx) →
      ‖Spec.cc a a t u‖ + 2 * (Real.sqrt (∑ p, a p ^ 2) * Real.sqrt (∑ p, noise p ^ 2))
        + 2 * Spec.tau δ zm (realArr im1) (realArr fun p => Spec.roll2 dy dx im1 p + noise p) < ∑ p, a p ^ 2) :
    ∃ dx' dy' : ℤ,
      registerA A (realArr im1) (realArr fun p => Spec.roll2 dy dx im1 p + noise p) usfac zm none = .ok [.num dx', .num dy'] ∧
      dx' ≡ dx [ZMOD nx] ∧ -(nx : ℤ) ≤ 2 * dx' ∧ 2 * dx' < nx ∧
      dy' ≡ dy [ZMOD ny] ∧ -(ny : ℤ) ≤ 2 * dy' ∧ 2 * dy' < ny := by
  have ht0 := tau_nonneg hA.nonneg zm (realArr im1) (realArr fun p => Spec.roll2 dy dx im1 p + noise p)
  obtain ⟨dx', dy', hres, hrest⟩ := C98_roll_with_noise ⟨false, true, 1⟩ im1 noise dy dx usfac hu hsz zm a ha
    (fun t ht u hu' h => by have := hmargin t ht u hu' h; linarith)
  refine ⟨dx', dy', ?_, hrest⟩
  rw [← hres]
  have gap := noise_gap im1 noise dy dx zm (Spec.candidates usfac) _ a ha hmargin
  -- the half-pixel search
  have half : 2 ≤ usfac → ∀ i : Fin (2 * ny) × Fin (2 * nx), i ≠ (Spec.wrap (2 * ny) (-(2 * dy)), Spec.wrap (2 * nx) (-(2 * dx))) →
      ‖Spec.cc (prep zm (realArr im1)) (prep zm (realArr fun p => Spec.roll2 dy dx im1 p + noise p)) (((i.1 : ℕ) : ℝ) / 2) (((i.2 : ℕ) : ℝ) / 2)‖
        + 2 * Spec.tau δ zm (realArr im1) (realArr fun p => Spec.roll2 dy dx im1 p + noise p)
      < ‖Spec.cc (prep zm (realArr im1)) (prep zm (realArr fun p => Spec.roll2 dy dx im1 p + noise p))
        ((((Spec.wrap (2 * ny) (-(2 * dy)) : Fin (2 * ny)) : ℕ) : ℝ) / 2) ((((Spec.wrap (2 * nx) (-(2 * dx)) : Fin (2 * nx)) : ℕ) : ℝ) / 2)‖ := by
    intro hu2 i hi
    have pi : ∀ (n : ℕ) [NeZero n] (d : ℤ) (i : Fin (2 * n)), (∃ z : ℤ, ((i : ℕ) : ℝ) / 2 + d = z * n) ↔ i = Spec.wrap (2 * n) (-(2 * d)) := by
      intro n _ d i
      have := peak_index (n := n) (q := 2) two_ne_zero d i
      simpa using this
    have hcand : ∀ (i : ℕ) (d : ℤ), ((i : ℝ) / 2 + d) ∈ Spec.candidates usfac := fun i d =>
      Or.inr ⟨hu2, i + 2 * d, by push_cast; ring⟩
    refine gap _ _ _ _ (hcand _ _) (hcand _ _) ⟨(pi ny dy _).2 rfl, (pi nx dx _).2 rfl⟩ ?_
    rintro ⟨h1, h2⟩
    exact hi (Prod.ext ((pi ny dy _).1 h1) ((pi nx dx _).1 h2))
  refine C111_same_answer A δ hA ⟨false, true, 1⟩ _ _ usfac zm none ?_ ?_ ?_
  · rintro rfl
    rw [kept_none]
    refine ⟨(Spec.wrap ny (-dy), Spec.wrap nx (-dx)), fun i hi => ?_⟩
    have hcand : ∀ (i : ℕ) (d : ℤ), ((i : ℝ) + d) ∈ Spec.candidates 1 := fun i d =>
      Or.inl ⟨i + d, by push_cast; ring⟩
    refine gap _ _ _ _ (hcand _ _) (hcand _ _) ⟨(whole_index ny dy _).2 rfl, (whole_index nx dx _).2 rfl⟩ ?_
    rintro ⟨h1, h2⟩
    exact hi (Prod.ext ((whole_index ny dy _).1 h1) ((whole_index nx dx _).1 h2))
  · intro hu2
    rw [kept_none]
    exact ⟨(Spec.wrap (2 * ny) (-(2 * dy)), Spec.wrap (2 * nx) (-(2 * dx))), half hu2⟩
  · intro hu3 loc hloc
    obtain ⟨hy, hx⟩ := hsz.resolve_left (by omega)
    rw [kept_none] at hloc
    have hl : loc = (Spec.wrap (2 * ny) (-(2 * dy)), Spec.wrap (2 * nx) (-(2 * dx))) := by
      by_contra hne
      have h1 := half hu3.le loc hne
      have h2 := hloc (Spec.wrap (2 * ny) (-(2 * dy)), Spec.wrap (2 * nx) (-(2 * dx)))
      simp only at h2
      linarith
    have hu0 : usfac ≠ 0 := by omega
    have hlt : ⌈(usfac : ℝ) * (3 / 2)⌉₊ / 2 < ⌈(usfac : ℝ) * (3 / 2)⌉₊ := by
      have := refineSize_pos usfac hu0; omega
    -- the wrapped peak is the displacement up to whole periods
    obtain ⟨wy, hwy, hmy⟩ : ∃ w : ℤ, (wrapPeak (2 * ny) loc.1 : ℝ) / 2 = ((-w : ℤ) : ℝ) ∧ w ≡ dy [ZMOD ny] := by
      have h1 : wrapPeak (2 * ny) loc.1 ≡ -(2 * dy) [ZMOD (2 * ny : ℕ)] := by
        refine (wrapPeak_modEq (2 * ny) loc.1).trans ?_
        rw [hl]
        exact Spec.wrap_modEq (2 * ny) (-(2 * dy))
      obtain ⟨z, hz⟩ := h1.dvd
      push_cast at hz
      refine ⟨dy + ny * z, ?_, Int.modEq_iff_dvd.2 ⟨-z, by ring⟩⟩
      have h2 : (wrapPeak (2 * ny) loc.1 : ℤ) = -(2 * dy) - 2 * ny * z := by linarith
      rw [h2]; push_cast; ring
    obtain ⟨wx, hwx, hmx⟩ : ∃ w : ℤ, (wrapPeak (2 * nx) loc.2 : ℝ) / 2 = ((-w : ℤ) : ℝ) ∧ w ≡ dx [ZMOD nx] := by
      have h1 : wrapPeak (2 * nx) loc.2 ≡ -(2 * dx) [ZMOD (2 * nx : ℕ)] := by
        refine (wrapPeak_modEq (2 * nx) loc.2).trans ?_
        rw [hl]
        exact Spec.wrap_modEq (2 * nx) (-(2 * dx))
      obtain ⟨z, hz⟩ := h1.dvd
      push_cast at hz
      refine ⟨dx + nx * z, ?_, Int.modEq_iff_dvd.2 ⟨-z, by ring⟩⟩
      have h2 : (wrapPeak (2 * nx) loc.2 : ℤ) = -(2 * dx) - 2 * nx * z := by linarith
      rw [h2]; push_cast; ring
    rw [hwy, hwx]
    have per : ∀ (n : ℕ) (w d : ℤ) (t : ℝ), w ≡ d [ZMOD n] → ((∃ z : ℤ, t + d = z * n) ↔ ∃ z : ℤ, t + w = z * n) := by
      intro n w d t h
      obtain ⟨k, hk⟩ := h.dvd
      have hk' : (d : ℝ) - w = n * k := by exact_mod_cast hk
      constructor
      · rintro ⟨z, hz⟩; exact ⟨z - k, by push_cast; linarith⟩
      · rintro ⟨z, hz⟩; exact ⟨z + k, by push_cast; linarith⟩
    have hcand : ∀ (i : ℕ) (w d : ℤ), (Spec.refineAt usfac ((-w : ℤ) : ℝ) i + d) ∈ Spec.candidates usfac := by
      intro i w d
      rw [refineAt_int usfac hu0]
      refine Or.inl ⟨(i : ℤ) - (⌈(usfac : ℝ) * (3 / 2)⌉₊ / 2 : ℕ) + usfac * (d - w), ?_⟩
      have hu' : (usfac : ℝ) ≠ 0 := by exact_mod_cast hu0
      rw [Int.cast_add, Int.cast_sub, Int.cast_natCast, Int.cast_natCast, Int.cast_neg, Int.cast_mul, Int.cast_natCast, Int.cast_sub]
      field_simp
      ring
    refine ⟨(⟨_, hlt⟩, ⟨_, hlt⟩), fun i hi => ?_⟩
    refine gap _ _ _ _ (hcand _ _ _) (hcand _ _ _) ⟨(per ny wy dy _ hmy).2 ((refineAt_unique hy hu0 wy ⟨_, hlt⟩).2 rfl),
      (per nx wx dx _ hmx).2 ((refineAt_unique hx hu0 wx ⟨_, hlt⟩).2 rfl)⟩ ?_
    rintro ⟨h1, h2⟩
    exact hi (Prod.ext (Fin.ext ((refineAt_unique hy hu0 wy _).1 ((per ny wy dy _ hmy).1 h1)))
      (Fin.ext ((refineAt_unique hx hu0 wx _).1 ((per nx wx dx _ hmx).1 h2))))

end

/-! ### the hypotheses are satisfiable -/

/-- an arithmetic in which every operation is wrong: spectra and values are too large, moduli and means too small, by the factor `1 ± δ` -/
noncomputable def Arith.biased (δ : ℝ) : Arith where
  fft := fun x k => (1 + δ : ℝ) * dft x k
  ifft := fun y i => (1 + δ : ℝ) * idft y i
  dftups := fun y _ us roff coff i => (1 + δ : ℝ) * dftupsVal y us roff coff (i.1 : ℕ) (i.2 : ℕ)
  mul := fun z w => (1 + δ : ℝ) * (z * w)
  div := fun z r => (1 - δ : ℝ) * (z / r)
  abs := fun z => (1 - δ) * ‖z‖
  sub := fun x y => (1 + δ) * (x - y)
  mean := fun im => (1 - δ) * Spec.finiteMean im

theorem Arith.biased_accurate (δ : ℝ) (h0 : 0 ≤ δ) : Spec.Accurate (Arith.biased δ) δ where
  fft := fun x => by
    have e : ∀ k, ‖(Arith.biased δ).fft x k - dft x k‖ ^ 2 = δ ^ 2 * ‖dft x k‖ ^ 2 := by
      intro k
      have : (Arith.biased δ).fft x k - dft x k = (δ : ℂ) * dft x k := by
        simp only [Arith.biased]; push_cast; ring
      rw [this, norm_mul, Complex.norm_real, Real.norm_of_nonneg h0, mul_pow]
    simp only [e]
    rw [← Finset.mul_sum, Real.sqrt_mul (by positivity), Real.sqrt_sq h0]
  ifft := fun y i => by
    have : (Arith.biased δ).ifft y i - idft y i = (δ : ℂ) * idft y i := by
      simp only [Arith.biased]; push_cast; ring
    rw [this, norm_mul, Complex.norm_real, Real.norm_of_nonneg h0]
    exact mul_le_mul_of_nonneg_left (norm_idft_le y i) h0
  dftups := fun y s us roff coff o h i => by
    by_cases hus : us = 0
    · subst hus; exact absurd h (dftups_zero_not_ok _ _ _ _ _ _)
    · rw [dftups_eq y (some s) (some s) us roff coff hus] at h
      simp only [Option.getD_some, Except.ok.injEq, COut2.mk.injEq, heq_eq_eq, true_and] at h
      have h1 := congrFun h i
      simp only [cArr, Option.some.injEq] at h1
      have : (Arith.biased δ).dftups y s us roff coff i - o i = (δ : ℂ) * dftupsVal y us roff coff (i.1 : ℕ) (i.2 : ℕ) := by
        rw [← h1]
        simp only [Arith.biased]; push_cast; ring
      rw [this, norm_mul, Complex.norm_real, Real.norm_of_nonneg h0]
      exact mul_le_mul_of_nonneg_left (norm_dftupsVal_le _ _ _ _ _ _) h0
  mul := fun z w => by
    have : (Arith.biased δ).mul z w - z * w = (δ : ℂ) * (z * w) := by simp only [Arith.biased]; push_cast; ring
    rw [this, norm_mul, Complex.norm_real, Real.norm_of_nonneg h0]
  div := fun z r _ => by
    have : (Arith.biased δ).div z r - z / r = -((δ : ℂ) * (z / r)) := by simp only [Arith.biased]; push_cast; ring
    rw [this, norm_neg, norm_mul, Complex.norm_real, Real.norm_of_nonneg h0]
  abs := fun z => by
    have : (Arith.biased δ).abs z - ‖z‖ = -(δ * ‖z‖) := by simp only [Arith.biased]; ring
    rw [this, abs_neg, abs_of_nonneg (by positivity)]
  sub := fun x y => by
    have : (Arith.biased δ).sub x y - (x - y) = δ * (x - y) := by simp only [Arith.biased]; ring
    rw [this, abs_mul, abs_of_nonneg h0]
  mean := fun im _ => by
    have : (Arith.biased δ).mean im - Spec.finiteMean im = -(δ * Spec.finiteMean im) := by simp only [Arith.biased]; ring
    rw [this, abs_neg, abs_mul, abs_of_nonneg h0]
    refine mul_le_mul_of_nonneg_left ?_ h0
    unfold Spec.finiteMean
    rw [abs_div, Nat.abs_cast]
    gcongr
    exact Finset.abs_sum_le_sum_abs _ _

/-- C111 applies to a single bright pixel, every displacement and every arithmetic with errors of at most one percent. -/
example (A : Arith) (hA : Spec.Accurate A (1 / 100)) (dy dx : ℤ) :
    ∃ dx' dy' : ℤ, registerA A (realArr fun p : Fin 4 × Fin 5 => if p = (0, 0) then 1 else 0)
      (realArr fun p : Fin 4 × Fin 5 => Spec.roll2 dy dx (fun p : Fin 4 × Fin 5 => if p = (0, 0) then (1 : ℝ) else 0) p + 0)
      1 false none = .ok [.num dx', .num dy'] ∧ dx' ≡ dx [ZMOD 5] ∧ dy' ≡ dy [ZMOD 4] := by
  have hE : ∑ p : Fin 4 × Fin 5, (if p = (0, 0) then (1 : ℝ) else 0) ^ 2 = 1 := by
    simp [apply_ite (· ^ 2)]
  have hE2 : ∑ p : Fin 4 × Fin 5, (Spec.roll2 dy dx (fun p : Fin 4 × Fin 5 => if p = (0, 0) then (1 : ℝ) else 0) p + 0) ^ 2 = 1 := by
    refine Eq.trans ?_ ((Spec.roll2_sum dy dx fun p : Fin 4 × Fin 5 => (if p = (0, 0) then (1 : ℝ) else 0) ^ 2).trans hE)
    refine Finset.sum_congr rfl fun p _ => ?_
    unfold Spec.roll2
    rw [add_zero]
  have ht : Spec.tau (1 / 100) false (realArr fun p : Fin 4 × Fin 5 => if p = (0, 0) then 1 else 0)
      (realArr fun p : Fin 4 × Fin 5 => Spec.roll2 dy dx (fun p : Fin 4 × Fin 5 => if p = (0, 0) then (1 : ℝ) else 0) p + 0) < 1 / 10 := by
    unfold Spec.tau Spec.prepNorm' Spec.prepNorm
    simp only [prep_real, Bool.false_eq_true, if_false, sub_zero]
    rw [hE, hE2, Real.sqrt_one]
    norm_num
  obtain ⟨dx', dy', h, cx, -, -, cy, -, -⟩ := C111_recovers_roll (ny := 4) (nx := 5) A (1 / 100) hA
    (fun p => if p = (0, 0) then 1 else 0) (fun _ => 0) dy dx 1 le_rfl (.inl rfl) false
    (fun p => if p = (0, 0) then 1 else 0) (fun p => by simp) (fun t ht' u hu' hne => by
      have int : ∀ t ∈ Spec.candidates 1, ∃ z : ℤ, t = z := by
        rintro t (⟨z, hz⟩ | ⟨h, -⟩)
        · exact ⟨z, by simpa using hz⟩
        · omega
      obtain ⟨j, rfl⟩ := int t ht'
      obtain ⟨k, rfl⟩ := int u hu'
      have h0 : Spec.cc (fun p : Fin 4 × Fin 5 => if p = (0, 0) then (1 : ℝ) else 0) (fun p => if p = (0, 0) then 1 else 0) j k = 0 := by
        unfold Spec.cc
        refine Finset.sum_eq_zero fun p _ => ?_
        rw [cshift_int]
        by_cases hp : p = (0, 0)
        · subst hp
          have : Spec.roll2 j k (fun p : Fin 4 × Fin 5 => if p = (0, 0) then (1 : ℝ) else 0) (0, 0) = 0 := by
            unfold Spec.roll2
            refine if_neg fun h => hne ?_
            have w : ∀ (n : ℕ) [NeZero n] (d : ℤ), Spec.wrap n ((((0 : Fin n) : ℕ) : ℤ) - d) = 0 → ∃ z : ℤ, (d : ℝ) = z * n := by
              intro n _ d hw
              rw [Spec.wrap_eq_iff] at hw
              obtain ⟨z, hz⟩ := Int.modEq_iff_dvd.1 hw
              refine ⟨z, ?_⟩
              have : d = z * n := by
                simp at hz
                linarith
              rw [this]; push_cast; ring
            exact ⟨w 4 j (congrArg Prod.fst h), w 5 k (congrArg Prod.snd h)⟩
          rw [this]; simp
        · simp [hp]
      rw [h0, norm_zero, hE, Real.sqrt_one]
      simp only [ne_eq, OfNat.ofNat_ne_zero, not_false_eq_true, zero_pow, Finset.sum_const_zero, Real.sqrt_zero, mul_zero, zero_add]
      linarith)
  exact ⟨dx', dy', h, cx, cy⟩

end ImgReg
