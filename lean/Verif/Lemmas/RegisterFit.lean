import Verif.Lemmas.Register
import Mathlib.Tactic.Linarith

/-! # The shift `register_images` reports -/

open Complex Finset
open scoped ComplexConjugate

namespace ImgReg

section
variable {ny nx : ℕ} [NeZero ny] [NeZero nx]

omit [NeZero ny] [NeZero nx] in
theorem regPrep_eq (zm : Bool) (im : Fin ny × Fin nx → Pix) : regPrep zm im = rArr (prep zm im) := by
  rw [prep_def]; rfl

/-! ### the wrapped peak -/

theorem wrapPeak_range (m i : ℕ) (hi : i < m) : -(m : ℤ) < 2 * wrapPeak m i ∧ 2 * wrapPeak m i ≤ m := by
  unfold wrapPeak; split_ifs <;> omega

theorem wrapPeak_modEq (m i : ℕ) : wrapPeak m i ≡ i [ZMOD m] := by
  unfold wrapPeak
  split_ifs
  · exact Int.modEq_iff_dvd.2 ⟨1, by ring⟩
  · rfl

theorem wrapPeak_zero (m : ℕ) : wrapPeak m 0 = 0 := by
  unfold wrapPeak; rw [if_neg (by omega)]; rfl

/-! ### the three branches -/

/-- a shift of the returned fit: 0 along an axis of one pixel -/
noncomputable def Spec.oneAxis (m : ℕ) (r : ℝ) : ℝ := if m = 1 then 0 else r

theorem dftregFit_zero (cfg : FFTConfig) (A B : Fin ny × Fin nx → CPix) (mo : Option ℕ) :
    dftregFit cfg A B 0 mo = .error .valueError := by simp [dftregFit]

theorem dftregFit_one (cfg : FFTConfig) (a b : Fin ny × Fin nx → ℝ) (mo : Option ℕ) :
    ∃ loc fit, loc = Np.argmax (Spec.kept mo fun i : Fin ny × Fin nx =>
        ‖Spec.cc a b ((i.1 : ℕ) : ℝ) ((i.2 : ℕ) : ℝ)‖) ∧
      dftregFit cfg (cArr (dft fun p => (a p : ℂ))) (cArr (dft fun p => (b p : ℂ))) 1 mo = .ok fit ∧
      fit.row = wrapPeak ny loc.1 ∧ fit.col = wrapPeak nx loc.2 := by
  obtain ⟨loc, hl, h⟩ := dftregWhole_eq cfg a b mo
  refine ⟨loc, _, hl, ?_, congrArg PeakFit.row h, congrArg PeakFit.col h⟩
  simp [dftregFit]

theorem dftregFit_two (cfg : FFTConfig) (a b : Fin ny × Fin nx → ℝ) (mo : Option ℕ) :
    ∃ loc fit, loc = Np.argmax (Spec.kept mo fun i : Fin (2 * ny) × Fin (2 * nx) =>
        ‖Spec.cc a b (((i.1 : ℕ) : ℝ) / 2) (((i.2 : ℕ) : ℝ) / 2)‖) ∧
      dftregFit cfg (cArr (dft fun p => (a p : ℂ))) (cArr (dft fun p => (b p : ℂ))) 2 mo = .ok fit ∧
      fit.row = Spec.oneAxis ny ((wrapPeak (2 * ny) loc.1 : ℝ) / 2) ∧
      fit.col = Spec.oneAxis nx ((wrapPeak (2 * nx) loc.2 : ℝ) / 2) := by
  obtain ⟨loc, hl, h⟩ := dftregHalf_eq cfg a b mo
  have h1 := congrArg PeakFit.row h
  have h2 := congrArg PeakFit.col h
  simp only at h1 h2
  refine ⟨loc, ⟨_, _, _⟩, hl, rfl, ?_, ?_⟩
  · unfold Spec.oneAxis
    rw [← h1]
  · unfold Spec.oneAxis
    rw [← h2]

theorem dftregFit_gt (cfg : FFTConfig) (a b : Fin ny × Fin nx → ℝ) (mo : Option ℕ) (usfac : ℕ)
    (hu : 2 < usfac) [NeZero ⌈(usfac : ℝ) * (3 / 2)⌉₊] :
    ∃ loc row2 col2, loc = Np.argmax (Spec.kept mo fun i : Fin (2 * ny) × Fin (2 * nx) =>
        ‖Spec.cc a b (((i.1 : ℕ) : ℝ) / 2) (((i.2 : ℕ) : ℝ) / 2)‖) ∧
      row2 = (wrapPeak (2 * ny) loc.1 : ℝ) / 2 ∧ col2 = (wrapPeak (2 * nx) loc.2 : ℝ) / 2 ∧
      ∃ loc2 fit, loc2 = Np.argmax (fun i : Fin ⌈(usfac : ℝ) * (3 / 2)⌉₊ × Fin ⌈(usfac : ℝ) * (3 / 2)⌉₊ =>
        ‖Spec.cc a b (Spec.refineAt usfac row2 i.1) (Spec.refineAt usfac col2 i.2)‖) ∧
      dftregFit cfg (cArr (dft fun p => (a p : ℂ))) (cArr (dft fun p => (b p : ℂ))) usfac mo = .ok fit ∧
      fit.row = Spec.oneAxis ny (Spec.refineAt usfac row2 loc2.1) ∧
      fit.col = Spec.oneAxis nx (Spec.refineAt usfac col2 loc2.2) := by
  obtain ⟨loc, hl, h⟩ := dftregHalf_eq cfg a b mo
  obtain ⟨loc2, c, hl2, h2, -⟩ := dftregRefine_eq a b usfac (by omega)
    ((wrapPeak (2 * ny) loc.1 : ℝ) / 2) ((wrapPeak (2 * nx) loc.2 : ℝ) / 2)
  refine ⟨loc, _, _, hl, rfl, rfl, loc2, ⟨Spec.oneAxis ny (Spec.refineAt usfac _ loc2.1),
    Spec.oneAxis nx (Spec.refineAt usfac _ loc2.2), c⟩, hl2, ?_, rfl, rfl⟩
  have g1 := congrArg PeakFit.row h
  have g2 := congrArg PeakFit.col h
  simp only at g1 g2
  unfold dftregFit
  rw [if_neg (by omega), if_neg (by omega)]
  simp only [hu, if_true, g1, g2, h2]
  rfl

theorem registerBody_ok (cfg : FFTConfig) (im1 im2 : Fin ny × Fin nx → Pix) (usfac : ℕ)
    (rr re zm : Bool) (mo : Option ℕ) (fit : PeakFit)
    (h : dftregFit ⟨cfg.hasFftw, false, 1⟩ (cArr (dft fun p => (prep zm im1 p : ℂ)))
      (cArr (dft fun p => (prep zm im2 p : ℂ))) usfac mo = .ok fit) :
    registerBody cfg im1 im2 usfac rr re zm mo = .ok
      ([.num (-fit.col), .num (-fit.row)]
        ++ (if re then [.num (1 / usfac), .num (1 / usfac)] else [])
        ++ (if rr then [.image (Np.abs (Np.ifftshift2 ((getFfts cfg).2 (dftregGreg
            (cArr (dft fun p => (prep zm im2 p : ℂ))) fit))))] else [])) := by
  unfold registerBody
  rw [getFfts_eq]
  simp only [regPrep_eq, Np.fftn_rArr, dftregistration, h]
  cases re <;> cases rr <;> rfl

theorem registerBody_err (cfg : FFTConfig) (im1 im2 : Fin ny × Fin nx → Pix)
    (rr re zm : Bool) (mo : Option ℕ) :
    registerBody cfg im1 im2 0 rr re zm mo = .error .valueError := by
  unfold registerBody
  rw [getFfts_eq]
  simp only [dftregistration, dftregFit_zero]
  rfl

/-! ### perfect correlation -/

/-- two complex images of equal energy whose correlation reaches that energy are proportional, with
a factor of modulus 1 -/
theorem proportional_of_corr {ι : Type} [Fintype ι] (x y : ι → ℂ) (hxy : ∑ p, ‖x p‖ ^ 2 = ∑ p, ‖y p‖ ^ 2)
    (h : ∑ p, ‖x p‖ ^ 2 ≤ ‖∑ p, x p * conj (y p)‖) : ∃ c : ℂ, ‖c‖ = 1 ∧ ∀ p, y p = c * x p := by
  set S := ∑ p, x p * conj (y p) with hS
  -- a unit number with `c * S = ‖S‖`
  obtain ⟨c, hc, hcS⟩ : ∃ c : ℂ, ‖c‖ = 1 ∧ c * S = (‖S‖ : ℂ) := by
    by_cases h0 : S = 0
    · exact ⟨1, by simp, by simp [h0]⟩
    · have hn : (‖S‖ : ℂ) ≠ 0 := by simpa using h0
      refine ⟨conj S / ‖S‖, ?_, ?_⟩
      · rw [norm_div, RCLike.norm_conj, Complex.norm_real, norm_norm]
        exact div_self (norm_ne_zero_iff.2 h0)
      · rw [div_mul_eq_mul_div, mul_comm, Complex.mul_conj, Complex.normSq_eq_norm_sq]
        push_cast
        field_simp
  have hz : ∑ p, ‖y p - c * x p‖ ^ 2 = 0 := by
    have hexp : ∀ p, ‖y p - c * x p‖ ^ 2 = ‖y p‖ ^ 2 + ‖x p‖ ^ 2 - 2 * (c * (x p * conj (y p))).re := by
      intro p
      rw [← Complex.normSq_eq_norm_sq, Complex.normSq_sub, Complex.normSq_eq_norm_sq,
        Complex.normSq_eq_norm_sq, norm_mul, hc, one_mul]
      have : (y p * conj (c * x p)).re = (c * (x p * conj (y p))).re := by
        rw [← Complex.conj_re]
        congr 1
        rw [map_mul, Complex.conj_conj]; ring
      rw [this]
    simp_rw [hexp]
    rw [Finset.sum_sub_distrib, Finset.sum_add_distrib, ← Finset.mul_sum, ← Complex.re_sum,
      ← Finset.mul_sum, ← hS, hcS, Complex.ofReal_re, ← hxy]
    have hcs : ‖S‖ ≤ ∑ p, ‖x p‖ ^ 2 := by
      have hnn : 0 ≤ ∑ p, ‖y p - c * x p‖ ^ 2 := Finset.sum_nonneg fun p _ => by positivity
      simp_rw [hexp] at hnn
      rw [Finset.sum_sub_distrib, Finset.sum_add_distrib, ← Finset.mul_sum, ← Complex.re_sum,
        ← Finset.mul_sum, ← hS, hcS, Complex.ofReal_re, ← hxy] at hnn
      linarith
    linarith
  refine ⟨c, hc, fun p => ?_⟩
  have := (Finset.sum_eq_zero_iff_of_nonneg (fun p _ => by positivity)).1 hz p (mem_univ _)
  rw [pow_eq_zero_iff two_ne_zero, norm_eq_zero, sub_eq_zero] at this
  exact this

/-- no Fourier shift in `S × S` other than whole periods reproduces the image up to a constant factor
of modulus 1 -/
def Spec.identifiable (S : Set ℝ) (a : Fin ny × Fin nx → ℝ) : Prop :=
  ∀ t ∈ S, ∀ u ∈ S, ∀ c : ℂ, ‖c‖ = 1 → (∀ p, cshift t u a p = c * a p) →
    (∃ z : ℤ, t = z * ny) ∧ ∃ z : ℤ, u = z * nx

theorem cc_shifted (a b : Fin ny × Fin nx → ℝ) (dy dx t u : ℝ) (hb : ∀ p, (b p : ℂ) = cshift dy dx a p) :
    Spec.cc a b t u = ∑ p, (a p : ℂ) * conj (cshift (t + dy) (u + dx) a p) := by
  unfold Spec.cc
  rw [cshift_cshift _ _ _ _ _ _ hb]

/-- at the true displacement the correlation is the energy, elsewhere it is smaller -/
theorem cc_lt (S : Set ℝ) (a b : Fin ny × Fin nx → ℝ) (dy dx t u : ℝ)
    (hb : ∀ p, (b p : ℂ) = cshift dy dx a p) (hid : Spec.identifiable S a)
    (ht : t + dy ∈ S) (hu : u + dx ∈ S)
    (h : ¬ ((∃ z : ℤ, t + dy = z * ny) ∧ ∃ z : ℤ, u + dx = z * nx)) :
    ‖Spec.cc a b t u‖ < ∑ p, a p ^ 2 := by
  by_contra hc
  push Not at hc
  rw [cc_shifted a b dy dx t u hb] at hc
  have e1 : ∑ p, ‖(a p : ℂ)‖ ^ 2 = ∑ p, a p ^ 2 := by simp
  obtain ⟨c, hc1, hc2⟩ := proportional_of_corr (fun p => (a p : ℂ)) (cshift (t + dy) (u + dx) a)
    (by rw [cshift_energy, e1]) (by rw [e1]; exact hc)
  exact h (hid _ ht _ hu c hc1 hc2)

theorem cc_eq (a b : Fin ny × Fin nx → ℝ) (dy dx t u : ℝ) (hb : ∀ p, (b p : ℂ) = cshift dy dx a p)
    (h : (∃ z : ℤ, t + dy = z * ny) ∧ ∃ z : ℤ, u + dx = z * nx) :
    ‖Spec.cc a b t u‖ = ∑ p, a p ^ 2 := by
  obtain ⟨⟨z, hz⟩, w, hw⟩ := h
  rw [cc_shifted a b dy dx t u hb, hz, hw]
  have : ∑ p, (a p : ℂ) * conj (cshift (z * ny) (w * nx) a p) = ((∑ p, a p ^ 2 : ℝ) : ℂ) := by
    push_cast
    refine Finset.sum_congr rfl fun p _ => ?_
    rw [cshift_period, Complex.conj_ofReal]; ring
  rw [this, Complex.norm_real, Real.norm_of_nonneg (Finset.sum_nonneg fun p _ => by positivity)]

/-- Fourier form of identifiability -/
theorem identifiable_of_dft (S : Set ℝ) (a : Fin ny × Fin nx → ℝ) (hy : 2 ≤ ny) (hx : 2 ≤ nx)
    (h10 : dft (fun p => (a p : ℂ)) (1, 0) ≠ 0) (h01 : dft (fun p => (a p : ℂ)) (0, 1) ≠ 0)
    (h11 : dft (fun p => (a p : ℂ)) (1, 1) ≠ 0 ∨ dft (fun p => (a p : ℂ)) (0, 0) ≠ 0) :
    Spec.identifiable S a := by
  intro t _ u _ c hc h
  have hk : ∀ k, dft (fun p => (a p : ℂ)) k ≠ 0 → ex (-(freq2 u t k)) = c := by
    intro k hk
    have h1 : cshift t u a = fun p => c * (a p : ℂ) := by funext p; exact h p
    have h2 := congrFun (congrArg dft h1) k
    rw [dft_cshift, dft_smul] at h2
    simp only at h2
    exact mul_left_cancel₀ hk (by rw [h2, mul_comm])
  have e1 := hk _ h10
  have e2 := hk _ h01
  have h0 : c ≠ 0 := by rintro rfl; simp at hc
  have hc1 : c = 1 := by
    rcases h11 with h | h
    · have e3 := hk _ h
      simp only [freq2, Np.fftfreq_zero, mul_zero, zero_add, add_zero] at e1 e2
      simp only [freq2] at e3
      rw [neg_add, ex_add, e1, e2] at e3
      exact mul_left_cancel₀ h0 (by rw [e3, mul_one])
    · have e3 := hk _ h
      simp only [freq2, Np.fftfreq_zero, mul_zero, add_zero, neg_zero, ex_zero] at e3
      exact e3.symm
  rw [hc1] at e1 e2
  simp only [freq2, Np.fftfreq_zero, mul_zero, zero_add, add_zero] at e1 e2
  exact ⟨int_mul_of_ex_fftfreq_one ny hy t e1, int_mul_of_ex_fftfreq_one nx hx u e2⟩

end

end ImgReg
