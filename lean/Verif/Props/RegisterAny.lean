import Verif.Model.RegisterAny
import Verif.Props.Register

/-!
# `register_images` for every number `usfac` and every integer `maxoff` (C146)
-/

open Complex Finset
open scoped ComplexConjugate

namespace ImgReg

/-! ### the slice -/

theorem inSlice_nat (n k i : ℕ) : inSlice n (k : ℤ) i ↔ inMiddle n k i := by
  unfold inSlice inMiddle pySlice
  have h1 : ¬ ((k : ℤ) < 0) := by omega
  simp only [h1, if_false]
  by_cases hk : k = 0
  · subst hk; simp
  · have h2 : (-(k : ℤ)) < 0 := by omega
    simp only [h2, if_true]
    omega

theorem zeroSlice_nat {m n : ℕ} (mo : Option ℕ) (cc : Fin m × Fin n → CPix) :
    zeroSlice (mo.map fun k : ℕ => (k : ℤ)) cc = zeroMiddle mo cc := by
  cases mo with
  | none => rfl
  | some k =>
    classical
    funext i
    show (if inSlice m (k : ℤ) i.1 ∨ inSlice n (k : ℤ) i.2 then some 0 else cc i)
      = if inMiddle m k i.1 ∨ inMiddle n k i.2 then some 0 else cc i
    simp only [inSlice_nat]

/-- a negative bound counts from the end of the axis: the slice `-j:j` is `(n-j):j` -/
theorem inSlice_neg (n j i : ℕ) (hj : 0 < j) (hi : i < n) : inSlice n (-(j : ℤ)) i ↔ n ≤ i + j ∧ i < j := by
  unfold inSlice pySlice
  have h1 : -(j : ℤ) < 0 := by omega
  have h2 : ¬ (- -(j : ℤ) < 0) := by omega
  simp only [h1, h2, if_true, if_false]
  omega

section
variable {ny nx : ℕ} [NeZero ny] [NeZero nx]

theorem dftregFitAny_nat (cfg : FFTConfig) (A B : Fin ny × Fin nx → CPix) (usfac : ℕ) (mo : Option ℕ) :
    dftregFitAny cfg A B (usfac : ℝ) (mo.map fun k : ℕ => (k : ℤ)) = dftregFit cfg A B usfac mo := by
  unfold dftregFitAny dftregFit
  have h0 : (usfac : ℝ) = 0 ↔ usfac = 0 := by exact_mod_cast Iff.rfl
  have h1 : (usfac : ℝ) = 1 ↔ usfac = 1 := by exact_mod_cast Iff.rfl
  have h2 : (2 : ℝ) < usfac ↔ 2 < usfac := by exact_mod_cast Iff.rfl
  have hw : dftregWholeAny cfg A B (mo.map fun k : ℕ => (k : ℤ)) = dftregWhole cfg A B mo := by
    unfold dftregWholeAny dftregWhole
    simp only [zeroSlice_nat]
  have hh : dftregHalfAny cfg A B (mo.map fun k : ℕ => (k : ℤ)) = dftregHalf cfg A B mo := by
    unfold dftregHalfAny dftregHalf
    simp only [zeroSlice_nat]
  have hr : ∀ r c, dftregRefineAny A B (usfac : ℝ) r c = dftregRefine A B usfac r c := by
    intro r c
    unfold dftregRefineAny dftregRefine
    simp only [Complex.ofReal_natCast]
  simp only [h0, h1, h2, hw, hh, hr]

/-- the layout of the result -/
theorem registerAny_ok (cfg : FFTConfig) (im1 im2 : Fin ny × Fin nx → Pix) (us : ℝ) (rr re zm : Bool) (mo : Option ℤ) (fit : PeakFit)
    (h : dftregFitAny ⟨cfg.hasFftw, false, 1⟩ (cArr (dft fun p => (prep zm im1 p : ℂ)))
      (cArr (dft fun p => (prep zm im2 p : ℂ))) us mo = .ok fit) (hr : rr = true → 0 < us) :
    registerImagesAny cfg im1 im2 us rr re zm mo = .ok
      ([.num (-fit.col), .num (-fit.row)]
        ++ (if re then [.num (1 / us), .num (1 / us)] else [])
        ++ (if rr then [.image (Np.abs (Np.ifftshift2 ((getFfts cfg).2 (dftregGreg
            (cArr (dft fun p => (prep zm im2 p : ℂ))) fit))))] else [])) := by
  unfold registerImagesAny
  rw [dif_pos ⟨rfl, rfl⟩, getFfts_eq]
  have e : (fun i : Fin ny × Fin nx => im2 (Fin.cast rfl i.1, Fin.cast rfl i.2)) = im2 := rfl
  simp only [e, regPrep_eq, Np.fftn_rArr, dftregistrationAny, h]
  cases re <;> cases rr
  · rfl
  · simp only [hr rfl, if_true]; rfl
  · rfl
  · simp only [hr rfl, if_true]; rfl

theorem registerAny_unbound (cfg : FFTConfig) (im1 im2 : Fin ny × Fin nx → Pix) (us : ℝ) (re zm : Bool) (mo : Option ℤ) (fit : PeakFit)
    (h : dftregFitAny ⟨cfg.hasFftw, false, 1⟩ (cArr (dft fun p => (prep zm im1 p : ℂ)))
      (cArr (dft fun p => (prep zm im2 p : ℂ))) us mo = .ok fit) (hr : ¬ 0 < us) :
    registerImagesAny cfg im1 im2 us true re zm mo = .error .unboundLocalError := by
  unfold registerImagesAny
  rw [dif_pos ⟨rfl, rfl⟩, getFfts_eq]
  have e : (fun i : Fin ny × Fin nx => im2 (Fin.cast rfl i.1, Fin.cast rfl i.2)) = im2 := rfl
  simp only [e, regPrep_eq, Np.fftn_rArr, dftregistrationAny, h]
  simp only [bind, Except.bind, if_true, if_neg hr]

theorem registerAny_err (cfg : FFTConfig) (im1 im2 : Fin ny × Fin nx → Pix) (rr re zm : Bool) (mo : Option ℤ) :
    registerImagesAny cfg im1 im2 0 rr re zm mo = .error .valueError := by
  unfold registerImagesAny
  rw [dif_pos ⟨rfl, rfl⟩, getFfts_eq]
  simp only [dftregistrationAny, dftregFitAny, if_true]
  rfl

/-- C146: on the documented arguments (a non-negative integer `usfac`, `maxoff` absent or non-negative) this is the `register_images` of
C44–C49 and of all other properties. -/
theorem C146_agree (cfg : FFTConfig) {my mx : ℕ} (im1 : Fin ny × Fin nx → Pix) (im2 : Fin my × Fin mx → Pix) (usfac : ℕ) (rr re zm : Bool)
    (mo : Option ℕ) :
    registerImagesAny cfg im1 im2 (usfac : ℝ) rr re zm (mo.map fun k : ℕ => (k : ℤ)) = registerImages cfg im1 im2 usfac rr re zm mo := by
  by_cases h : ny = my ∧ nx = mx
  · obtain ⟨rfl, rfl⟩ := h
    rw [registerImages_same]
    rcases Nat.eq_zero_or_pos usfac with rfl | hu
    · rw [registerBody_err, Nat.cast_zero, registerAny_err]
    · obtain ⟨fit, hfit, -⟩ := fit_grid ⟨cfg.hasFftw, false, 1⟩ (prep zm im1) (prep zm im2) usfac hu mo
      rw [registerBody_ok cfg _ _ usfac rr re zm mo fit hfit,
        registerAny_ok cfg im1 im2 usfac rr re zm _ fit (by rw [dftregFitAny_nat]; exact hfit) (fun _ => by exact_mod_cast hu)]
  · unfold registerImagesAny registerImages
    rw [dif_neg h, dif_neg h]

/-- C146: `usfac` 0 (or `0.0`) is a ValueError. -/
theorem C146_zero (cfg : FFTConfig) (im1 im2 : Fin ny × Fin nx → Pix) (rr re zm : Bool) (mo : Option ℤ) :
    registerImagesAny cfg im1 im2 0 rr re zm mo = .error .valueError := registerAny_err cfg im1 im2 rr re zm mo

/-- the fit for every number up to 2 -/
theorem fitAny_le_two (cfg : FFTConfig) (A B : Fin ny × Fin nx → CPix) (us : ℝ) (h0 : us ≠ 0) (h1 : us ≠ 1) (h2 : us ≤ 2) (mo : Option ℤ) :
    ∃ fit, dftregFitAny cfg A B us mo = .ok fit ∧ dftregFitAny cfg A B 2 mo = .ok fit := by
  refine ⟨⟨if ny = 1 then 0 else (dftregHalfAny cfg A B mo).row, if nx = 1 then 0 else (dftregHalfAny cfg A B mo).col,
    (dftregHalfAny cfg A B mo).ccmax⟩, ?_, ?_⟩
  · unfold dftregFitAny
    rw [if_neg h0, if_neg h1]
    simp only [if_neg (not_lt.2 h2)]
    rfl
  · unfold dftregFitAny
    rw [if_neg (by norm_num), if_neg (by norm_num)]
    simp only [lt_irrefl, if_false]
    rfl

/-- C146: any other number up to 2 — 0.5, 1.5, −10, … — is not rejected but treated as `usfac=2`: the shifts (and for a positive number the
registered image) are those of `usfac=2`, half pixels; the error entries are `1/usfac`, so negative for a negative `usfac`; with
`return_registered` a negative `usfac` is an UnboundLocalError. -/
theorem C146_up_to_two (cfg : FFTConfig) (im1 im2 : Fin ny × Fin nx → Pix) (us : ℝ) (h0 : us ≠ 0) (h1 : us ≠ 1) (h2 : us ≤ 2) (zm : Bool)
    (mo : Option ℤ) :
    ∃ (dx dy : ℝ) (img : Fin ny × Fin nx → Pix),
      (∀ rr re : Bool, registerImagesAny cfg im1 im2 2 rr re zm mo
        = .ok ([.num dx, .num dy] ++ (if re then [.num (1 / 2), .num (1 / 2)] else []) ++ (if rr then [.image img] else []))) ∧
      (∀ re : Bool, registerImagesAny cfg im1 im2 us false re zm mo
        = .ok ([.num dx, .num dy] ++ (if re then [.num (1 / us), .num (1 / us)] else []))) ∧
      (0 < us → ∀ re : Bool, registerImagesAny cfg im1 im2 us true re zm mo
        = .ok ([.num dx, .num dy] ++ (if re then [.num (1 / us), .num (1 / us)] else []) ++ [.image img])) ∧
      (us < 0 → ∀ re : Bool, registerImagesAny cfg im1 im2 us true re zm mo = .error .unboundLocalError) := by
  obtain ⟨fit, hfit, hfit2⟩ := fitAny_le_two ⟨cfg.hasFftw, false, 1⟩ (cArr (dft fun p => (prep zm im1 p : ℂ)))
      (cArr (dft fun p => (prep zm im2 p : ℂ))) us h0 h1 h2 mo
  refine ⟨-fit.col, -fit.row, Np.abs (Np.ifftshift2 ((getFfts cfg).2 (dftregGreg (cArr (dft fun p => (prep zm im2 p : ℂ))) fit))), ?_, ?_, ?_, ?_⟩
  · intro rr re
    exact registerAny_ok cfg im1 im2 2 rr re zm mo fit hfit2 (fun _ => two_pos)
  · intro re
    rw [registerAny_ok cfg im1 im2 us false re zm mo fit hfit (by simp)]
    simp
  · intro hp re
    exact registerAny_ok cfg im1 im2 us true re zm mo fit hfit (fun _ => hp)
  · intro hn re
    exact registerAny_unbound cfg im1 im2 us re zm mo fit hfit (not_lt.2 hn.le)

/-! ### factors above 2 -/

/-- The numbers tried by the refinement around the first estimate `r` along one axis: multiples of `1/us`, `⌈1.5·us⌉` of them, around `r`
rounded to a multiple of `1/us`. -/
def Spec.refineGridAny (us r : ℝ) : Set ℝ :=
  {t | ∃ i : ℕ, i < ⌈us * (3 / 2)⌉₊ ∧ t = (pyRound (r * us) : ℝ) / us + ((i : ℝ) - ((⌈us * (3 / 2)⌉₊ / 2 : ℕ) : ℝ)) / us}

noncomputable def refineAtAny (us : ℝ) (row2 : ℝ) (i : ℕ) : ℝ :=
  (pyRound (row2 * us) : ℝ) / us + ((i : ℝ) - ((⌈us * (3 / 2)⌉₊ / 2 : ℕ) : ℝ)) / us

theorem refineSizeAny_pos {us : ℝ} (hu : 0 < us) : ⌈us * (3 / 2)⌉₊ ≠ 0 := (Nat.ceil_pos.2 (by positivity)).ne'

theorem dftupsVal_ccAny (a b : Fin ny × Fin nx → ℝ) {us : ℝ} (hu : 0 < us) (row2 col2 : ℝ) (i : Fin ⌈us * (3 / 2)⌉₊ × Fin ⌈us * (3 / 2)⌉₊) :
    conj (dftupsVal (fun k => dft (fun p => (b p : ℂ)) k * conj (dft (fun p => (a p : ℂ)) k)) us
        (((⌈us * (3 / 2)⌉₊ / 2 : ℕ) : ℝ) - (pyRound (row2 * us) : ℝ) / us * us)
        (((⌈us * (3 / 2)⌉₊ / 2 : ℕ) : ℝ) - (pyRound (col2 * us) : ℝ) / us * us)
        ((i.1 : ℕ) : ℝ) ((i.2 : ℕ) : ℝ)) / ((ny : ℂ) * nx * (us : ℂ) ^ 2)
      = ((1 / us ^ 2 : ℝ) : ℂ) * Spec.cc a b (refineAtAny us row2 i.1) (refineAtAny us col2 i.2) := by
  have hu' : us ≠ 0 := hu.ne'
  rw [cc_fourier]
  unfold dftupsVal
  rw [map_sum]
  have : ∀ k : Fin ny × Fin nx, conj (dft (fun p => (b p : ℂ)) k * conj (dft (fun p => (a p : ℂ)) k)
      * ex (-(Np.fftfreq ny k.1 * ((((i.1 : ℕ) : ℝ) - (((⌈us * (3 / 2)⌉₊ / 2 : ℕ) : ℝ)
        - (pyRound (row2 * us) : ℝ) / us * us)) / us)))
      * ex (-(Np.fftfreq nx k.2 * ((((i.2 : ℕ) : ℝ) - (((⌈us * (3 / 2)⌉₊ / 2 : ℕ) : ℝ)
        - (pyRound (col2 * us) : ℝ) / us * us)) / us))))
      = dft (fun p => (a p : ℂ)) k * conj (dft (fun p => (b p : ℂ)) k)
        * ex (freq2 (refineAtAny us col2 i.2) (refineAtAny us row2 i.1) k) := by
    intro k
    rw [map_mul, map_mul, map_mul, conj_ex, conj_ex, neg_neg, neg_neg, Complex.conj_conj,
      mul_assoc, ← ex_add, mul_comm (conj _) (dft _ k)]
    congr 2
    unfold freq2 refineAtAny
    field_simp
    ring
  rw [Finset.sum_congr rfl fun k _ => this k]
  have h1 : (ny : ℂ) ≠ 0 := by exact_mod_cast NeZero.ne ny
  have h2 : (nx : ℂ) ≠ 0 := by exact_mod_cast NeZero.ne nx
  have h3 : (us : ℂ) ≠ 0 := by exact_mod_cast hu'
  simp only [Fintype.card_prod, Fintype.card_fin]
  push_cast
  field_simp

theorem dftregRefineAny_eq (a b : Fin ny × Fin nx → ℝ) {us : ℝ} (hu : 0 < us) (row2 col2 : ℝ) [NeZero ⌈us * (3 / 2)⌉₊] :
    ∃ (loc : Fin ⌈us * (3 / 2)⌉₊ × Fin ⌈us * (3 / 2)⌉₊) (c : ℂ),
      loc = Np.argmax (fun i : Fin ⌈us * (3 / 2)⌉₊ × Fin ⌈us * (3 / 2)⌉₊ =>
        ‖Spec.cc a b (refineAtAny us row2 i.1) (refineAtAny us col2 i.2)‖) ∧
      dftregRefineAny (cArr (dft fun p => (a p : ℂ))) (cArr (dft fun p => (b p : ℂ))) us row2 col2
        = .ok ⟨refineAtAny us row2 loc.1, refineAtAny us col2 loc.2, c⟩ ∧
      c = ((1 / us ^ 2 : ℝ) : ℂ) * Spec.cc a b (refineAtAny us row2 loc.1) (refineAtAny us col2 loc.2) := by
  have hu' : us ≠ 0 := hu.ne'
  refine ⟨_, _, rfl, ?_, rfl⟩
  unfold dftregRefineAny
  simp only [mul_conj_cArr]
  rw [dftups_eq _ _ _ _ _ _ hu']
  simp only [bind, Except.bind, Option.getD_some]
  rw [dif_pos ⟨refineSizeAny_pos hu, refineSizeAny_pos hu⟩]
  simp only [pure, Except.pure]
  have harr : (fun i : Fin ⌈us * (3 / 2)⌉₊ × Fin ⌈us * (3 / 2)⌉₊ =>
      (Np.conjA (cArr fun i : Fin ⌈us * (3 / 2)⌉₊ × Fin ⌈us * (3 / 2)⌉₊ =>
        dftupsVal (fun k => dft (fun p => (b p : ℂ)) k * conj (dft (fun p => (a p : ℂ)) k)) us
        (((⌈us * (3 / 2)⌉₊ / 2 : ℕ) : ℝ) - (pyRound (row2 * us) : ℝ) / us * us)
        (((⌈us * (3 / 2)⌉₊ / 2 : ℕ) : ℝ) - (pyRound (col2 * us) : ℝ) / us * us)
        ((i.1 : ℕ) : ℝ) ((i.2 : ℕ) : ℝ)) i).map fun z => z / ((ny : ℂ) * nx * (us : ℂ) ^ 2))
      = cArr fun i => ((1 / us ^ 2 : ℝ) : ℂ) * Spec.cc a b (refineAtAny us row2 i.1) (refineAtAny us col2 i.2) := by
    funext i
    rw [cArr, ← dftupsVal_ccAny a b hu row2 col2 i]
    rfl
  have hmax : absArgmax (cArr fun i : Fin ⌈us * (3 / 2)⌉₊ × Fin ⌈us * (3 / 2)⌉₊ =>
      ((1 / us ^ 2 : ℝ) : ℂ) * Spec.cc a b (refineAtAny us row2 i.1) (refineAtAny us col2 i.2))
      = Np.argmax (fun i : Fin ⌈us * (3 / 2)⌉₊ × Fin ⌈us * (3 / 2)⌉₊ =>
        ‖Spec.cc a b (refineAtAny us row2 i.1) (refineAtAny us col2 i.2)‖) := by
    rw [absArgmax_cArr]
    refine Eq.trans (congrArg Np.argmax ?_) (argmax_smul (1 / us ^ 2) (by positivity) _)
    funext i
    rw [norm_mul, Complex.norm_real, Real.norm_of_nonneg (by positivity)]
  have key := hmax
  rw [← harr] at key
  simp only [key]
  have hv := congrFun harr (Np.argmax (fun i : Fin ⌈us * (3 / 2)⌉₊ × Fin ⌈us * (3 / 2)⌉₊ =>
        ‖Spec.cc a b (refineAtAny us row2 i.1) (refineAtAny us col2 i.2)‖))
  simp only [cArr] at hv
  have hv2 := congrArg (Option.getD · 0) hv
  simp only [Option.getD_some] at hv2
  rw [← hv2]
  rfl

/-- distance of the grid points from the first estimate -/
theorem refineAtAny_near {us : ℝ} (hu : 0 < us) (r : ℝ) (i : ℕ) (hi : i < ⌈us * (3 / 2)⌉₊) : |refineAtAny us r i - r| ≤ 3 / 4 + 1 / us := by
  have h1 := abs_pyRound_sub (r * us)
  have h2 : ((⌈us * (3 / 2)⌉₊ : ℕ) : ℝ) < us * (3 / 2) + 1 := Nat.ceil_lt_add_one (by positivity)
  have h3 : |(i : ℝ) - ((⌈us * (3 / 2)⌉₊ / 2 : ℕ) : ℝ)| ≤ ((⌈us * (3 / 2)⌉₊ : ℕ) : ℝ) / 2 := by
    generalize ⌈us * (3 / 2)⌉₊ = s at *
    have a1 : (2 * (i : ℤ) - 2 * ((s / 2 : ℕ) : ℤ)) ≤ s := by omega
    have a2 : -(s : ℤ) ≤ 2 * (i : ℤ) - 2 * ((s / 2 : ℕ) : ℤ) := by omega
    have b1 : (2 * (i : ℝ) - 2 * ((s / 2 : ℕ) : ℝ)) ≤ s := by exact_mod_cast a1
    have b2 : -(s : ℝ) ≤ 2 * (i : ℝ) - 2 * ((s / 2 : ℕ) : ℝ) := by exact_mod_cast a2
    rw [abs_le]; constructor <;> linarith
  have e : refineAtAny us r i - r = ((pyRound (r * us) - r * us) + ((i : ℝ) - ((⌈us * (3 / 2)⌉₊ / 2 : ℕ) : ℝ))) / us := by
    unfold refineAtAny; field_simp; ring
  rw [e, abs_div, abs_of_pos hu, div_le_iff₀ hu]
  have h4 := abs_add_le (pyRound (r * us) - r * us) ((i : ℝ) - ((⌈us * (3 / 2)⌉₊ / 2 : ℕ) : ℝ))
  have : (3 / 4 + 1 / us) * us = 3 / 4 * us + 1 := by field_simp
  rw [this]
  linarith

/-- C146: for every number `us > 2`, integer or not, and every pair of images with at least two pixels per axis, `register_images` succeeds; the
first estimate is a half-pixel displacement within half of the frame that maximises the modulus of the Fourier-interpolated cross-correlation
over all half-pixel displacements (without `maxoff`); the reported displacement is a multiple of `1/us` (both coordinates), within
`3/4 + 1/us` pixels of the first estimate, and maximises that modulus over the refinement grid; the error entries are `1/us`. -/
theorem C146_above_two (cfg : FFTConfig) (im1 im2 : Fin ny × Fin nx → Pix) (us : ℝ) (hu : 2 < us) (hy : 2 ≤ ny) (hx : 2 ≤ nx) (zm : Bool) :
    ∃ dx dy row2 col2 : ℝ,
      (∀ re : Bool, registerImagesAny cfg im1 im2 us false re zm none
        = .ok ([.num dx, .num dy] ++ if re then [.num (1 / us), .num (1 / us)] else [])) ∧
      (∃ j k : ℤ, row2 = (j : ℝ) / 2 ∧ col2 = (k : ℝ) / 2 ∧ -(ny : ℤ) < j ∧ j ≤ ny ∧ -(nx : ℤ) < k ∧ k ≤ nx) ∧
      (∀ j k : ℤ, ‖Spec.cc (prep zm im1) (prep zm im2) ((j : ℝ) / 2) ((k : ℝ) / 2)‖
        ≤ ‖Spec.cc (prep zm im1) (prep zm im2) row2 col2‖) ∧
      (∃ z : ℤ, dx = z / us) ∧ (∃ z : ℤ, dy = z / us) ∧ |-dx - col2| ≤ 3 / 4 + 1 / us ∧ |-dy - row2| ≤ 3 / 4 + 1 / us ∧
      -dy ∈ Spec.refineGridAny us row2 ∧ -dx ∈ Spec.refineGridAny us col2 ∧
      (∀ t ∈ Spec.refineGridAny us row2, ∀ u ∈ Spec.refineGridAny us col2,
        ‖Spec.cc (prep zm im1) (prep zm im2) t u‖ ≤ ‖Spec.cc (prep zm im1) (prep zm im2) (-dy) (-dx)‖) := by
  have hu0 : 0 < us := by linarith
  have hs0 : NeZero ⌈us * (3 / 2)⌉₊ := ⟨refineSizeAny_pos hu0⟩
  obtain ⟨loc, hl, h⟩ := dftregHalf_eq ⟨cfg.hasFftw, false, 1⟩ (prep zm im1) (prep zm im2) none
  have hhalf : dftregHalfAny ⟨cfg.hasFftw, false, 1⟩ (cArr (dft fun p => (prep zm im1 p : ℂ))) (cArr (dft fun p => (prep zm im2 p : ℂ))) none
      = dftregHalf ⟨cfg.hasFftw, false, 1⟩ (cArr (dft fun p => (prep zm im1 p : ℂ))) (cArr (dft fun p => (prep zm im2 p : ℂ))) none := rfl
  have kept_none : ∀ {m n : ℕ} (f : Fin m × Fin n → ℝ), Spec.kept none f = f := by
    intro m n f
    funext i
    have : ¬ Spec.erased m n none i := by rintro ⟨k, hk, _⟩; cases hk
    unfold Spec.kept
    rw [if_neg this]
  rw [kept_none] at hl
  have hmax := (Np.argmax_spec fun i : Fin (2 * ny) × Fin (2 * nx) =>
        ‖Spec.cc (prep zm im1) (prep zm im2) (((i.1 : ℕ) : ℝ) / 2) (((i.2 : ℕ) : ℝ) / 2)‖).1
  rw [← hl] at hmax
  obtain ⟨row2, hrow2⟩ : ∃ r : ℝ, r = (wrapPeak (2 * ny) loc.1 : ℝ) / 2 := ⟨_, rfl⟩
  obtain ⟨col2, hcol2⟩ : ∃ r : ℝ, r = (wrapPeak (2 * nx) loc.2 : ℝ) / 2 := ⟨_, rfl⟩
  obtain ⟨loc2, c, hl2, h2, -⟩ := dftregRefineAny_eq (prep zm im1) (prep zm im2) hu0 row2 col2
  have hmax2 := (Np.argmax_spec fun i : Fin ⌈us * (3 / 2)⌉₊ × Fin ⌈us * (3 / 2)⌉₊ =>
        ‖Spec.cc (prep zm im1) (prep zm im2) (refineAtAny us row2 i.1) (refineAtAny us col2 i.2)‖).1
  rw [← hl2] at hmax2
  have hfit : dftregFitAny ⟨cfg.hasFftw, false, 1⟩ (cArr (dft fun p => (prep zm im1 p : ℂ)))
      (cArr (dft fun p => (prep zm im2 p : ℂ))) us none = .ok ⟨refineAtAny us row2 loc2.1, refineAtAny us col2 loc2.2, c⟩ := by
    have g1 := congrArg PeakFit.row h
    have g2 := congrArg PeakFit.col h
    simp only at g1 g2
    rw [← hhalf, ← hrow2] at g1
    rw [← hhalf, ← hcol2] at g2
    unfold dftregFitAny
    rw [if_neg (by linarith), if_neg (by linarith)]
    simp only [hu, if_true, g1, g2, h2]
    simp only [bind, Except.bind, pure, Except.pure, if_neg (by omega : ¬ ny = 1), if_neg (by omega : ¬ nx = 1)]
  have halfmod : ∀ (n : ℕ) (x y : ℤ), x ≡ y [ZMOD (2 * n : ℕ)] → ∃ z : ℤ, (x : ℝ) / 2 - (y : ℝ) / 2 = z * n := by
    intro n x y h
    obtain ⟨z, hz⟩ := h.dvd
    refine ⟨-z, ?_⟩
    have : (y : ℝ) - x = 2 * n * z := by exact_mod_cast hz
    push_cast; linarith
  have hpk : Spec.cc (prep zm im1) (prep zm im2) row2 col2
      = Spec.cc (prep zm im1) (prep zm im2) (((loc.1 : ℕ) : ℝ) / 2) (((loc.2 : ℕ) : ℝ) / 2) := by
    rw [hrow2, hcol2]
    exact cc_period _ _ _ _ _ _ (by
        have := halfmod ny _ _ (wrapPeak_modEq (2 * ny) loc.1)
        rwa [Int.cast_natCast] at this)
      (by
        have := halfmod nx _ _ (wrapPeak_modEq (2 * nx) loc.2)
        rwa [Int.cast_natCast] at this)
  have hgrid : ∀ (r : ℝ) (i : ℕ), ∃ z : ℤ, -refineAtAny us r i = z / us := by
    intro r i
    unfold refineAtAny
    generalize ⌈us * (3 / 2)⌉₊ / 2 = s
    refine ⟨-(pyRound (r * us) + ((i : ℤ) - (s : ℤ))), ?_⟩
    push_cast
    field_simp
  refine ⟨-refineAtAny us col2 loc2.2, -refineAtAny us row2 loc2.1, row2, col2, ?_, ?_, ?_, hgrid _ _, hgrid _ _, ?_, ?_, ?_, ?_, ?_⟩
  · intro re
    rw [registerAny_ok cfg im1 im2 us false re zm none _ hfit (by simp)]
    simp
  · have r1 := wrapPeak_range (2 * ny) loc.1 loc.1.isLt
    have r2 := wrapPeak_range (2 * nx) loc.2 loc.2.isLt
    exact ⟨_, _, hrow2, hcol2, by omega, by omega, by omega, by omega⟩
  · intro j k
    rw [hpk]
    refine le_trans (le_of_eq ?_) (hmax (Spec.wrap (2 * ny) j, Spec.wrap (2 * nx) k))
    simp only
    congr 1
    exact cc_period _ _ _ _ _ _ (by
        have := halfmod ny _ _ (Spec.wrap_modEq (2 * ny) j).symm
        rwa [Int.cast_natCast] at this)
      (by
        have := halfmod nx _ _ (Spec.wrap_modEq (2 * nx) k).symm
        rwa [Int.cast_natCast] at this)
  · rw [neg_neg]; exact refineAtAny_near hu0 _ _ loc2.2.isLt
  · rw [neg_neg]; exact refineAtAny_near hu0 _ _ loc2.1.isLt
  · rw [neg_neg]; exact ⟨_, loc2.1.isLt, rfl⟩
  · rw [neg_neg]; exact ⟨_, loc2.2.isLt, rfl⟩
  · rintro t ⟨i, hi, rfl⟩ u ⟨j, hj, rfl⟩
    rw [neg_neg, neg_neg]
    exact hmax2 (⟨i, hi⟩, ⟨j, hj⟩)

/-- C146: for every number `us > 2`, every integer `maxoff` (or none) and all images, one pixel along an axis included, the call succeeds, both shifts are
multiples of `1/us` and exceed half of the frame by at most `3/4 + 1/us` pixels. -/
theorem C146_range (cfg : FFTConfig) (im1 im2 : Fin ny × Fin nx → Pix) (us : ℝ) (hu : 2 < us) (zm : Bool) (mo : Option ℤ) :
    ∃ dx dy : ℝ, registerImagesAny cfg im1 im2 us false false zm mo = .ok [.num dx, .num dy] ∧
      (∃ z : ℤ, dx = z / us) ∧ (∃ z : ℤ, dy = z / us) ∧ |dx| ≤ nx / 2 + (3 / 4 + 1 / us) ∧ |dy| ≤ ny / 2 + (3 / 4 + 1 / us) := by
  have hu0 : 0 < us := by linarith
  have hs0 : NeZero ⌈us * (3 / 2)⌉₊ := ⟨refineSizeAny_pos hu0⟩
  set A := cArr (dft fun p => (prep zm im1 p : ℂ)) with hA
  set B := cArr (dft fun p => (prep zm im2 p : ℂ)) with hB
  obtain ⟨half, hhalf⟩ : ∃ half, half = dftregHalfAny ⟨cfg.hasFftw, false, 1⟩ A B mo := ⟨_, rfl⟩
  obtain ⟨loc2, c, -, h2, -⟩ := dftregRefineAny_eq (prep zm im1) (prep zm im2) hu0 half.row half.col
  have hfit : dftregFitAny ⟨cfg.hasFftw, false, 1⟩ A B us mo
      = .ok ⟨Spec.oneAxis ny (refineAtAny us half.row loc2.1), Spec.oneAxis nx (refineAtAny us half.col loc2.2), c⟩ := by
    unfold dftregFitAny
    rw [if_neg (by linarith), if_neg (by linarith)]
    simp only [hu, if_true, ← hhalf]
    rw [hA, hB, h2]
    rfl
  have habs : ∀ (n i : ℕ), i < 2 * n → |(wrapPeak (2 * n) i : ℝ) / 2| ≤ n / 2 := by
    intro n i hi
    have h := wrapPeak_range (2 * n) i hi
    have h1 : -(n : ℤ) ≤ wrapPeak (2 * n) i := by omega
    have h2 : wrapPeak (2 * n) i ≤ (n : ℤ) := by omega
    have h1' : -(n : ℝ) ≤ wrapPeak (2 * n) i := by exact_mod_cast h1
    have h2' : (wrapPeak (2 * n) i : ℝ) ≤ n := by exact_mod_cast h2
    rw [abs_le]; constructor <;> linarith
  have hr : |half.row| ≤ ny / 2 := by rw [hhalf]; exact habs ny _ (Fin.isLt _)
  have hc : |half.col| ≤ nx / 2 := by rw [hhalf]; exact habs nx _ (Fin.isLt _)
  have key : ∀ (n : ℕ) (r : ℝ) (i : ℕ), |r| ≤ n / 2 → i < ⌈us * (3 / 2)⌉₊ →
      (∃ z : ℤ, -Spec.oneAxis n (refineAtAny us r i) = z / us) ∧ |(-Spec.oneAxis n (refineAtAny us r i))| ≤ n / 2 + (3 / 4 + 1 / us) := by
    intro n r i h hi
    unfold Spec.oneAxis
    split_ifs with h1
    · refine ⟨⟨0, by simp⟩, ?_⟩
      rw [neg_zero, abs_zero]; positivity
    · refine ⟨?_, ?_⟩
      · unfold refineAtAny
        generalize ⌈us * (3 / 2)⌉₊ / 2 = s
        refine ⟨-(pyRound (r * us) + ((i : ℤ) - (s : ℤ))), ?_⟩
        push_cast
        field_simp
      · rw [abs_neg]
        have h3 := refineAtAny_near hu0 r i hi
        have h4 := abs_add_le (refineAtAny us r i - r) r
        rw [sub_add_cancel] at h4
        linarith
  obtain ⟨ky1, ky2⟩ := key ny _ _ hr loc2.1.isLt
  obtain ⟨kx1, kx2⟩ := key nx _ _ hc loc2.2.isLt
  refine ⟨_, _, ?_, kx1, ky1, kx2, ky2⟩
  rw [registerAny_ok cfg im1 im2 us false false zm mo _ hfit (by simp)]
  simp

/-- C146: a fractional factor cannot report what is not a multiple of `1/us`: if `us·d` is not an integer, no pair of images is ever reported as
displaced by `d` along that axis — not even an image and its own roll by `d` pixels (`us = 2.5`, `d = 1`). -/
theorem C146_fraction_never_whole (cfg : FFTConfig) (im1 im2 : Fin ny × Fin nx → Pix) (us : ℝ) (hu : 2 < us) (hy : 2 ≤ ny) (hx : 2 ≤ nx) (zm : Bool)
    (d : ℝ) (hd : ¬ ∃ z : ℤ, us * d = z) (v : ℝ) :
    registerImagesAny cfg im1 im2 us false false zm none ≠ .ok [.num d, .num v] ∧
    registerImagesAny cfg im1 im2 us false false zm none ≠ .ok [.num v, .num d] := by
  obtain ⟨dx, dy, row2, col2, h, -, -, ⟨z, hz⟩, ⟨w, hw⟩, -⟩ := C146_above_two cfg im1 im2 us hu hy hx zm
  have h' := h false
  simp only [Bool.false_eq_true, if_false, List.append_nil] at h'
  have hu0 : us ≠ 0 := by linarith
  constructor <;> intro he <;> rw [h'] at he <;> simp only [Except.ok.injEq, List.cons.injEq, RegVal.num.injEq, and_true] at he
  · exact hd ⟨z, by rw [← he.1, hz]; field_simp⟩
  · exact hd ⟨w, by rw [← he.2, hw]; field_simp⟩

/-- the hypothesis of `C146_fraction_never_whole` is met by `us = 2.5` and odd displacements -/
example (d : ℤ) (h : Odd d) : ¬ ∃ z : ℤ, (5 / 2 : ℝ) * (d : ℝ) = z := by
  rintro ⟨z, hz⟩
  obtain ⟨k, rfl⟩ := h
  have : (5 : ℝ) * (2 * k + 1) = 2 * z := by push_cast at hz; linarith
  have h2 : 5 * (2 * k + 1) = 2 * z := by exact_mod_cast this
  omega

/-! ### negative `maxoff` -/

theorem zeroSlice_none_of_small {m n j : ℕ} (hj : 0 < j) (hm : 2 * j ≤ m) (hn : 2 * j ≤ n) (cc : Fin m × Fin n → CPix) :
    zeroSlice (some (-(j : ℤ))) cc = cc := by
  classical
  funext i
  have h1 := inSlice_neg m j i.1 hj i.1.isLt
  have h2 := inSlice_neg n j i.2 hj i.2.isLt
  show (if inSlice m (-(j : ℤ)) i.1 ∨ inSlice n (-(j : ℤ)) i.2 then some 0 else cc i) = cc i
  rw [if_neg]
  rw [h1, h2]
  omega

theorem zeroSlice_all {m n j : ℕ} (hj : 0 < j) (h : m ≤ j ∨ n ≤ j) (cc : Fin m × Fin n → CPix) :
    zeroSlice (some (-(j : ℤ))) cc = fun _ => some 0 := by
  classical
  funext i
  have h1 := inSlice_neg m j i.1 hj i.1.isLt
  have h2 := inSlice_neg n j i.2 hj i.2.isLt
  show (if inSlice m (-(j : ℤ)) i.1 ∨ inSlice n (-(j : ℤ)) i.2 then some 0 else cc i) = some 0
  rw [if_pos]
  rw [h1, h2]
  have := i.1.isLt
  have := i.2.isLt
  omega

theorem zeroSlice_mirror {m n j : ℕ} (hj : 0 < j) (hjn : j < n) (hmn : m = n) (cc : Fin m × Fin n → CPix) :
    zeroSlice (some (-(j : ℤ))) cc = zeroSlice (some ((n : ℤ) - j)) cc := by
  classical
  subst hmn
  have hk : ((m : ℤ) - j) = ((m - j : ℕ) : ℤ) := by omega
  rw [hk]
  funext i
  have h1 := inSlice_neg m j i.1 hj i.1.isLt
  have h2 := inSlice_neg m j i.2 hj i.2.isLt
  have h3 := inSlice_nat m (m - j) i.1
  have h4 := inSlice_nat m (m - j) i.2
  unfold inMiddle at h3 h4
  show (if inSlice m (-(j : ℤ)) i.1 ∨ inSlice m (-(j : ℤ)) i.2 then some 0 else cc i)
    = if inSlice m ((m - j : ℕ) : ℤ) i.1 ∨ inSlice m ((m - j : ℕ) : ℤ) i.2 then some 0 else cc i
  have : (inSlice m (-(j : ℤ)) i.1 ∨ inSlice m (-(j : ℤ)) i.2) ↔ (inSlice m ((m - j : ℕ) : ℤ) i.1 ∨ inSlice m ((m - j : ℕ) : ℤ) i.2) := by
    rw [h1, h2, h3, h4]; omega
  simp only [this]

/-- How many correlation pixels per image pixel the first search has. -/
noncomputable def Spec.densityAny (us : ℝ) : ℕ := open Classical in if us = 1 then 1 else 2

theorem registerAny_congr (cfg : FFTConfig) (im1 im2 : Fin ny × Fin nx → Pix) (us : ℝ) (rr re zm : Bool) (mo mo' : Option ℤ)
    (h : ∀ A B : Fin ny × Fin nx → CPix, dftregFitAny ⟨cfg.hasFftw, false, 1⟩ A B us mo = dftregFitAny ⟨cfg.hasFftw, false, 1⟩ A B us mo') :
    registerImagesAny cfg im1 im2 us rr re zm mo = registerImagesAny cfg im1 im2 us rr re zm mo' := by
  unfold registerImagesAny dftregistrationAny
  simp only [h]

theorem fitAny_congr (cfg : FFTConfig) (A B : Fin ny × Fin nx → CPix) (us : ℝ) (mo mo' : Option ℤ)
    (h : ∀ cc : Fin (Spec.densityAny us * ny) × Fin (Spec.densityAny us * nx) → CPix, zeroSlice mo cc = zeroSlice mo' cc) :
    dftregFitAny cfg A B us mo = dftregFitAny cfg A B us mo' := by
  unfold dftregFitAny
  by_cases h0 : us = 0
  · simp [h0]
  by_cases h1 : us = 1
  · have hd : Spec.densityAny us = 1 := by unfold Spec.densityAny; rw [if_pos h1]
    rw [hd, one_mul, one_mul] at h
    rw [if_neg h0, if_pos h1, if_neg h0, if_pos h1]
    unfold dftregWholeAny
    simp only [h]
  · have hd : Spec.densityAny us = 2 := by unfold Spec.densityAny; rw [if_neg h1]
    rw [hd] at h
    rw [if_neg h0, if_neg h1, if_neg h0, if_neg h1]
    unfold dftregHalfAny
    simp only [h]

/-- C146: a negative `maxoff` of at most half of the searched correlation (`n/2` for `usfac=1`, `n` otherwise) is no limit at all. -/
theorem C146_negative_maxoff_none (cfg : FFTConfig) (im1 im2 : Fin ny × Fin nx → Pix) (us : ℝ) (rr re zm : Bool) (j : ℕ) (hj : 0 < j)
    (hjy : 2 * j ≤ Spec.densityAny us * ny) (hjx : 2 * j ≤ Spec.densityAny us * nx) :
    registerImagesAny cfg im1 im2 us rr re zm (some (-(j : ℤ))) = registerImagesAny cfg im1 im2 us rr re zm none :=
  registerAny_congr cfg im1 im2 us rr re zm _ _ fun A B => fitAny_congr _ A B us _ _ fun cc => zeroSlice_none_of_small hj hjy hjx cc

/-- C146: on square images a negative `maxoff = -j` means `maxoff = N - j`, `N` the size of the searched correlation (`n` for `usfac=1`, `2n`
otherwise): it counts from the far end. -/
theorem C146_negative_maxoff_mirror {n : ℕ} [NeZero n] (cfg : FFTConfig) (im1 im2 : Fin n × Fin n → Pix) (us : ℝ) (rr re zm : Bool) (j : ℕ)
    (hj : 0 < j) (hjn : j < Spec.densityAny us * n) :
    registerImagesAny cfg im1 im2 us rr re zm (some (-(j : ℤ)))
      = registerImagesAny cfg im1 im2 us rr re zm (some ((Spec.densityAny us * n : ℕ) - (j : ℤ))) :=
  registerAny_congr cfg im1 im2 us rr re zm _ _ fun A B => fitAny_congr _ A B us _ _ fun cc => zeroSlice_mirror hj hjn rfl cc

/-- C146: a negative `maxoff` as large as one of the axes of the searched correlation erases all of it: `[0, 0]` is reported for every pair of images
(for every `usfac ≠ 0` up to 2). -/
theorem C146_negative_maxoff_zero (cfg : FFTConfig) (im1 im2 : Fin ny × Fin nx → Pix) (us : ℝ) (h0 : us ≠ 0) (h2 : us ≤ 2) (zm : Bool) (j : ℕ)
    (hj : Spec.densityAny us * ny ≤ j ∨ Spec.densityAny us * nx ≤ j) :
    registerImagesAny cfg im1 im2 us false false zm (some (-(j : ℤ))) = .ok [.num 0, .num 0] := by
  have argmax0 : ∀ {m n : ℕ} [NeZero m] [NeZero n], absArgmax (fun _ : Fin m × Fin n => (some 0 : CPix)) = (0, 0) := by
    intro m n _ _
    show Np.argmax (finiteVals (Np.abs fun _ : Fin m × Fin n => (some 0 : CPix))) = (0, 0)
    have e : finiteVals (Np.abs fun _ : Fin m × Fin n => (some 0 : CPix)) = fun _ : Fin m × Fin n => (0 : ℝ) := by
      funext i; simp [finiteVals, Np.abs]
    rw [e]
    refine Np.argmax_eq ⟨fun j => le_rfl, fun j _ => ?_⟩
    simp [Np.flat]
  have hypos := Nat.pos_of_ne_zero (NeZero.ne ny)
  have hxpos := Nat.pos_of_ne_zero (NeZero.ne nx)
  by_cases h1 : us = 1
  · have hd : Spec.densityAny us = 1 := by unfold Spec.densityAny; rw [if_pos h1]
    rw [hd, one_mul, one_mul] at hj
    rw [registerAny_ok cfg im1 im2 us false false zm _ ⟨0, 0, 0⟩ ?_ (by simp)]
    · simp
    · unfold dftregFitAny
      rw [if_neg h0, if_pos h1]
      unfold dftregWholeAny
      simp only [zeroSlice_all (by omega : 0 < j) hj, argmax0]
      simp [wrapPeak]
  · have hd : Spec.densityAny us = 2 := by unfold Spec.densityAny; rw [if_neg h1]
    rw [hd] at hj
    rw [registerAny_ok cfg im1 im2 us false false zm _ ⟨0, 0, 0⟩ ?_ (by simp)]
    · simp
    · unfold dftregFitAny
      rw [if_neg h0, if_neg h1]
      unfold dftregHalfAny
      simp only [zeroSlice_all (by omega : 0 < j) hj, argmax0, if_neg (not_lt.2 h2)]
      simp [wrapPeak, bind, Except.bind, pure, Except.pure]

end

end ImgReg
