import Verif.Props.RegisterMore
import Verif.Props.CrossCorrSymm

/-!
# Symmetries of `register_images` (C119)

Brightness, rolling both images, exchanging the images; what is returned when one displacement is best.
-/

open Complex Finset
open scoped ComplexConjugate

namespace ImgReg

section
variable {ny nx : ℕ} [NeZero ny] [NeZero nx]

/-! ### the shift depends on the modulus of the correlation only -/

theorem kept_smul {m n : ℕ} (mo : Option ℕ) (s : ℝ) (f : Fin m × Fin n → ℝ) :
    Spec.kept mo (fun i => s * f i) = fun i => s * Spec.kept mo f i := by
  classical
  funext i
  unfold Spec.kept
  split_ifs
  · rw [mul_zero]
  · rfl

theorem dftregFit_congr (cfg : FFTConfig) (a b a' b' : Fin ny × Fin nx → ℝ) (usfac : ℕ) (hu : 1 ≤ usfac) (mo : Option ℕ) (s : ℝ)
    (hs : 0 < s) (h : ∀ t u, ‖Spec.cc a' b' t u‖ = s * ‖Spec.cc a b t u‖) :
    ∃ fit fit', dftregFit cfg (cArr (dft fun p => (a p : ℂ))) (cArr (dft fun p => (b p : ℂ))) usfac mo = .ok fit ∧
      dftregFit cfg (cArr (dft fun p => (a' p : ℂ))) (cArr (dft fun p => (b' p : ℂ))) usfac mo = .ok fit' ∧
      fit'.row = fit.row ∧ fit'.col = fit.col := by
  obtain rfl | rfl | hgt : usfac = 1 ∨ usfac = 2 ∨ 2 < usfac := by omega
  · obtain ⟨loc, fit, hl, hfit, hr, hc⟩ := dftregFit_one cfg a b mo
    obtain ⟨loc', fit', hl', hfit', hr', hc'⟩ := dftregFit_one cfg a' b' mo
    simp only [h, kept_smul, argmax_smul s hs] at hl'
    obtain rfl := hl'.trans hl.symm
    exact ⟨fit, fit', hfit, hfit', hr'.trans hr.symm, hc'.trans hc.symm⟩
  · obtain ⟨loc, fit, hl, hfit, hr, hc⟩ := dftregFit_two cfg a b mo
    obtain ⟨loc', fit', hl', hfit', hr', hc'⟩ := dftregFit_two cfg a' b' mo
    simp only [h, kept_smul, argmax_smul s hs] at hl'
    obtain rfl := hl'.trans hl.symm
    exact ⟨fit, fit', hfit, hfit', hr'.trans hr.symm, hc'.trans hc.symm⟩
  · have : NeZero ⌈(usfac : ℝ) * (3 / 2)⌉₊ := ⟨refineSize_pos usfac (by omega)⟩
    obtain ⟨loc, row2, col2, hl, er, ec, loc2, fit, hl2, hfit, hr, hc⟩ := dftregFit_gt cfg a b mo usfac hgt
    obtain ⟨loc', row2', col2', hl', er', ec', loc2', fit', hl2', hfit', hr', hc'⟩ := dftregFit_gt cfg a' b' mo usfac hgt
    simp only [h, kept_smul, argmax_smul s hs] at hl' hl2'
    obtain rfl := hl'.trans hl.symm
    obtain rfl := er'.trans er.symm
    obtain rfl := ec'.trans ec.symm
    obtain rfl := hl2'.trans hl2.symm
    exact ⟨fit, fit', hfit, hfit', hr'.trans hr.symm, hc'.trans hc.symm⟩

/-- same shifts, and the registered images are those of the two second images for these shifts -/
theorem registerImages_congr (cfg : FFTConfig) (im1 im2 im1' im2' : Fin ny × Fin nx → Pix) (usfac : ℕ) (zm : Bool) (mo : Option ℕ)
    (s : ℝ) (hs : 0 < s)
    (h : ∀ t u, ‖Spec.cc (prep zm im1') (prep zm im2') t u‖ = s * ‖Spec.cc (prep zm im1) (prep zm im2) t u‖) (re : Bool) :
    registerImages cfg im1' im2' usfac false re zm mo = registerImages cfg im1 im2 usfac false re zm mo := by
  rcases Nat.eq_zero_or_pos usfac with rfl | hu
  · rw [C48_usfac_zero, C48_usfac_zero]
  · obtain ⟨fit, fit', h1, h2, hr, hc⟩ := dftregFit_congr ⟨cfg.hasFftw, false, 1⟩ _ _ _ _ usfac hu mo s hs h
    rw [registerImages_same, registerImages_same, registerBody_ok cfg _ _ usfac _ _ zm mo fit h1,
      registerBody_ok cfg _ _ usfac _ _ zm mo fit' h2, hr, hc]
    rfl

/-! ### brightness -/

theorem cshift_smul (k t u : ℝ) (b : Fin ny × Fin nx → ℝ) (p : Fin ny × Fin nx) :
    cshift t u (fun p => k * b p) p = k * cshift t u b p := by
  unfold cshift filt
  have : dft (fun i => (((k * b i : ℝ)) : ℂ)) = fun j => (k : ℂ) * dft (fun i => (b i : ℂ)) j := by
    have e : (fun i => (((k * b i : ℝ)) : ℂ)) = fun i => (k : ℂ) * (b i : ℂ) := by funext i; push_cast; ring
    rw [e, dft_smul]
  rw [this]
  have e2 : (fun j => (k : ℂ) * dft (fun i => (b i : ℂ)) j * ex (-(freq2 u t j)))
      = fun j => (k : ℂ) * (dft (fun i => (b i : ℂ)) j * ex (-(freq2 u t j))) := by
    funext j; ring
  rw [e2, idft_smul]

theorem cc_smul (k m : ℝ) (a b : Fin ny × Fin nx → ℝ) (t u : ℝ) :
    Spec.cc (fun p => k * a p) (fun p => m * b p) t u = ((k * m : ℝ) : ℂ) * Spec.cc a b t u := by
  unfold Spec.cc
  rw [Finset.mul_sum]
  refine Finset.sum_congr rfl fun p _ => ?_
  rw [cshift_smul, map_mul, Complex.conj_ofReal]
  push_cast; ring

/-- C119: brightness and background do not matter. With `zeromean` (the default), replacing the images by `k1·im1 + c1` and `k2·im2 + c2`
with non-zero factors (of any sign) changes nothing in the shifts and errors reported, for every `usfac` and `maxoff`; without `zeromean`
the same holds for `c1 = c2 = 0`. -/
theorem C119_brightness (cfg : FFTConfig) (im1 im2 : Fin ny × Fin nx → Pix) (usfac : ℕ) (re zm : Bool) (mo : Option ℕ)
    (k1 k2 c1 c2 : ℝ) (hk1 : k1 ≠ 0) (hk2 : k2 ≠ 0) (hz : zm = true ∨ (c1 = 0 ∧ c2 = 0)) :
    registerImages cfg (fun p => (im1 p).map fun v => k1 * v + c1) (fun p => (im2 p).map fun v => k2 * v + c2) usfac false re zm mo
      = registerImages cfg im1 im2 usfac false re zm mo := by
  refine registerImages_congr cfg _ _ _ _ usfac zm mo |k1 * k2| (abs_pos.2 (mul_ne_zero hk1 hk2)) (fun t u => ?_) re
  rw [prep_affine k1 c1 zm (hz.imp_right And.left), prep_affine k2 c2 zm (hz.imp_right And.right), cc_smul, norm_mul,
    Complex.norm_real, Real.norm_eq_abs]

/-- C119: the registered image is multiplied by `|k2|` under the same change. -/
theorem C119_brightness_registered (cfg : FFTConfig) (im1 im2 : Fin ny × Fin nx → Pix) (usfac : ℕ) (hu : 1 ≤ usfac) (zm : Bool)
    (mo : Option ℕ) (k1 k2 c1 c2 : ℝ) (hk1 : k1 ≠ 0) (hk2 : k2 ≠ 0) (hz : zm = true ∨ (c1 = 0 ∧ c2 = 0)) :
    ∃ (dx dy : ℝ) (img : Fin ny × Fin nx → ℝ),
      registerImages cfg im1 im2 usfac true false zm mo = .ok [.num dx, .num dy, .image (realArr img)] ∧
      registerImages cfg (fun p => (im1 p).map fun v => k1 * v + c1) (fun p => (im2 p).map fun v => k2 * v + c2) usfac true false zm mo
        = .ok [.num dx, .num dy, .image (realArr fun p => |k2| * img p)] := by
  obtain ⟨dx, dy, h⟩ := C49_registered_image cfg im1 im2 usfac hu zm mo
  obtain ⟨dx', dy', h'⟩ := C49_registered_image cfg (fun p => (im1 p).map fun v => k1 * v + c1) (fun p => (im2 p).map fun v => k2 * v + c2)
    usfac hu zm mo
  obtain ⟨x, y, im, hl⟩ := C48_layout cfg im1 im2 usfac hu zm mo
  obtain ⟨x', y', im', hl'⟩ := C48_layout cfg (fun p => (im1 p).map fun v => k1 * v + c1) (fun p => (im2 p).map fun v => k2 * v + c2)
    usfac hu zm mo
  have e1 := (hl true false).symm.trans h
  have e2 := (hl' true false).symm.trans h'
  have e3 := (hl' false false).symm.trans ((C119_brightness cfg im1 im2 usfac false zm mo k1 k2 c1 c2 hk1 hk2 hz).trans (hl false false))
  simp only [Bool.false_eq_true, if_false, if_true, List.append_nil, List.cons_append, List.nil_append, Except.ok.injEq, List.cons.injEq,
    RegVal.num.injEq, RegVal.image.injEq, and_true] at e1 e2 e3
  obtain ⟨a1, a2, -⟩ := e1
  obtain ⟨b1, b2, -⟩ := e2
  obtain ⟨g1, g2⟩ := e3
  obtain rfl : dx' = dx := by rw [← b1, g1, a1]
  obtain rfl : dy' = dy := by rw [← b2, g2, a2]
  refine ⟨dx', dy', _, h, ?_⟩
  rw [h']
  congr 5
  funext p
  show some _ = some _
  congr 1
  beta_reduce
  rw [prep_affine k2 c2 zm (hz.imp_right And.right), cshift_smul, norm_mul, Complex.norm_real, Real.norm_eq_abs]

/-! ### rolling both images -/

theorem roll2_cshift (dy dx : ℤ) (t u : ℝ) (b : Fin ny × Fin nx → ℝ) (p : Fin ny × Fin nx) :
    cshift t u (Spec.roll2 dy dx b) p = Spec.roll2 dy dx (cshift t u b) p := by
  rw [cshift_cshift t u dy dx (Spec.roll2 dy dx b) b fun p => (cshift_int dy dx b p).symm]
  have h : Spec.roll2 dy dx (cshift t u b) p = filt (fun k => conj (e k (Spec.wrap ny dy, Spec.wrap nx dx))) (cshift t u b) p := by
    rw [filt_conj_e]
    unfold Spec.roll2
    rw [Spec.wrap_sub, Spec.wrap_sub]; rfl
  rw [h]
  unfold cshift
  rw [filt_filt]
  congr 1
  funext k
  rw [← ex_freq2_int, freq2_add, ← ex_add]
  congr 1; ring

theorem cc_common_roll (dy dx : ℤ) (a b : Fin ny × Fin nx → ℝ) (t u : ℝ) :
    Spec.cc (Spec.roll2 dy dx a) (Spec.roll2 dy dx b) t u = Spec.cc a b t u := by
  unfold Spec.cc
  simp only [roll2_cshift]
  symm
  refine Fintype.sum_bijective _ (Spec.move_bijective dy dx) _ _ fun p => ?_
  rw [Spec.roll2_move, Spec.roll2_move]

/-- C119: rolling both images by the same whole-pixel amount changes nothing in the shifts and errors reported. -/
theorem C119_common_roll (cfg : FFTConfig) (im1 im2 : Fin ny × Fin nx → Pix) (usfac : ℕ) (re zm : Bool) (mo : Option ℕ) (dy dx : ℤ) :
    registerImages cfg (Spec.roll2 dy dx im1) (Spec.roll2 dy dx im2) usfac false re zm mo
      = registerImages cfg im1 im2 usfac false re zm mo := by
  refine registerImages_congr cfg _ _ _ _ usfac zm mo 1 one_pos (fun t u => ?_) re
  rw [prep_roll2, prep_roll2, cc_common_roll, one_mul]

/-! ### the best displacement, when there is one -/

/-- `(t0, u0)` is clearly the best displacement for the strength `F`. With `q = 1` for `usfac = 1` and `q = 2` otherwise, the coarse
displacements are the multiples of `1/q`; the best one within half the image (the ends `n/2` included), `(row2, col2)`, is unique and lies
inside. For `usfac ≤ 2` it is `(t0, u0)`. For larger `usfac`, `(t0, u0)` is a multiple of `1/usfac` within half a pixel of it, and better
than every other one within a pixel. -/
structure Spec.ClearMatch (F : ℝ → ℝ → ℝ) (ny nx usfac : ℕ) (row2 col2 t0 u0 : ℝ) : Prop where
  coarse : ∃ j k : ℤ, row2 = j / Spec.density usfac ∧ col2 = k / Spec.density usfac ∧
    |2 * row2| < ny ∧ |2 * col2| < nx ∧
    ∀ j' k' : ℤ, |2 * ((j' : ℝ) / Spec.density usfac)| ≤ ny → |2 * ((k' : ℝ) / Spec.density usfac)| ≤ nx → (j', k') ≠ (j, k) →
      F (j' / Spec.density usfac) (k' / Spec.density usfac) < F row2 col2
  fine : if usfac ≤ 2 then t0 = row2 ∧ u0 = col2 else
    (∃ z : ℤ, t0 = z / usfac) ∧ (∃ z : ℤ, u0 = z / usfac) ∧ |t0 - row2| ≤ 1 / 2 ∧ |u0 - col2| ≤ 1 / 2 ∧
    ∀ z w : ℤ, |(z : ℝ) / usfac - row2| ≤ 1 → |(w : ℝ) / usfac - col2| ≤ 1 → ((z : ℝ) / usfac, (w : ℝ) / usfac) ≠ (t0, u0) →
      F (z / usfac) (w / usfac) < F t0 u0

theorem refineGrid_near (usfac : ℕ) (hu : 2 < usfac) (j : ℤ) (t : ℝ) (h : t ∈ Spec.refineGrid usfac ((j : ℝ) / 2)) :
    (∃ z : ℤ, t = z / usfac) ∧ |t - (j : ℝ) / 2| ≤ 1 := by
  obtain ⟨i, hi, ht⟩ := h
  have hu0 : (0 : ℝ) < usfac := by exact_mod_cast (by omega : 0 < usfac)
  have hS1 : 3 * usfac ≤ 2 * ⌈(usfac : ℝ) * (3 / 2)⌉₊ := by
    have := Nat.le_ceil ((usfac : ℝ) * (3 / 2))
    have : (3 * usfac : ℝ) ≤ 2 * (⌈(usfac : ℝ) * (3 / 2)⌉₊ : ℝ) := by linarith
    exact_mod_cast this
  have hS2 : 2 * ⌈(usfac : ℝ) * (3 / 2)⌉₊ ≤ 3 * usfac + 1 := by
    have := Nat.ceil_lt_add_one (show 0 ≤ (usfac : ℝ) * (3 / 2) by positivity)
    have : 2 * (⌈(usfac : ℝ) * (3 / 2)⌉₊ : ℝ) < 3 * usfac + 2 := by linarith
    have : 2 * ⌈(usfac : ℝ) * (3 / 2)⌉₊ < 3 * usfac + 2 := by exact_mod_cast this
    omega
  have hP := abs_pyRound_sub ((j : ℝ) / 2 * usfac)
  generalize ⌈(usfac : ℝ) * (3 / 2)⌉₊ = S at *
  generalize pyRound ((j : ℝ) / 2 * usfac) = P at *
  have hP2 : |2 * P - j * usfac| ≤ 1 := by
    have : |((2 * P - j * usfac : ℤ) : ℝ)| ≤ 1 := by
      push_cast
      rw [show (2 : ℝ) * P - j * usfac = 2 * ((P : ℝ) - j / 2 * usfac) by ring, abs_mul]
      norm_num; linarith
    exact_mod_cast this
  obtain ⟨H, hH⟩ : ∃ H, H = S / 2 := ⟨_, rfl⟩
  rw [← hH] at ht
  refine ⟨⟨P + i - H, ?_⟩, ?_⟩
  · rw [ht]; push_cast; ring
  · have hint : |2 * P - j * usfac + 2 * ((i : ℤ) - H)| ≤ 2 * (usfac : ℤ) := by
      generalize j * (usfac : ℤ) = w at *
      rw [abs_le] at hP2 ⊢
      omega
    have hr : |((2 * P - j * usfac + 2 * ((i : ℤ) - H) : ℤ) : ℝ)| ≤ 2 * (usfac : ℝ) := by exact_mod_cast hint
    have : t - (j : ℝ) / 2 = ((2 * P - j * usfac + 2 * ((i : ℤ) - H) : ℤ) : ℝ) / (2 * usfac) := by
      rw [ht]; push_cast; field_simp; ring
    rw [this, abs_div, abs_of_pos (by positivity : (0 : ℝ) < 2 * usfac)]
    exact (div_le_one (by positivity)).2 hr

theorem half_mem_refineGrid (usfac : ℕ) (hu : 2 < usfac) (j z : ℤ) (h : |(z : ℝ) / usfac - (j : ℝ) / 2| ≤ 1 / 2) :
    (z : ℝ) / usfac ∈ Spec.refineGrid usfac ((j : ℝ) / 2) := by
  have hu0 : (0 : ℝ) < usfac := by exact_mod_cast (by omega : 0 < usfac)
  have hS1 : 3 * usfac ≤ 2 * ⌈(usfac : ℝ) * (3 / 2)⌉₊ := by
    have := Nat.le_ceil ((usfac : ℝ) * (3 / 2))
    have : (3 * usfac : ℝ) ≤ 2 * (⌈(usfac : ℝ) * (3 / 2)⌉₊ : ℝ) := by linarith
    exact_mod_cast this
  have hP := abs_pyRound_sub ((j : ℝ) / 2 * usfac)
  unfold Spec.refineGrid
  generalize ⌈(usfac : ℝ) * (3 / 2)⌉₊ = S at *
  generalize pyRound ((j : ℝ) / 2 * usfac) = P at *
  have hP2 : |2 * P - j * usfac| ≤ 1 := by
    have : |((2 * P - j * usfac : ℤ) : ℝ)| ≤ 1 := by
      push_cast
      rw [show (2 : ℝ) * P - j * usfac = 2 * ((P : ℝ) - j / 2 * usfac) by ring, abs_mul]
      norm_num; linarith
    exact_mod_cast this
  have hz : |2 * z - j * usfac| ≤ (usfac : ℤ) := by
    have : |((2 * z - j * usfac : ℤ) : ℝ)| ≤ (usfac : ℝ) := by
      push_cast
      rw [show (2 : ℝ) * z - j * usfac = (z / usfac - j / 2) * (2 * usfac) by field_simp, abs_mul,
        abs_of_pos (by positivity : (0 : ℝ) < 2 * usfac)]
      calc |(z : ℝ) / usfac - (j : ℝ) / 2| * (2 * usfac) ≤ 1 / 2 * (2 * usfac) := by gcongr
        _ = usfac := by ring
    exact_mod_cast this
  obtain ⟨H, hH⟩ : ∃ H, H = S / 2 := ⟨_, rfl⟩
  rw [← hH]
  have hi : 0 ≤ z - P + H ∧ z - P + H < S := by
    generalize j * (usfac : ℤ) = w at *
    rw [abs_le] at hP2 hz
    omega
  refine ⟨(z - P + H).toNat, by omega, ?_⟩
  have : (((z - P + H).toNat : ℕ) : ℝ) = (z : ℝ) - P + H := by
    have h1 : (((z - P + H).toNat : ℕ) : ℤ) = z - P + H := Int.toNat_of_nonneg hi.1
    have h2 : ((((z - P + H).toNat : ℕ) : ℤ) : ℝ) = ((z - P + H : ℤ) : ℝ) := by rw [h1]
    push_cast at h2
    exact h2
  rw [this]; field_simp; ring

/-- C119: when one displacement is clearly the best match, `register_images` returns it (with the sign of a displacement of image 2
relative to image 1), for every `usfac ≥ 1`. -/
theorem C119_clear_match (cfg : FFTConfig) (im1 im2 : Fin ny × Fin nx → Pix) (usfac : ℕ) (hu : 1 ≤ usfac)
    (hsz : usfac = 1 ∨ (2 ≤ ny ∧ 2 ≤ nx)) (zm : Bool) (row2 col2 t0 u0 : ℝ)
    (h : Spec.ClearMatch (fun t u => ‖Spec.cc (prep zm im1) (prep zm im2) t u‖) ny nx usfac row2 col2 t0 u0) :
    registerImages cfg im1 im2 usfac false false zm none = .ok [.num (-u0), .num (-t0)] := by
  obtain ⟨⟨j, k, hj, hk, hjr, hkr, hbest⟩, hfine⟩ := h
  obtain rfl | rfl | hgt : usfac = 1 ∨ usfac = 2 ∨ 2 < usfac := by omega
  · obtain ⟨dx, dy, h1, h2⟩ := C46_whole_pixel cfg im1 im2 zm
    obtain ⟨dx', dy', h3, -, -, h4, -⟩ := C45_grid_and_range cfg im1 im2 1 le_rfl zm none
    have e := Except.ok.inj (h1.symm.trans h3)
    simp only [List.cons.injEq, RegVal.num.injEq, and_true] at e
    rw [← e.1, ← e.2] at h4
    obtain ⟨⟨a1, a2⟩, a3, a4⟩ := h4 (by norm_num)
    rw [if_pos (by norm_num)] at hfine
    simp only [Spec.density, if_true, Nat.cast_one, div_one] at hj hk hbest
    have hne : ((-dy, -dx) : ℤ × ℤ) = (j, k) := by
      by_contra hne
      have := hbest (-dy) (-dx) (by push_cast; rw [abs_le]; constructor <;> linarith)
        (by push_cast; rw [abs_le]; constructor <;> linarith) hne
      have h5 := h2 j k
      push_cast at this h5
      rw [← hj, ← hk] at h5
      linarith
    simp only [Prod.mk.injEq] at hne
    rw [h1, hfine.1, hfine.2, hj, hk, ← hne.1, ← hne.2]
    push_cast
    simp only [neg_neg]
  · obtain ⟨dx, dy, h1, h2⟩ := C46_half_pixel cfg im1 im2 zm
    obtain ⟨dx', dy', h3, -, -, h4, -⟩ := C45_grid_and_range cfg im1 im2 2 (by norm_num) zm none
    have e := Except.ok.inj (h1.symm.trans h3)
    simp only [List.cons.injEq, RegVal.num.injEq, and_true] at e
    rw [← e.1, ← e.2] at h4
    obtain ⟨⟨a1, a2⟩, a3, a4⟩ := h4 le_rfl
    rw [if_pos le_rfl] at hfine
    have hd : ((Spec.density 2 : ℕ) : ℝ) = 2 := by norm_num [Spec.density]
    rw [hd] at hj hk hbest
    have hne : ((-dy, -dx) : ℤ × ℤ) = (j, k) := by
      by_contra hne
      have := hbest (-dy) (-dx) (by push_cast; rw [abs_le]; constructor <;> linarith)
        (by push_cast; rw [abs_le]; constructor <;> linarith) hne
      have h5 := h2 j k
      push_cast at this h5
      rw [← hj, ← hk] at h5
      rw [neg_div, neg_div] at this
      linarith
    simp only [Prod.mk.injEq] at hne
    rw [h1, hfine.1, hfine.2, hj, hk, ← hne.1, ← hne.2]
    push_cast
    simp only [neg_div, neg_neg]
  · obtain ⟨hny, hnx⟩ : 2 ≤ ny ∧ 2 ≤ nx := hsz.resolve_left (by omega)
    obtain ⟨dx, dy, r, c, h1, ⟨j', k', hr, hc, b1, b2, b3, b4⟩, hhalf, hdy, hdx, href⟩ := C46_refinement_maximises cfg im1 im2 usfac hgt hny hnx zm
    have hd : ((Spec.density usfac : ℕ) : ℝ) = 2 := by
      unfold Spec.density; rw [if_neg (by omega)]; norm_num
    rw [hd] at hj hk hbest
    have c1 : -(ny : ℝ) < j' := by exact_mod_cast b1
    have c2 : (j' : ℝ) ≤ ny := by exact_mod_cast b2
    have c3 : -(nx : ℝ) < k' := by exact_mod_cast b3
    have c4 : (k' : ℝ) ≤ nx := by exact_mod_cast b4
    have hne : ((j', k') : ℤ × ℤ) = (j, k) := by
      by_contra hne
      have := hbest j' k' (by rw [abs_le]; constructor <;> linarith) (by rw [abs_le]; constructor <;> linarith) hne
      have h5 := hhalf j k
      rw [← hj, ← hk, hr, hc] at h5
      linarith
    simp only [Prod.mk.injEq] at hne
    obtain ⟨rfl, rfl⟩ := hne
    obtain rfl : r = row2 := hr.trans hj.symm
    obtain rfl : c = col2 := hc.trans hk.symm
    rw [if_neg (by omega)] at hfine
    obtain ⟨⟨z0, hz0⟩, ⟨w0, hw0⟩, d1, d2, hbest2⟩ := hfine
    rw [hr] at hdy d1
    rw [hc] at hdx d2
    have m1 : t0 ∈ Spec.refineGrid usfac r := by
      rw [hr, hz0]; rw [hz0] at d1; exact half_mem_refineGrid usfac hgt j' z0 d1
    have m2 : u0 ∈ Spec.refineGrid usfac c := by
      rw [hc, hw0]; rw [hw0] at d2; exact half_mem_refineGrid usfac hgt k' w0 d2
    obtain ⟨⟨z, hz⟩, n1⟩ := refineGrid_near usfac hgt j' _ hdy
    obtain ⟨⟨w, hw⟩, n2⟩ := refineGrid_near usfac hgt k' _ hdx
    have h6 := href t0 m1 u0 m2
    have heq : ((z : ℝ) / usfac, (w : ℝ) / usfac) = (t0, u0) := by
      by_contra hne
      have := hbest2 z w (by rw [← hz, hr]; exact n1) (by rw [← hw, hc]; exact n2) hne
      rw [hz, hw] at h6
      linarith
    simp only [Prod.mk.injEq] at heq
    rw [h1, ← heq.1, ← heq.2, ← hz, ← hw, neg_neg, neg_neg]

/-! ### exchanging the images -/

theorem cc_exchange (a b : Fin ny × Fin nx → ℝ) (t u : ℝ) : Spec.cc b a t u = conj (Spec.cc a b (-t) (-u)) := by
  rw [cc_fourier, cc_fourier, map_mul, map_div₀, map_one, map_natCast, map_sum]
  congr 1
  refine Finset.sum_congr rfl fun k _ => ?_
  rw [map_mul, map_mul, Complex.conj_conj, conj_ex]
  have : -(freq2 (-u) (-t) k) = freq2 u t k := by unfold freq2; ring
  rw [this]; ring

omit [NeZero ny] [NeZero nx] in
theorem Spec.ClearMatch.neg {F : ℝ → ℝ → ℝ} {usfac : ℕ} {row2 col2 t0 u0 : ℝ} (h : Spec.ClearMatch F ny nx usfac row2 col2 t0 u0) :
    Spec.ClearMatch (fun t u => F (-t) (-u)) ny nx usfac (-row2) (-col2) (-t0) (-u0) := by
  obtain ⟨⟨j, k, hj, hk, hjr, hkr, hbest⟩, hfine⟩ := h
  have ab : ∀ x : ℝ, |2 * -x| = |2 * x| := fun x => by rw [mul_neg, abs_neg]
  have ab2 : ∀ x y : ℝ, |-x - y| = |x - -y| := fun x y => by rw [← abs_neg]; congr 1; ring
  refine ⟨⟨-j, -k, ?_, ?_, ?_, ?_, fun j' k' h1 h2 h3 => ?_⟩, ?_⟩
  · rw [hj]; push_cast; ring
  · rw [hk]; push_cast; ring
  · rw [ab]; exact hjr
  · rw [ab]; exact hkr
  · have := hbest (-j') (-k') (by push_cast; rw [neg_div, ab]; exact h1) (by push_cast; rw [neg_div, ab]; exact h2)
      (fun he => h3 (by simp only [Prod.mk.injEq] at he ⊢; omega))
    push_cast at this
    simpa only [neg_neg, neg_div] using this
  · split_ifs at hfine ⊢ with hc
    · rw [hfine.1, hfine.2]; exact ⟨rfl, rfl⟩
    · obtain ⟨⟨z0, hz0⟩, ⟨w0, hw0⟩, d1, d2, hbest2⟩ := hfine
      refine ⟨⟨-z0, by rw [hz0]; push_cast; ring⟩, ⟨-w0, by rw [hw0]; push_cast; ring⟩, ?_, ?_, fun z w h1 h2 h3 => ?_⟩
      · rw [ab2, neg_neg]; exact d1
      · rw [ab2, neg_neg]; exact d2
      · have := hbest2 (-z) (-w) (by push_cast; rw [neg_div, ab2]; exact h1) (by push_cast; rw [neg_div, ab2]; exact h2)
          (fun he => h3 (by
            simp only [Prod.mk.injEq] at he ⊢
            push_cast at he
            rw [neg_div, neg_div] at he
            exact ⟨by linarith [he.1], by linarith [he.2]⟩))
        push_cast at this
        simpa only [neg_neg, neg_div] using this

/-- C119: exchanging the images negates the reported shift, when one displacement is clearly the best match. -/
theorem C119_exchange (cfg : FFTConfig) (im1 im2 : Fin ny × Fin nx → Pix) (usfac : ℕ) (hu : 1 ≤ usfac)
    (hsz : usfac = 1 ∨ (2 ≤ ny ∧ 2 ≤ nx)) (zm : Bool) (row2 col2 t0 u0 : ℝ)
    (h : Spec.ClearMatch (fun t u => ‖Spec.cc (prep zm im1) (prep zm im2) t u‖) ny nx usfac row2 col2 t0 u0) :
    ∃ dx dy : ℝ, registerImages cfg im1 im2 usfac false false zm none = .ok [.num dx, .num dy] ∧
      registerImages cfg im2 im1 usfac false false zm none = .ok [.num (-dx), .num (-dy)] := by
  refine ⟨-u0, -t0, C119_clear_match cfg im1 im2 usfac hu hsz zm _ _ _ _ h,
    C119_clear_match cfg im2 im1 usfac hu hsz zm (-row2) (-col2) (-t0) (-u0) ?_⟩
  have := h.neg
  simpa only [cc_exchange (prep zm im1) (prep zm im2), RCLike.norm_conj] using this

/-- an image that no candidate displacement reproduces, and its roll by whole pixels less than half the image: the roll is clearly the
best match (so the theorems above apply) -/
theorem clearMatch_roll (a : Fin ny × Fin nx → ℝ) (usfac : ℕ) (hu : 1 ≤ usfac) (hsz : usfac = 1 ∨ (2 ≤ ny ∧ 2 ≤ nx))
    (hid : Spec.identifiable (Spec.candidates usfac) a) (dy dx : ℤ) (hdy : 2 * |dy| < ny) (hdx : 2 * |dx| < nx) :
    Spec.ClearMatch (fun t u => ‖Spec.cc a (Spec.roll2 dy dx a) t u‖) ny nx usfac (-dy) (-dx) (-dy) (-dx) := by
  have hb : ∀ p, ((Spec.roll2 dy dx a p : ℝ) : ℂ) = cshift dy dx a p := fun p => (cshift_int dy dx a p).symm
  have hmax : ‖Spec.cc a (Spec.roll2 dy dx a) (-dy) (-dx)‖ = ∑ p, a p ^ 2 :=
    cc_eq a _ dy dx _ _ hb ⟨⟨0, by push_cast; ring⟩, ⟨0, by push_cast; ring⟩⟩
  have hdyR : 2 * |(dy : ℝ)| < ny := by exact_mod_cast hdy
  have hdxR : 2 * |(dx : ℝ)| < nx := by exact_mod_cast hdx
  have hq1 : (1 : ℝ) ≤ ((Spec.density usfac : ℕ) : ℝ) := by unfold Spec.density; split_ifs <;> norm_num
  have hq0 : ((Spec.density usfac : ℕ) : ℝ) ≠ 0 := by linarith
  have hu0 : (0 : ℝ) < usfac := by exact_mod_cast hu
  -- a small multiple of the size is 0
  have small : ∀ (n : ℕ) [NeZero n] (x : ℝ) (z : ℤ), |x| < n → x = z * n → x = 0 := by
    intro n _ x z h1 h2
    have hn : (0 : ℝ) < n := by exact_mod_cast Nat.pos_of_ne_zero (NeZero.ne n)
    rw [h2, abs_mul, abs_of_pos hn] at h1
    have h3 : |(z : ℝ)| < 1 := by
      by_contra h; push Not at h; nlinarith
    have h4 : |z| < 1 := by exact_mod_cast h3
    rw [h2, Int.abs_lt_one_iff.1 h4]; simp
  have cand : ∀ (z : ℤ) (d : ℤ), (z : ℝ) / Spec.density usfac + d ∈ Spec.candidates usfac := by
    intro z d
    by_cases h1 : usfac = 1
    · left
      refine ⟨z + d, ?_⟩
      simp [h1, Spec.density]
    · right
      refine ⟨by omega, z + 2 * d, ?_⟩
      unfold Spec.density
      rw [if_neg h1]; push_cast; ring
  have cand2 : ∀ (z : ℤ) (d : ℤ), (z : ℝ) / usfac + d ∈ Spec.candidates usfac := by
    intro z d
    left
    refine ⟨z + usfac * d, ?_⟩
    push_cast; field_simp
  refine ⟨⟨-dy * Spec.density usfac, -dx * Spec.density usfac, ?_, ?_, ?_, ?_, fun j k h1 h2 h3 => ?_⟩, ?_⟩
  · push_cast; field_simp
  · push_cast; field_simp
  · rw [mul_neg, abs_neg, abs_mul]; norm_num; exact hdyR
  · rw [mul_neg, abs_neg, abs_mul]; norm_num; exact hdxR
  · rw [hmax]
    refine cc_lt _ a _ dy dx _ _ hb hid (cand j dy) (cand k dx) fun ⟨⟨z, hz⟩, w, hw⟩ => h3 ?_
    rw [abs_mul, abs_of_pos (two_pos : (0 : ℝ) < 2)] at h1 h2
    have e1 := small ny _ z ((abs_add_le _ _).trans_lt (by linarith)) hz
    have e2 := small nx _ w ((abs_add_le _ _).trans_lt (by linarith)) hw
    field_simp at e1 e2
    have e1' : (j : ℝ) = ((-dy * Spec.density usfac : ℤ) : ℝ) := by push_cast; linarith
    have e2' : (k : ℝ) = ((-dx * Spec.density usfac : ℤ) : ℝ) := by push_cast; linarith
    rw [Prod.mk.injEq]
    exact ⟨by exact_mod_cast e1', by exact_mod_cast e2'⟩
  · split_ifs with h2
    · exact ⟨rfl, rfl⟩
    · obtain ⟨hny, hnx⟩ : 2 ≤ ny ∧ 2 ≤ nx := hsz.resolve_left (by omega)
      have hnyR : (2 : ℝ) ≤ ny := by exact_mod_cast hny
      have hnxR : (2 : ℝ) ≤ nx := by exact_mod_cast hnx
      refine ⟨⟨-dy * usfac, by push_cast; field_simp⟩, ⟨-dx * usfac, by push_cast; field_simp⟩, by norm_num, by norm_num, fun z w h1 h2 h3 => ?_⟩
      rw [hmax]
      refine cc_lt _ a _ dy dx _ _ hb hid (cand2 z dy) (cand2 w dx) fun ⟨⟨m, hm⟩, l, hl⟩ => h3 ?_
      rw [sub_neg_eq_add] at h1 h2
      have e1 := small ny _ m (by linarith) hm
      have e2 := small nx _ l (by linarith) hl
      rw [Prod.mk.injEq]
      exact ⟨by linarith, by linarith⟩

/-- C119, non-vacuity: a 4×5 star and its roll by (1,-2), in both orders, for every `usfac`; and with the second image negated, three times
brighter and on a background. -/
example (cfg : FFTConfig) (usfac : ℕ) (hu : 1 ≤ usfac) :
    registerImages cfg (realArr (Spec.roll2 1 (-2) fun p : Fin 4 × Fin 5 => if p = 0 then (1 : ℝ) else 0))
      (realArr fun p : Fin 4 × Fin 5 => if p = 0 then (1 : ℝ) else 0) usfac false false false none = .ok [.num 2, .num (-1)] ∧
    registerImages cfg (fun p => (realArr (fun p : Fin 4 × Fin 5 => if p = 0 then (1 : ℝ) else 0) p).map fun v => 1 * v + 0)
      (fun p => (realArr (Spec.roll2 1 (-2) fun p : Fin 4 × Fin 5 => if p = 0 then (1 : ℝ) else 0) p).map fun v => -3 * v + 0)
      usfac false false false none = .ok [.num (-2), .num 1] := by
  have hd : ∀ k : Fin 4 × Fin 5,
      dft (fun p : Fin 4 × Fin 5 => ((if p = 0 then (1 : ℝ) else 0 : ℝ) : ℂ)) k ≠ 0 := by
    intro k
    have h1 : dft (fun p : Fin 4 × Fin 5 => ((if p = 0 then (1 : ℝ) else 0 : ℝ) : ℂ)) k = 1 := by
      unfold dft
      rw [Finset.sum_eq_single 0]
      · simp [FFTIndex.e_zero]
      · intro b _ hb; simp [hb]
      · simp
    rw [h1]; exact one_ne_zero
  have hid := identifiable_of_dft (Spec.candidates usfac) (fun p : Fin 4 × Fin 5 => if p = 0 then (1 : ℝ) else 0)
    (by norm_num) (by norm_num) (hd _) (hd _) (Or.inl (hd _))
  have hsz : usfac = 1 ∨ (2 ≤ 4 ∧ 2 ≤ 5) := Or.inr ⟨by norm_num, by norm_num⟩
  have hm := clearMatch_roll _ usfac hu hsz hid 1 (-2) (by norm_num) (by norm_num)
  have hp : prep false (realArr fun p : Fin 4 × Fin 5 => if p = 0 then (1 : ℝ) else 0)
      = fun p => if p = 0 then (1 : ℝ) else 0 := by
    rw [prep_real]; funext p; simp
  rw [← hp, ← prep_roll2] at hm
  have h1 := C119_clear_match cfg _ _ usfac hu hsz false _ _ _ _ hm
  constructor
  · obtain ⟨dx, dy, g1, g2⟩ := C119_exchange cfg _ _ usfac hu hsz false _ _ _ _ hm
    have e := Except.ok.inj (h1.symm.trans g1)
    simp only [List.cons.injEq, RegVal.num.injEq, and_true] at e
    rw [← e.1, ← e.2] at g2
    refine g2.trans ?_
    norm_num
  · rw [C119_brightness cfg _ _ usfac false false none 1 (-3) 0 0 one_ne_zero (by norm_num) (.inr ⟨rfl, rfl⟩)]
    refine h1.trans ?_
    norm_num

end

end ImgReg
