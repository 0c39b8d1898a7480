import Verif.Props.StarNoise

/-!
# C144: the true displacement of a star

C141–C143 determine the displacement up to multiples of the size of the frame, since `register_images` and `chi2_shift` treat images as
periodic. If the star moved by less than about half of the frame, the reported displacement is the true one.
-/

open Complex Finset MeasureTheory

namespace ImgReg

/-- Of all the displacements that differ by multiples of the frame, only one is within reach. -/
theorem no_wrap {n : ℕ} {r d W e B : ℝ} {z : ℤ} (hr : |r| ≤ n / 2 + W) (hd : |d| + W + e < n / 2) (he : 0 ≤ e) (hB : B ≤ e ^ 2)
    (h : (r - d - z * n) ^ 2 ≤ B) : z = 0 := by
  have h1 : |r - d - z * n| ≤ e := abs_le_of_sq_le_sq (h.trans hB) he
  by_contra hz
  have h2 : (1 : ℝ) ≤ |(z : ℝ)| := by
    rw [← Int.cast_abs]
    exact_mod_cast Int.one_le_abs hz
  have h3 : |(z : ℝ) * n| = |(z : ℝ)| * n := by rw [abs_mul, Nat.abs_cast]
  have h4 : |(z : ℝ) * n| ≤ |r - d - z * n| + |r| + |d| := by
    have e1 : (z : ℝ) * n = -(r - d - z * n) + r - d := by ring
    calc |(z : ℝ) * n| = |-(r - d - z * n) + r - d| := by rw [← e1]
      _ ≤ |-(r - d - z * n) + r| + |d| := abs_sub _ _
      _ ≤ |-(r - d - z * n)| + |r| + |d| := by gcongr; exact abs_add_le _ _
      _ = |r - d - z * n| + |r| + |d| := by rw [abs_neg]
  have h5 : (n : ℝ) ≤ |(z : ℝ)| * n := by
    have : (0 : ℝ) ≤ n := Nat.cast_nonneg n
    nlinarith
  linarith

section
variable {ny nx : ℕ} [NeZero ny] [NeZero nx]

/-- C144, for `register_images`: in the situation of C141, if the displacement of the star and the accuracy `e` of C141 together are less than
half of the frame minus one pixel, then the reported displacement is within that accuracy of the true one — no multiple of the frame is added
or subtracted. -/
theorem C144_register_true (cfg : FFTConfig) {σ h A cy cx dy dx : ℝ} (hσ : 0 < σ) (h0 : 0 ≤ h) (hA : A ≠ 0)
    (hcy : Spec.inside ny h cy) (hcx : Spec.inside nx h cx) (hcy' : Spec.inside ny h (cy + dy)) (hcx' : Spec.inside nx h (cx + dx))
    (im1 im2 η : Fin ny × Fin nx → ℝ) (h1 : ∀ p, im1 p = A * (Spec.star σ cy ((p.1 : ℕ) : ℝ) * Spec.star σ cx ((p.2 : ℕ) : ℝ)))
    (h2 : ∀ p, im2 p = A * (Spec.star σ (cy + dy) ((p.1 : ℕ) : ℝ) * Spec.star σ (cx + dx) ((p.2 : ℕ) : ℝ)) + η p)
    (zm : Bool) (usfac : ℕ) (hu : 1 ≤ usfac) (hy : 2 ≤ ny) (hx : 2 ≤ nx) (κ e : ℝ)
    (hκ : κ = Spec.starBudget ny nx σ h (Real.sqrt (∑ p, η p ^ 2) / |A|))
    (hclear : 2 * Spec.starMean ny nx σ zm + κ < Real.exp (-1 / (8 * σ ^ 2)))
    (hsharp : 2 < usfac → Real.exp (-1 / (16 * σ ^ 2)) + κ < Real.exp (-1 / (32 * σ ^ 2)))
    (he : 0 ≤ e) (hB : 1 / (2 * usfac ^ 2) + 4 * σ ^ 2 * κ / (Real.exp (-1 / (8 * usfac ^ 2 * σ ^ 2)) - κ) ≤ e ^ 2)
    (hdy : |dy| + 1 + e < ny / 2) (hdx : |dx| + 1 + e < nx / 2) :
    ∃ rx ry : ℝ, registerImages cfg (realArr im1) (realArr im2) usfac false false zm none = .ok [.num rx, .num ry] ∧
      (ry - dy) ^ 2 + (rx - dx) ^ 2
        ≤ 1 / (2 * usfac ^ 2) + 4 * σ ^ 2 * κ / (Real.exp (-1 / (8 * usfac ^ 2 * σ ^ 2)) - κ) := by
  obtain ⟨rx, ry, hr, z, w, hzw⟩ := C141_register cfg hσ h0 hA hcy hcx hcy' hcx' im1 im2 η h1 h2 zm usfac hu hy hx κ hκ hclear hsharp
  obtain ⟨rx', ry', hr', -, -, -, hbx, hby⟩ := C45_grid_and_range cfg (realArr im1) (realArr im2) usfac hu zm none
  rw [hr] at hr'
  simp only [Except.ok.injEq, List.cons.injEq, RegVal.num.injEq, and_true] at hr'
  obtain ⟨rfl, rfl⟩ := hr'
  have hz : z = 0 := no_wrap hby hdy he hB (le_trans (by nlinarith [sq_nonneg (rx - dx - w * nx)]) hzw)
  have hw : w = 0 := no_wrap hbx hdx he hB (le_trans (by nlinarith [sq_nonneg (ry - dy - z * ny)]) hzw)
  refine ⟨rx, ry, hr, ?_⟩
  subst hz hw
  simpa using hzw

/-- C144 (a case that meets the conditions): the star of `C141_register_example`, moved by up to 47 pixels in either direction. -/
theorem C144_register_true_example (cfg : FFTConfig) {A cy cx dy dx : ℝ} (hA : A ≠ 0)
    (hcy : 25 ≤ cy ∧ cy ≤ 74) (hcx : 25 ≤ cx ∧ cx ≤ 74) (hcy' : 25 ≤ cy + dy ∧ cy + dy ≤ 74) (hcx' : 25 ≤ cx + dx ∧ cx + dx ≤ 74)
    (hdy : |dy| ≤ 47) (hdx : |dx| ≤ 47)
    (im1 im2 η : Fin 100 × Fin 100 → ℝ) (h1 : ∀ p, im1 p = A * (Spec.star 3 cy ((p.1 : ℕ) : ℝ) * Spec.star 3 cx ((p.2 : ℕ) : ℝ)))
    (h2 : ∀ p, im2 p = A * (Spec.star 3 (cy + dy) ((p.1 : ℕ) : ℝ) * Spec.star 3 (cx + dx) ((p.2 : ℕ) : ℝ)) + η p)
    (zm : Bool) (usfac : ℕ) (hu : 1 ≤ usfac) (r : ℝ) (hr : r = Real.sqrt (∑ p, η p ^ 2) / |A|) (hr1 : r ≤ 1 / 200) :
    ∃ rx ry : ℝ, registerImages cfg (realArr im1) (realArr im2) usfac false false zm none = .ok [.num rx, .num ry] ∧
      (ry - dy) ^ 2 + (rx - dx) ^ 2 ≤ 1 / (2 * usfac ^ 2) + 1 / 100000 + 15 * r := by
  obtain ⟨rx, ry, hres, z, w, hzw⟩ := C141_register_example cfg hA hcy hcx hcy' hcx' im1 im2 η h1 h2 zm usfac hu r hr hr1
  obtain ⟨rx', ry', hr', -, -, -, hbx, hby⟩ := C45_grid_and_range cfg (realArr im1) (realArr im2) usfac hu zm none
  rw [hres] at hr'
  simp only [Except.ok.injEq, List.cons.injEq, RegVal.num.injEq, and_true] at hr'
  obtain ⟨rfl, rfl⟩ := hr'
  have hub : 1 / (2 * (usfac : ℝ) ^ 2) ≤ 1 / 2 := by
    have : (1 : ℝ) ≤ usfac := by exact_mod_cast hu
    rw [div_le_div_iff₀ (by positivity) (by norm_num)]
    nlinarith
  have hB : 1 / (2 * (usfac : ℝ) ^ 2) + 1 / 100000 + 15 * r ≤ 1 ^ 2 := by linarith
  have hz : z = 0 := by
    refine no_wrap (n := 100) (W := 1) (e := 1) (d := dy) (r := ry) ?_ ?_ zero_le_one hB
      (le_trans (by push_cast; nlinarith [sq_nonneg (rx - dx - w * 100)]) hzw)
    · simpa using hby
    · push_cast; linarith
  have hw : w = 0 := by
    refine no_wrap (n := 100) (W := 1) (e := 1) (d := dx) (r := rx) ?_ ?_ zero_le_one hB
      (le_trans (by push_cast; nlinarith [sq_nonneg (ry - dy - z * 100)]) hzw)
    · simpa using hbx
    · push_cast; linarith
  refine ⟨rx, ry, hres, ?_⟩
  subst hz hw
  simpa using hzw

/-- How far from the best whole-pixel displacement `chi2_shift` looks along an axis of `n` pixels: with an explicit upsampling factor `u` half of
the zoomed grid, `n/(2u)` pixels (or one pixel, if the factor is at least the number of rows), and half a pixel. -/
noncomputable def Spec.chi2Reach (ny n : ℕ) : UsFactor → ℝ
  | .auto => 0
  | .int u => if ny ≤ u then 3 / 2 else n / (2 * u) + 1 / 2
  | .float u => n / (2 * u) + 1 / 2

/-- C144: with an explicit upsampling factor, `chi2_shift` never reports a displacement of more than half of the frame and half of the zoomed
window — whatever the images. -/
theorem C144_chi2_range (cfg : FFTConfig) (st : Stats) (hst : Spec.validStats st) (im1 im2 : Fin ny × Fin nx → Pix) (err : ErrArg ny nx)
    (us : UsFactor) (hauto : us ≠ .auto) (zm : Bool) (nf : ℝ) (mas : ℕ) (mns : ℝ) (ah : Bool) (hf : Spec.fits ah ny nx)
    (hus : Spec.validUs ny mas us) :
    ∃ rx ry : ℝ, chi2Shift cfg st im1 im2 err us zm nf false false false mas mns ah = .ok [.num rx, .num ry] ∧
      |rx| ≤ nx / 2 + Spec.chi2Reach ny nx us ∧ |ry| ≤ ny / 2 + Spec.chi2Reach ny ny us := by
  obtain ⟨cm, q, dx, dy, -, -, hres, u, hu0, hu, hy, hx, hqy, hqx⟩ := C34_window cfg st hst im1 im2 err us zm nf mas mns ah hf hus
  refine ⟨dx, dy, hres, ?_⟩
  have key : ∀ (n s : ℕ) (p : Fin n) (d : ℝ), |d - (((n - 1) / 2 : ℕ) - ((p : ℕ) : ℝ))| ≤ ((s : ℝ) - 1) / (2 * u) + (if Even n then 1 / 2 else 0) →
      |2 * ((((n - 1) / 2 : ℕ) : ℤ) - ((p : ℕ) : ℤ))| ≤ (n : ℤ) → |d| ≤ n / 2 + ((s : ℝ) / (2 * u) + 1 / 2) := by
    intro n s p d h1 h2
    have h3 : |2 * ((((n - 1) / 2 : ℕ) : ℝ) - ((p : ℕ) : ℝ))| ≤ n := by exact_mod_cast h2
    rw [abs_mul, abs_two] at h3
    have h4 : ((s : ℝ) - 1) / (2 * u) ≤ (s : ℝ) / (2 * u) := by gcongr; linarith
    have h5 : (if Even n then (1 : ℝ) / 2 else 0) ≤ 1 / 2 := by split_ifs <;> norm_num
    have h6 := abs_sub_abs_le_abs_sub d ((((n - 1) / 2 : ℕ) : ℝ) - ((p : ℕ) : ℝ))
    linarith
  have ky := key ny _ q.1 dy hy hqy
  have kx := key nx _ q.2 dx hx hqx
  cases us with
  | auto => exact absurd rfl hauto
  | int v =>
    replace hu : u = (v : ℝ) := hu
    subst hu
    simp only [Spec.gridSize] at ky kx
    simp only [Spec.chi2Reach]
    split_ifs at ky kx ⊢ with hv
    · have e : ((2 * v : ℕ) : ℝ) / (2 * (v : ℝ)) = 1 := by push_cast; exact div_self (by positivity)
      rw [e] at ky kx
      constructor <;> linarith
    · exact ⟨kx, ky⟩
  | float v =>
    replace hu : u = v := hu
    subst hu
    exact ⟨kx, ky⟩

/-- C144, for `chi2_shift` with an explicit upsampling factor: in the situation of C142, if the displacement of the star, the reach of the zoom
and the accuracy `e` of C142 together are less than half of the frame, then the reported displacement is within that accuracy of the true one. -/
theorem C144_chi2_true (cfg : FFTConfig) (st : Stats) (hst : Spec.validStats st) {σ h A cy cx dy dx : ℝ} (hσ : 0 < σ) (h0 : 0 ≤ h) (hA : A ≠ 0)
    (hcy : Spec.inside ny h cy) (hcx : Spec.inside nx h cx) (hcy' : Spec.inside ny h (cy + dy)) (hcx' : Spec.inside nx h (cx + dx))
    (im1 im2 η : Fin ny × Fin nx → ℝ) (h1 : ∀ p, im1 p = A * (Spec.star σ cy ((p.1 : ℕ) : ℝ) * Spec.star σ cx ((p.2 : ℕ) : ℝ)))
    (h2 : ∀ p, im2 p = A * (Spec.star σ (cy + dy) ((p.1 : ℕ) : ℝ) * Spec.star σ (cx + dx) ((p.2 : ℕ) : ℝ)) + η p)
    (err : ErrArg ny nx) (s : ℝ) (hs : s ≠ 0) (herr : Spec.isScalarErr err s) (us : UsFactor) (u : ℝ) (hu : us = .float u ∨ ∃ v : ℕ, us = .int v ∧ u = v)
    (zm : Bool) (nf : ℝ) (mas : ℕ) (mns : ℝ) (ah : Bool) (hf : Spec.fits ah ny nx) (hus : Spec.coversPixel ny nx mas us) (hy : 2 ≤ ny) (hx : 2 ≤ nx)
    (κ τ e B : ℝ) (hκ : κ = Spec.starBudget ny nx σ h (Real.sqrt (∑ p, η p ^ 2) / |A|))
    (hτ : τ = 4 * σ ^ 2 * κ / (Real.exp (-1 / (8 * σ ^ 2)) - κ))
    (hclear : κ < Real.exp (-1 / (2 * σ ^ 2))) (hτ1 : τ ≤ 1 / 2)
    (hBd : B = 2 * (1 / (2 * u) + τ) ^ 2 + 4 * σ ^ 2 * κ / (Real.exp (-(1 / (2 * u) + τ) ^ 2 / (2 * σ ^ 2)) - κ))
    (he : 0 ≤ e) (hB : B ≤ e ^ 2)
    (hdy : |dy| + Spec.chi2Reach ny ny us + e < ny / 2) (hdx : |dx| + Spec.chi2Reach ny nx us + e < nx / 2) :
    ∃ rx ry : ℝ, chi2Shift cfg st (realArr im1) (realArr im2) err us zm nf false false false mas mns ah = .ok [.num rx, .num ry] ∧
      (ry - dy) ^ 2 + (rx - dx) ^ 2 ≤ B := by
  obtain ⟨rx, ry, u', s1, s2, xv, yv, c, hres, -, hi, hfl, -, z, w, hzw⟩ := C142_chi2_star cfg st hst hσ h0 hA hcy hcx hcy' hcx' im1 im2 η h1 h2 err s
    hs herr us zm nf mas mns ah hf hus hy hx κ τ hκ hτ hclear hτ1
  have huu : u' = u := by
    rcases hu with hu | ⟨v, hu, hv⟩
    · exact hfl u hu
    · rw [hv]; exact hi v hu
  subst huu
  rw [← hBd] at hzw
  have hauto : us ≠ .auto := by
    rcases hu with hu | ⟨v, hu, -⟩ <;> rw [hu] <;> exact fun h => by cases h
  have hval : Spec.validUs ny mas us := by
    rcases hu with hu | ⟨v, hu, -⟩
    · subst hu
      obtain ⟨g1, g2, -⟩ := hus
      exact ⟨by linarith, by linarith⟩
    · subst hu
      exact hus.1
  obtain ⟨rx', ry', hres', hbx, hby⟩ := C144_chi2_range cfg st hst (realArr im1) (realArr im2) err us hauto zm nf mas mns ah hf hval
  obtain ⟨x0, y0, ex, ey, t1, t2, xv', yv', c', -, hall⟩ := C36_layout cfg st hst (realArr im1) (realArr im2) err us zm nf mas mns ah hf hval
  have ea := (hall false true).symm.trans hres
  have eb := (hall false false).symm.trans hres'
  simp only [Except.ok.injEq, List.cons_append, List.nil_append, List.append_nil, List.cons.injEq, RetVal.num.injEq, Bool.false_eq_true, if_false, if_true,
    and_true] at ea eb
  obtain ⟨rfl, rfl⟩ : rx = rx' ∧ ry = ry' := ⟨ea.1.symm.trans eb.1, ea.2.1.symm.trans eb.2⟩
  have hz : z = 0 := no_wrap hby hdy he hB (le_trans (by nlinarith [sq_nonneg (rx - dx - w * nx)]) hzw)
  have hw : w = 0 := no_wrap hbx hdx he hB (le_trans (by nlinarith [sq_nonneg (ry - dy - z * ny)]) hzw)
  refine ⟨rx, ry, hres', ?_⟩
  subst hz hw
  simpa using hzw

/-- C144 (a case that meets the conditions): the star of `C142_chi2_star_example`, moved by up to 40 pixels in either direction, with an integer
upsampling factor from 8 to 50. -/
theorem C144_chi2_true_example (cfg : FFTConfig) (st : Stats) (hst : Spec.validStats st) {A cy cx dy dx : ℝ} (hA : A ≠ 0)
    (hcy : 25 ≤ cy ∧ cy ≤ 74) (hcx : 25 ≤ cx ∧ cx ≤ 74) (hcy' : 25 ≤ cy + dy ∧ cy + dy ≤ 74) (hcx' : 25 ≤ cx + dx ∧ cx + dx ≤ 74)
    (hdy : |dy| ≤ 40) (hdx : |dx| ≤ 40)
    (im1 im2 η : Fin 100 × Fin 100 → ℝ) (h1 : ∀ p, im1 p = A * (Spec.star 3 cy ((p.1 : ℕ) : ℝ) * Spec.star 3 cx ((p.2 : ℕ) : ℝ)))
    (h2 : ∀ p, im2 p = A * (Spec.star 3 (cy + dy) ((p.1 : ℕ) : ℝ) * Spec.star 3 (cx + dx) ((p.2 : ℕ) : ℝ)) + η p)
    (err : ErrArg 100 100) (s : ℝ) (hs : s ≠ 0) (herr : Spec.isScalarErr err s) (u : ℕ) (hu8 : 8 ≤ u) (hu50 : u ≤ 50) (zm : Bool) (nf : ℝ) (mas : ℕ)
    (mns : ℝ) (ah : Bool) (hf : Spec.fits ah 100 100) (r : ℝ) (hr : r = Real.sqrt (∑ p, η p ^ 2) / |A|) (hr1 : r ≤ 1 / 200) :
    ∃ rx ry : ℝ, chi2Shift cfg st (realArr im1) (realArr im2) err (.int u) zm nf false false false mas mns ah = .ok [.num rx, .num ry] ∧
      (ry - dy) ^ 2 + (rx - dx) ^ 2 ≤ 2 * (1 / (2 * u) + 1 / 100000 + 15 * r) ^ 2 + 1 / 100000 + 16 * r := by
  have hu8' : (8 : ℝ) ≤ u := by exact_mod_cast hu8
  have hr0 : 0 ≤ r := by rw [hr]; exact div_nonneg (Real.sqrt_nonneg _) (abs_nonneg _)
  obtain ⟨rx, ry, u', s1, s2, xv, yv, c, hres, -, hi, -, -, z, w, hzw⟩ := C142_chi2_star_example cfg st hst hA hcy hcx hcy' hcx' im1 im2 η h1 h2 err s
    hs herr (.int u) zm nf mas mns ah hf (by unfold Spec.coversPixel; omega) r hr hr1
  obtain rfl : u' = u := hi u rfl
  obtain ⟨rx', ry', hres', hbx, hby⟩ := C144_chi2_range cfg st hst (realArr im1) (realArr im2) err (.int u) (fun h => by cases h) zm nf mas mns ah hf
    (show 0 < u by omega)
  obtain ⟨x0, y0, ex, ey, t1, t2, xv', yv', c', -, hall⟩ := C36_layout cfg st hst (realArr im1) (realArr im2) err (.int u) zm nf mas mns ah hf
    (show 0 < u by omega)
  have ea := (hall false true).symm.trans hres
  have eb := (hall false false).symm.trans hres'
  simp only [Except.ok.injEq, List.cons_append, List.nil_append, List.append_nil, List.cons.injEq, RetVal.num.injEq, Bool.false_eq_true, if_false, if_true,
    and_true] at ea eb
  obtain ⟨rfl, rfl⟩ : rx = rx' ∧ ry = ry' := ⟨ea.1.symm.trans eb.1, ea.2.1.symm.trans eb.2⟩
  have hreach : Spec.chi2Reach 100 100 (.int u) ≤ 27 / 4 := by
    simp only [Spec.chi2Reach, if_neg (show ¬ 100 ≤ u by omega)]
    have : ((100 : ℕ) : ℝ) / (2 * u) ≤ 25 / 4 := by
      rw [div_le_div_iff₀ (by positivity) (by norm_num)]; push_cast; linarith
    linarith
  have hB : 2 * (1 / (2 * (u : ℝ)) + 1 / 100000 + 15 * r) ^ 2 + 1 / 100000 + 16 * r ≤ 1 ^ 2 := by
    have h3 : 1 / (2 * (u : ℝ)) ≤ 1 / 16 := by rw [div_le_div_iff₀ (by positivity) (by norm_num)]; linarith
    have h4 : 0 ≤ 1 / (2 * (u : ℝ)) := by positivity
    have h5 : (1 / (2 * (u : ℝ)) + 1 / 100000 + 15 * r) ^ 2 ≤ (1 / 4) ^ 2 := pow_le_pow_left₀ (by positivity) (by linarith) 2
    linarith
  have hz : z = 0 := by
    refine no_wrap (n := 100) (W := 27 / 4) (e := 1) (d := dy) (r := ry) (by linarith) (by push_cast; linarith) zero_le_one hB
      (le_trans (by push_cast; nlinarith [sq_nonneg (rx - dx - w * 100)]) hzw)
  have hw : w = 0 := by
    refine no_wrap (n := 100) (W := 27 / 4) (e := 1) (d := dx) (r := rx) (by linarith) (by push_cast; linarith) zero_le_one hB
      (le_trans (by push_cast; nlinarith [sq_nonneg (ry - dy - z * 100)]) hzw)
  refine ⟨rx, ry, hres', ?_⟩
  subst hz hw
  simpa using hzw

end

section
variable {ny nx : ℕ} [NeZero ny] [NeZero nx] {Ω : Type*} [MeasurableSpace Ω] (μ : Measure Ω)

/-- If in every outcome the reported displacement is in reach, the events of C143 with and without multiples of the frame are the same. -/
theorem true_event [IsProbabilityMeasure μ] (cfg : FFTConfig) (st : Stats) (hst : Spec.validStats st) (im1 : Fin ny × Fin nx → Pix)
    (im2 : Ω → Fin ny × Fin nx → Pix) (err : ErrArg ny nx) (u : ℕ) (hu : 1 ≤ u) (zm : Bool) (nf : ℝ) (mas : ℕ) (mns : ℝ) (ah : Bool)
    (hf : Spec.fits ah ny nx) (dx dy e P : ℝ) (he : 0 ≤ e)
    (hdy : |dy| + Spec.chi2Reach ny ny (.int u) + e < ny / 2) (hdx : |dx| + Spec.chi2Reach ny nx (.int u) + e < nx / 2)
    (h : μ.real {ω | ¬ ∃ rx ry : ℝ, chi2Shift cfg st im1 (im2 ω) err (.int u) zm nf false false false mas mns ah = .ok [.num rx, .num ry] ∧
      ∃ z w : ℤ, Real.sqrt ((ry - dy - z * ny) ^ 2 + (rx - dx - w * nx) ^ 2) ≤ e} ≤ P) :
    μ.real {ω | ¬ ∃ rx ry : ℝ, chi2Shift cfg st im1 (im2 ω) err (.int u) zm nf false false false mas mns ah = .ok [.num rx, .num ry] ∧
      Real.sqrt ((ry - dy) ^ 2 + (rx - dx) ^ 2) ≤ e} ≤ P := by
  refine le_trans (measureReal_mono ?_ (measure_ne_top _ _)) h
  intro ω hω
  simp only [Set.mem_ofPred_eq] at hω ⊢
  rintro ⟨rx, ry, hres, z, w, hzw⟩
  refine hω ⟨rx, ry, hres, ?_⟩
  obtain ⟨rx', ry', hres', hbx, hby⟩ := C144_chi2_range cfg st hst im1 (im2 ω) err (.int u) (fun h => by cases h) zm nf mas mns ah hf hu
  rw [hres] at hres'
  simp only [Except.ok.injEq, List.cons.injEq, RetVal.num.injEq, and_true] at hres'
  obtain ⟨rfl, rfl⟩ := hres'
  have hsq : (ry - dy - z * ny) ^ 2 + (rx - dx - w * nx) ^ 2 ≤ e ^ 2 := (Real.sqrt_le_left he).1 hzw
  have hz : z = 0 := no_wrap hby hdy he le_rfl (le_trans (by nlinarith [sq_nonneg (rx - dx - w * nx)]) hsq)
  have hw : w = 0 := no_wrap hbx hdx he le_rfl (le_trans (by nlinarith [sq_nonneg (ry - dy - z * ny)]) hsq)
  subst hz hw
  simpa using hzw

/-- C144, for `chi2_shift` on a star with random noise: in the situation of C143, if the displacement of the star, the reach of the zoom and the
accuracy of C143 together are less than half of the frame, then the reported displacement is within that accuracy of the true one, with the
probability given there. -/
theorem C144_noise_true (cfg : FFTConfig) (st : Stats) (hst : Spec.validStats st) [IsProbabilityMeasure μ]
    {σ h A cy cx dy dx : ℝ} (hσ : 0 < σ) (h0 : 0 ≤ h) (hA : A ≠ 0)
    (hcy : Spec.inside ny h cy) (hcx : Spec.inside nx h cx) (hcy' : Spec.inside ny h (cy + dy)) (hcx' : Spec.inside nx h (cx + dx))
    (n : Ω → Fin ny × Fin nx → ℝ) (c : Fin ny × Fin nx → NNReal) (v : ℝ) (hv : 0 < v) (hc : ∀ p, (c p : ℝ) ≤ v)
    (hind : ProbabilityTheory.iIndepFun (fun p ω => n ω p) μ)
    (hsub : ∀ p, ProbabilityTheory.HasSubgaussianMGF (fun ω => n ω p) (c p) μ)
    (err : ErrArg ny nx) (s : ℝ) (hs : s ≠ 0) (herr : Spec.isScalarErr err s) (u : ℕ) (hu : 1 ≤ u) (zm : Bool) (nf : ℝ) (mas : ℕ) (mns : ℝ)
    (ah : Bool) (hf : Spec.fits ah ny nx) (k κ β m q ρ : ℝ) (hk : 0 < k) (hκ : κ = Spec.starBudget ny nx σ h 0)
    (hβ : β = (1 + max (Spec.starEps ny σ h) (Spec.starEps nx σ h)) ^ 2 - 1)
    (hm : m = k * Real.sqrt v / (|A| * (σ * Real.sqrt Real.pi)))
    (hq : q = Real.exp (-1 / (8 * σ ^ 2)) - κ - m * Real.sqrt (2 + 4 * β)) (hq0 : 0 < q)
    (hρ : ρ = 2 * Real.sqrt 2 * σ * m / q + 2 * σ * Real.sqrt ((κ + 2 * m * Real.sqrt β) / q))
    (hwy : 2 * u * (1 + 2 * ρ) < ny) (hwx : 2 * u * (1 + 2 * ρ) < nx)
    (hdy : |dy| + Spec.chi2Reach ny ny (.int u) + (Real.sqrt 2 / (2 * u) + ρ) < ny / 2)
    (hdx : |dx| + Spec.chi2Reach ny nx (.int u) + (Real.sqrt 2 / (2 * u) + ρ) < nx / 2) :
    μ.real {ω | ¬ ∃ rx ry : ℝ,
      chi2Shift cfg st (realArr fun p => A * (Spec.star σ cy ((p.1 : ℕ) : ℝ) * Spec.star σ cx ((p.2 : ℕ) : ℝ)))
        (realArr fun p => A * (Spec.star σ (cy + dy) ((p.1 : ℕ) : ℝ) * Spec.star σ (cx + dx) ((p.2 : ℕ) : ℝ)) + n ω p)
        err (.int u) zm nf false false false mas mns ah = .ok [.num rx, .num ry] ∧
      Real.sqrt ((ry - dy) ^ 2 + (rx - dx) ^ 2) ≤ Real.sqrt 2 / (2 * u) + ρ}
      ≤ (ny * nx) * (1 + ny * nx) * Real.exp (-(k ^ 2 / 2)) := by
  refine true_event μ cfg st hst _ (fun ω => realArr fun p => A * (Spec.star σ (cy + dy) ((p.1 : ℕ) : ℝ) * Spec.star σ (cx + dx) ((p.2 : ℕ) : ℝ)) + n ω p)
    err u hu zm nf mas mns ah hf dx dy _ _ ?_ hdy hdx ?_
  · have : 0 ≤ m := by rw [hm]; positivity
    rw [hρ]; positivity
  · exact C143_star_in_noise μ cfg st hst hσ h0 hA hcy hcx hcy' hcx' n c v hv hc hind hsub err s hs herr u hu zm nf mas mns ah hf k κ β m q ρ hk hκ hβ
      hm hq hq0 hρ hwy hwx

/-- C144 (a case that meets the conditions): the star in Gaussian noise of `C143_star_in_noise_example`, moved by up to 40 pixels in either
direction, with an integer factor from 8 to 19. -/
theorem C144_noise_true_example (cfg : FFTConfig) (st : Stats) (hst : Spec.validStats st) [IsProbabilityMeasure μ] {A cy cx dy dx : ℝ} (hA : A ≠ 0)
    (hcy : 25 ≤ cy ∧ cy ≤ 74) (hcx : 25 ≤ cx ∧ cx ≤ 74) (hcy' : 25 ≤ cy + dy ∧ cy + dy ≤ 74) (hcx' : 25 ≤ cx + dx ∧ cx + dx ≤ 74)
    (hdy : |dy| ≤ 40) (hdx : |dx| ≤ 40)
    (n : Ω → Fin 100 × Fin 100 → ℝ) (v : Fin 100 × Fin 100 → NNReal) (f : ℝ) (hf0 : 0 < f) (hf1 : f ≤ 1 / 20) (hv : ∀ p, (v p : ℝ) ≤ (f * A) ^ 2)
    (hind : ProbabilityTheory.iIndepFun (fun p ω => n ω p) μ)
    (hgauss : ∀ p, μ.map (fun ω => n ω p) = ProbabilityTheory.gaussianReal 0 (v p))
    (err : ErrArg 100 100) (s : ℝ) (hs : s ≠ 0) (herr : Spec.isScalarErr err s) (u : ℕ) (hu8 : 8 ≤ u) (hu19 : u ≤ 19) (zm : Bool) (nf : ℝ) (mas : ℕ)
    (mns : ℝ) (ah : Bool) (hf : Spec.fits ah 100 100) :
    μ.real {ω | ¬ ∃ rx ry : ℝ,
      chi2Shift cfg st (realArr fun p : Fin 100 × Fin 100 => A * (Spec.star 3 cy ((p.1 : ℕ) : ℝ) * Spec.star 3 cx ((p.2 : ℕ) : ℝ)))
        (realArr fun p => A * (Spec.star 3 (cy + dy) ((p.1 : ℕ) : ℝ) * Spec.star 3 (cx + dx) ((p.2 : ℕ) : ℝ)) + n ω p)
        err (.int u) zm nf false false false mas mns ah = .ok [.num rx, .num ry] ∧
      Real.sqrt ((ry - dy) ^ 2 + (rx - dx) ^ 2) ≤ Real.sqrt 2 / (2 * u) + (1 / 40 + 15 * f)}
      ≤ 1 / 10000 := by
  have hu8' : (8 : ℝ) ≤ u := by exact_mod_cast hu8
  have hreach : Spec.chi2Reach 100 100 (.int u) ≤ 27 / 4 := by
    simp only [Spec.chi2Reach, if_neg (show ¬ 100 ≤ u by omega)]
    have : ((100 : ℕ) : ℝ) / (2 * u) ≤ 25 / 4 := by
      rw [div_le_div_iff₀ (by positivity) (by norm_num)]; push_cast; linarith
    linarith
  have hs2 : Real.sqrt 2 / (2 * (u : ℝ)) ≤ 1 / 8 := by
    have : Real.sqrt 2 ≤ 2 := by rw [Real.sqrt_le_left (by norm_num)]; norm_num
    rw [div_le_div_iff₀ (by positivity) (by norm_num)]; linarith
  refine true_event μ cfg st hst _ (fun ω => realArr fun p => A * (Spec.star 3 (cy + dy) ((p.1 : ℕ) : ℝ) * Spec.star 3 (cx + dx) ((p.2 : ℕ) : ℝ)) + n ω p)
    err u (by omega) zm nf mas mns ah hf dx dy _ _ (by positivity) (by push_cast; linarith) (by push_cast; linarith) ?_
  have := C143_star_in_noise_example μ cfg st hst hA hcy hcx hcy' hcx' n v f hf0 hf1 hv hind hgauss err s hs herr u (by omega) hu19 zm nf mas mns ah hf
  exact_mod_cast this

end

end ImgReg
