import Verif.Props.Gauss

/-!
# C140 in two dimensions: `fourier_interp2d`, `zoom_on_pixel` and `shift2d` on a Gaussian star
-/

open Complex Finset
open scoped ComplexConjugate

namespace ImgReg

section two
variable {ny nx : ℕ} [NeZero ny] [NeZero nx]

/-- the interpolant of a separable image is the product of the interpolants of its factors -/
theorem interp2C_mul (f : Fin ny → ℂ) (g : Fin nx → ℂ) (t u : ℝ) :
    interp2C (fun p : Fin ny × Fin nx => f p.1 * g p.2) t u = interpC f t * interpC g u := by
  rw [interp2C_sep, ← interpC_smul]
  congr 1
  funext j
  rw [mul_comm, ← interpC_smul]
  congr 1
  funext i
  rw [mul_comm]

theorem interp2C_gauss {σy σx cy cx : ℝ} (hy : 0 < σy) (hx : 0 < σx) (hcy : 0 ≤ cy ∧ cy ≤ (ny : ℝ) - 1)
    (hcx : 0 ≤ cx ∧ cx ≤ (nx : ℝ) - 1) (t u : ℝ) (ht : |t - cy| ≤ ny) (hu : |u - cx| ≤ nx) :
    ‖interp2C (fun p : Fin ny × Fin nx => ((Spec.star σy cy ((p.1 : ℕ) : ℝ) * Spec.star σx cx ((p.2 : ℕ) : ℝ) : ℝ) : ℂ)) t u
        - ((Spec.star σy cy t * Spec.star σx cx u : ℝ) : ℂ)‖
      ≤ (1 + Spec.starError ny σy cy t) * (1 + Spec.starError nx σx cx u) - 1 := by
  have h1 := interp2C_mul (fun j : Fin ny => ((Spec.star σy cy ((j : ℕ) : ℝ) : ℝ) : ℂ))
    (fun j : Fin nx => ((Spec.star σx cx ((j : ℕ) : ℝ) : ℝ) : ℂ)) t u
  have h2 : (fun p : Fin ny × Fin nx => ((Spec.star σy cy ((p.1 : ℕ) : ℝ) * Spec.star σx cx ((p.2 : ℕ) : ℝ) : ℝ) : ℂ))
      = fun p => ((Spec.star σy cy ((p.1 : ℕ) : ℝ) : ℝ) : ℂ) * ((Spec.star σx cx ((p.2 : ℕ) : ℝ) : ℝ) : ℂ) := by
    funext p; push_cast; rfl
  rw [h2, h1, Complex.ofReal_mul]
  have := norm_prod_sub_prod_le (Finset.univ : Finset (Fin 2))
    ![interpC (fun j : Fin ny => ((Spec.star σy cy ((j : ℕ) : ℝ) : ℝ) : ℂ)) t,
      interpC (fun j : Fin nx => ((Spec.star σx cx ((j : ℕ) : ℝ) : ℝ) : ℂ)) u]
    ![((Spec.star σy cy t : ℝ) : ℂ), ((Spec.star σx cx u : ℝ) : ℂ)]
    ![Spec.starError ny σy cy t, Spec.starError nx σx cx u] ?_ ?_
  · simpa [Fin.prod_univ_two] using this
  · intro d _
    fin_cases d
    · show ‖((Spec.star σy cy t : ℝ) : ℂ)‖ ≤ 1
      rw [Complex.norm_real, Real.norm_of_nonneg (gauss_pos _ _ _).le]
      exact gauss_le_one _ _ _
    · show ‖((Spec.star σx cx u : ℝ) : ℂ)‖ ≤ 1
      rw [Complex.norm_real, Real.norm_of_nonneg (gauss_pos _ _ _).le]
      exact gauss_le_one _ _ _
  · intro d _
    fin_cases d
    · exact interpC_gauss hy cy t (centre_ok hcy) ht
    · exact interpC_gauss hx cx u (centre_ok hcx) hu

/-- C140 for `fourier_interp2d`: interpolating a sampled star (widths `σy`, `σx`, centre `(cy, cx)`) reads off the star itself,
up to the error budget. -/
theorem C140_interp2d (cfg : FFTConfig) {σy σx cy cx : ℝ} (hy : 0 < σy) (hx : 0 < σx) (hcy : 0 ≤ cy ∧ cy ≤ (ny : ℝ) - 1)
    (hcx : 0 ≤ cx ∧ cx ≤ (nx : ℝ) - 1) {M L : ℕ} (ys : Fin M → ℝ) (xs : Fin L → ℝ) :
    ∃ y : Fin M × Fin L → ℝ,
      fourierInterp2d cfg (rArr fun p : Fin ny × Fin nx => Spec.star σy cy ((p.1 : ℕ) : ℝ) * Spec.star σx cx ((p.2 : ℕ) : ℝ))
          (pairInds ys xs) true = .ok ⟨M, L, .real (realArr y)⟩ ∧
      ∀ i, |ys i.1 - cy| ≤ ny → |xs i.2 - cx| ≤ nx →
        |y i - Spec.star σy cy (ys i.1) * Spec.star σx cx (xs i.2)|
          ≤ (1 + Spec.starError ny σy cy (ys i.1)) * (1 + Spec.starError nx σx cx (xs i.2)) - 1 :=
  ⟨_, by rw [rArr_eq_cArr, fourierInterp2d_ok cfg _ _ rfl ⟨M, ys⟩ ⟨L, xs⟩ rfl rfl, retReal_true],
    fun i h1 h2 => abs_re_sub_le (interp2C_gauss hy hx hcy hcx _ _ h1 h2)⟩

/-- C140 for `zoom_on_pixel` (and `zoomnd`, which calls it): zooming into a sampled star shows the star itself on the returned
coordinates, up to the error budget. -/
theorem C140_zoom_on_pixel (cfg : FFTConfig) {σy σx cy cx : ℝ} (hy : 0 < σy) (hx : 0 < σx) (hcy : 0 ≤ cy ∧ cy ≤ (ny : ℝ) - 1)
    (hcx : 0 ≤ cx ∧ cx ≤ (nx : ℝ) - 1) (ty tx us : ℝ) (hus : us ≠ 0) (outshape : Option (ℕ × ℕ)) (M L : ℕ)
    (ho : outshape.getD (ny, nx) = (M, L)) (hM : 0 < M) (hL : 0 < L) :
    ∃ (ys : Fin M → ℝ) (xs : Fin L → ℝ) (cube : Arr) (y : Fin M × Fin L → ℝ), cube.shape = [2, M, L] ∧
      (∀ (i : Fin M) (j : Fin L), cube.val [0, i, j] = ys i ∧ cube.val [1, i, j] = xs j) ∧
      zoomOnPixel2 cfg (rArr fun p : Fin ny × Fin nx => Spec.star σy cy ((p.1 : ℕ) : ℝ) * Spec.star σx cx ((p.2 : ℕ) : ℝ))
          [ty, tx] us outshape true true = .ok (.withX cube ⟨M, L, .real (realArr y)⟩) ∧
      (∀ (i : Fin M) (h : (i : ℕ) + 1 < M), ys ⟨i + 1, h⟩ - ys i = 1 / us) ∧ (∀ i, ys i + ys i.rev = 2 * ty) ∧
      (∀ (i : Fin L) (h : (i : ℕ) + 1 < L), xs ⟨i + 1, h⟩ - xs i = 1 / us) ∧ (∀ i, xs i + xs i.rev = 2 * tx) ∧
      ∀ i, |ys i.1 - cy| ≤ ny → |xs i.2 - cx| ≤ nx →
        |y i - Spec.star σy cy (ys i.1) * Spec.star σx cx (xs i.2)|
          ≤ (1 + Spec.starError ny σy cy (ys i.1)) * (1 + Spec.starError nx σx cx (xs i.2)) - 1 := by
  obtain ⟨ys, xs, cube, r, a1, a2, a3, -, a5, a6, a7, a8, a9⟩ := C14_zoom_on_pixel_2d cfg
    (fun p : Fin ny × Fin nx => ((Spec.star σy cy ((p.1 : ℕ) : ℝ) * Spec.star σx cx ((p.2 : ℕ) : ℝ) : ℝ) : ℂ))
    ty tx us hus outshape M L ho hM hL true
  obtain ⟨y, b1, b2⟩ := C140_interp2d (ny := ny) (nx := nx) cfg hy hx hcy hcx ys xs
  rw [rArr_eq_cArr] at b1
  refine ⟨ys, xs, cube, y, a1, a2, ?_, a6, a7, a8, a9, b2⟩
  rw [rArr_eq_cArr, a3]
  congr 2
  exact Except.ok.inj (a5.symm.trans b1)

/-- C140 for `shift2d`: the star moves by `(dx, dy)`, up to the error budget. -/
theorem C140_shift2d (cfg : FFTConfig) {σy σx cy cx : ℝ} (hy : 0 < σy) (hx : 0 < σx) (hcy : 0 ≤ cy ∧ cy ≤ (ny : ℝ) - 1)
    (hcx : 0 ≤ cx ∧ cx ≤ (nx : ℝ) - 1) (dx dy : ℝ) (ra : Bool) :
    ∃ y : Fin ny × Fin nx → ℝ,
      shift2d cfg (rArr fun p : Fin ny × Fin nx => Spec.star σy cy ((p.1 : ℕ) : ℝ) * Spec.star σx cx ((p.2 : ℕ) : ℝ))
          dx dy 0 ra true = .real (realArr y) ∧
      ∀ p : Fin ny × Fin nx, |((p.1 : ℕ) : ℝ) - (cy + dy)| ≤ ny → |((p.2 : ℕ) : ℝ) - (cx + dx)| ≤ nx →
        |y p - Spec.star σy (cy + dy) ((p.1 : ℕ) : ℝ) * Spec.star σx (cx + dx) ((p.2 : ℕ) : ℝ)|
          ≤ (1 + Spec.starError ny σy cy (((p.1 : ℕ) : ℝ) - dy)) * (1 + Spec.starError nx σx cx (((p.2 : ℕ) : ℝ) - dx)) - 1 := by
  obtain ⟨y, h1, h2⟩ := C12_interp_eq_shift_2d cfg
    (fun p : Fin ny × Fin nx => Spec.star σy cy ((p.1 : ℕ) : ℝ) * Spec.star σx cx ((p.2 : ℕ) : ℝ)) dx dy ra
  obtain ⟨y', b1, b2⟩ := C140_interp2d (ny := ny) (nx := nx) cfg hy hx hcy hcx (fun i : Fin ny => ((i : ℕ) : ℝ) - dy)
    (fun i : Fin nx => ((i : ℕ) : ℝ) - dx)
  have hyy : y = y' := by
    have := Except.ok.inj (h2.symm.trans b1)
    simp only [Out2.mk.injEq, heq_eq_eq, true_and, NdOut.real.injEq] at this
    funext i
    exact Option.some.inj (congrFun this i)
  subst hyy
  refine ⟨y, h1, fun p hp hq => ?_⟩
  have h := b2 p (by rwa [show ((p.1 : ℕ) : ℝ) - dy - cy = ((p.1 : ℕ) : ℝ) - (cy + dy) by ring])
    (by rwa [show ((p.2 : ℕ) : ℝ) - dx - cx = ((p.2 : ℕ) : ℝ) - (cx + dx) by ring])
  have e1 : Spec.star σy cy (((p.1 : ℕ) : ℝ) - dy) = Spec.star σy (cy + dy) ((p.1 : ℕ) : ℝ) := by
    unfold Spec.star; congr 3; ring
  have e2 : Spec.star σx cx (((p.2 : ℕ) : ℝ) - dx) = Spec.star σx (cx + dx) ((p.2 : ℕ) : ℝ) := by
    unfold Spec.star; congr 3; ring
  rw [e1, e2] at h
  exact h

end two

/-- The hypotheses of the C140 theorems hold for a star of width 1 in the middle of nine by ten pixels, and the budget is then
below one tenth within a shift of 2.5 pixels. -/
example : (0 : ℝ) < 1 ∧ (0 : ℝ) ≤ 4 ∧ (4 : ℝ) ≤ ((9 : ℕ) : ℝ) - 1 ∧ Spec.starError 9 1 ((((9 : ℕ) : ℝ) - 1) / 2) (3 / 2) ≤ 489 / 10000 :=
  ⟨one_pos, by norm_num, by norm_num, (unit_error (n := 9) le_rfl (3 / 2) (by norm_num [abs_le])).1⟩

end ImgReg
