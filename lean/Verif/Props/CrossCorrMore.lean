import Verif.Props.CrossCorr

/-!
# Further theorems for C53, C78: the Gaussian fit written out, and the error estimate when it degenerates
-/

open Finset

namespace ImgReg

section
variable {ny nx : ℕ} [NeZero ny] [NeZero nx]

/-- the error image used: the one given (NaN counts as 0), else the (population) standard deviation of the prepared
image at every pixel -/
noncomputable def Spec.ccErr (e : Option (Fin ny × Fin nx → Pix)) (a : Fin ny × Fin nx → ℝ) : Fin ny × Fin nx → ℝ :=
  match e with
  | some e => Spec.nan0 e
  | none => fun _ => Real.sqrt ((∑ p, (a p - (∑ r, a r) / ((ny : ℝ) * nx)) ^ 2) / ((ny : ℝ) * nx))

/-- the error of the correlation map: the squared errors of each image correlated with the square of the other -/
noncomputable def Spec.ccErrMap (a b ea eb : Fin ny × Fin nx → ℝ) : Fin ny × Fin nx → ℝ := fun i =>
  Real.sqrt (Spec.xcorr (fun p => ea p ^ 2) (fun p => b p ^ 2) i + Spec.xcorr (fun p => eb p ^ 2) (fun p => a p ^ 2) i)
    / ((ny : ℝ) * nx)

theorem errCorr_eq (cfg : FFTConfig) (ah : Bool) (h : Spec.fits ah ny nx) (a b : Fin ny × Fin nx → ℝ)
    (e1 e2 : Option (Fin ny × Fin nx → Pix)) :
    errCorr cfg ah a b e1 e2 = .ok (Spec.ccErrMap a b (Spec.ccErr e1 a) (Spec.ccErr e2 b)) := by
  have key : ∀ (e : Option (Fin ny × Fin nx → Pix)) (a : Fin ny × Fin nx → ℝ),
      Spec.nan0 (sqPix (defaultErr e a)) = fun p => Spec.ccErr e a p ^ 2 := by
    intro e a
    funext p
    cases e with
    | none => simp [Spec.nan0, sqPix, defaultErr, Spec.ccErr]
    | some e => cases h : e p <;> simp [Spec.nan0, sqPix, defaultErr, Spec.ccErr, h]
  have key2 : ∀ a : Fin ny × Fin nx → ℝ, Spec.nan0 (sqPix (realArr a)) = fun p => a p ^ 2 := by
    intro a; funext p; simp [Spec.nan0, sqPix, realArr]
  unfold errCorr
  simp only [correlate2d_nan0 cfg ah h, bind, Except.bind, pure, Except.pure, finiteVals_realArr, key, key2]
  congr 1
  funext i
  unfold Spec.ccErrMap
  push_cast
  rfl

/-- C53: with agpy installed, the Gaussian fit is made to the whole correlation map (weighted, with `return_error`, by
the error of the map); the shift is `ccRef` minus the fitted centre `(pars[2], pars[3])`, where `ccRef` is the zero-lag
pixel, plus 1/2 for an odd size; the errors are `(epars[2], epars[3])`. -/
theorem C53_gaussfit_formula (cfg : FFTConfig) (fit) (im1 im2 : Fin ny × Fin nx → Pix)
    (e1 e2 : Option (Fin ny × Fin nx → Pix)) (re zm ah : Bool) (hf : Spec.fits ah ny nx)
    (loc : Fin ny × Fin nx) (hloc : Np.IsFirstMax (Spec.xcorr (prep zm im1) (prep zm im2)) loc)
    (h0 : Spec.xcorr (prep zm im1) (prep zm im2) loc ≠ 0) (pars epars : ℕ → ℝ)
    (hfit : fit (Spec.ccMap (prep zm im1) (prep zm im2)) (if re then
        some (Spec.ccErrMap (prep zm im1) (prep zm im2) (Spec.ccErr e1 (prep zm im1)) (Spec.ccErr e2 (prep zm im2))) else none)
      = (pars, epars)) :
    crossCorrelationShifts cfg (some fit) im1 im2 e1 e2 none true re zm ah
      = .ok ([.fin (Spec.ccRef nx - pars 2), .fin (Spec.ccRef ny - pars 3)]
          ++ if re then [.fin (epars 2), .fin (epars 3)] else []) := by
  rw [ccShifts_eq _ _ _ _ _ _ _ _ _ _ _ hf]
  generalize prep zm im1 = a at *
  generalize prep zm im2 = b at *
  have ha := argmax_ccMap hloc
  have hne : Spec.ccMap a b (Np.argmax (Spec.ccMap a b)) ≠ 0 := by
    rw [ha]; exact div_ne_zero h0 size_pos.ne'
  unfold ccFromMap
  simp only [if_neg hne, Option.isSome_none, Bool.false_eq_true, if_false, errCorr_eq cfg ah hf, Except.map, bind,
    Except.bind, if_true, ccCentre_eq]
  cases re
  · simp only [Bool.false_eq_true, if_false] at hfit ⊢
    simp only [pure, Except.pure, hfit]
  · simp only [if_true] at hfit ⊢
    simp only [hfit]

/-- C78, the degenerate cases (`c` as in `C78_errors`, `X`, `Y` the curvatures of the map along x and y):
a perfect correlation `c² = 1` gives error 0 where the curvature is not 0; a vanishing curvature gives an infinite
error, or, for `c² = 1`, NaN, which is a ValueError for the x error (computed from `Y`) and is returned for the y
error. -/
theorem C78_degenerate (cfg : FFTConfig) (agpy : Agpy ny nx) (im1 im2 : Fin ny × Fin nx → Pix)
    (e1 e2 : Option (Fin ny × Fin nx → Pix)) (zm ah : Bool) (hf : Spec.fits ah ny nx)
    (loc : Fin ny × Fin nx) (hloc : Np.IsFirstMax (Spec.xcorr (prep zm im1) (prep zm im2)) loc)
    (h0 : Spec.xcorr (prep zm im1) (prep zm im2) loc ≠ 0) (hy : loc.1 ≠ 0) (hx : loc.2 ≠ 0)
    (q : Spec.LocalFit) (hq : q = Spec.localFit (Spec.ccMap (prep zm im1) (prep zm im2)) loc)
    (N S c : ℝ) (hN : N = ((ny * nx : ℕ) : ℝ))
    (hS : S = (∑ p, prep zm im1 p ^ 2) * ∑ p, prep zm im2 p ^ 2)
    (hc : c = N * Spec.xcorr (prep zm im1) (prep zm im2) loc / S) :
    ∃ rx ry ex ey, crossCorrelationShifts cfg agpy im1 im2 e1 e2 none false false zm ah = .ok [rx, ry] ∧
      crossCorrelationShifts cfg agpy im1 im2 e1 e2 none false true zm ah
        = (if c ^ 2 = 1 ∧ q.Y = 0 then .error .valueError else .ok [rx, ry, ex, ey]) ∧
      (c ^ 2 = 1 → q.Y ≠ 0 → ex = .fin 0) ∧ (c ^ 2 ≠ 1 → q.Y = 0 → ex = .inf) ∧
      (c ^ 2 = 1 → q.X ≠ 0 → ey = .fin 0) ∧ (c ^ 2 ≠ 1 → q.X = 0 → ey = .inf) ∧
      (c ^ 2 = 1 → q.X = 0 → ey = .nan) := by
  rw [ccShifts_eq _ _ _ _ _ _ _ _ _ _ _ hf, ccShifts_eq _ _ _ _ _ _ _ _ _ _ _ hf]
  generalize prep zm im1 = a at *
  generalize prep zm im2 = b at *
  have ha := argmax_ccMap hloc
  have hne : Spec.ccMap a b (Np.argmax (Spec.ccMap a b)) ≠ 0 := by
    rw [ha]; exact div_ne_zero h0 size_pos.ne'
  have vy : (loc.1 : ℕ) ≠ 0 := fun h => hy (Fin.ext h)
  have vx : (loc.2 : ℕ) ≠ 0 := fun h => hx (Fin.ext h)
  have main := fun re => ccFromMap_eq cfg ah hf agpy a b (Spec.ccMap a b) e1 e2 re hne (by rw [ha]; omega)
    (by rw [ha]; omega)
    ((loc.1 : ℕ) : ℤ) ((loc.2 : ℕ) : ℤ) (by rw [ha]) (by rw [ha]) q.X q.Y q.M q.fx q.fy
    (by rw [hq]; rfl) (by rw [hq]; rfl) (by rw [hq]; rfl) (by rw [hq]; rfl) (by rw [hq]; rfl)
  rw [main false, main true]
  simp only [Bool.false_eq_true, if_false, if_true]
  have hN0 : N ≠ 0 := by rw [hN]; exact size_pos.ne'
  have hS1 : ∑ p, a p ^ 2 ≠ 0 := by
    intro hz
    apply h0
    unfold Spec.xcorr
    refine Finset.sum_eq_zero fun p _ => ?_
    have := (Finset.sum_eq_zero_iff_of_nonneg (fun p _ => sq_nonneg (a p))).1 hz p (mem_univ _)
    rw [(pow_eq_zero_iff two_ne_zero).1 this, zero_mul]
  have hS2 : ∑ p, b p ^ 2 ≠ 0 := by
    intro hz
    apply h0
    unfold Spec.xcorr
    refine Finset.sum_eq_zero fun p _ => ?_
    have hb : ∀ r, b r = 0 := fun r => (pow_eq_zero_iff two_ne_zero).1
      ((Finset.sum_eq_zero_iff_of_nonneg (fun p _ => sq_nonneg (b p))).1 hz r (mem_univ _))
    rw [hb, mul_zero]
  have hnorm : 1 / ((∑ i, a i ^ 2) / ((ny * nx : ℕ) : ℝ)) / ((∑ i, b i ^ 2) / ((ny * nx : ℕ) : ℝ)) = N ^ 2 / S := by
    rw [← hN, hS]; field_simp
  have hcc : Spec.ccMap a b (Np.argmax (Spec.ccMap a b)) * (N ^ 2 / S) = c := by
    rw [ha, hc]; unfold Spec.ccMap; rw [← hN]
    field_simp
  have hS0 : S ≠ 0 := by rw [hS]; exact mul_ne_zero hS1 hS2
  have hc0 : c ≠ 0 := by rw [hc]; exact div_ne_zero (mul_ne_zero hN0 h0) hS0
  have hlead : ∀ k : ℝ, -1 * N * k * (N ^ 2 / S) / c = 0 ↔ k = 0 := by
    intro k
    rw [div_eq_zero_iff, mul_eq_zero, mul_eq_zero, mul_eq_zero, div_eq_zero_iff]
    constructor
    · rintro (((h | h) | h) | h)
      · rcases h with h | h
        · norm_num at h
        · exact absurd h hN0
      · exact h
      · rcases h with h | h
        · exact absurd h (pow_ne_zero _ hN0)
        · exact absurd h hS0
      · exact absurd h hc0
    · intro h; exact .inl (.inl (.inr h))
  have z1 : ∀ k : ℝ, c ^ 2 = 1 → k ≠ 0 → zuckerError N k (N ^ 2 / S) c = .fin 0 := by
    intro k h1 hk
    unfold zuckerError
    simp only
    rw [if_pos (by rw [h1]; ring), if_neg (by rw [hlead]; exact hk)]
  have z2 : ∀ k : ℝ, c ^ 2 ≠ 1 → k = 0 → zuckerError N k (N ^ 2 / S) c = .inf := by
    intro k h1 hk
    unfold zuckerError
    simp only
    rw [if_neg (fun h => h1 (by linarith)), if_pos (by rw [(hlead k).2 hk, zero_mul])]
  have z3 : ∀ k : ℝ, c ^ 2 = 1 → k = 0 → zuckerError N k (N ^ 2 / S) c = .nan := by
    intro k h1 hk
    unfold zuckerError
    simp only
    rw [if_pos (by rw [h1]; ring), if_pos ((hlead k).2 hk)]
  have z4 : ∀ k : ℝ, ¬ (c ^ 2 = 1 ∧ k = 0) → zuckerError N k (N ^ 2 / S) c ≠ .nan := by
    intro k h
    unfold zuckerError
    simp only
    split_ifs with h1 h2 h2
    · exact absurd ⟨by linarith, (hlead k).1 h2⟩ h
    · exact fun h => Fl.noConfusion h
    · exact fun h => Fl.noConfusion h
    · exact fun h => Fl.noConfusion h
  rw [hnorm, hcc, ← hN]
  refine ⟨_, _, zuckerError N q.Y (N ^ 2 / S) c, zuckerError N q.X (N ^ 2 / S) c, rfl, ?_, z1 _, z2 _, z1 _, z2 _, z3 _⟩
  by_cases h : c ^ 2 = 1 ∧ q.Y = 0
  · rw [if_pos h, z3 _ h.1 h.2]
  · rw [if_neg h]
    have := z4 _ h
    cases hz : zuckerError N q.Y (N ^ 2 / S) c with
    | nan => exact absurd hz this
    | inf => rfl
    | fin r => rfl

theorem point3_xcorr (i : Fin 3 × Fin 3) :
    Spec.xcorr (fun p : Fin 3 × Fin 3 => if p = (0, 0) then (3 : ℝ) else 0) (fun p => if p = (0, 0) then 3 else 0) i
      = if i = (1, 1) then 9 else 0 := by
  unfold Spec.xcorr
  rw [Finset.sum_eq_single (0, 0) (fun p _ hp => by simp [hp]) (by simp)]
  have : ∀ i : Fin 3 × Fin 3, Spec.move ((Spec.zeroLag 3 : ℤ) - ((i.1 : ℕ) : ℤ)) ((Spec.zeroLag 3 : ℤ) - ((i.2 : ℕ) : ℤ))
      ((0, 0) : Fin 3 × Fin 3) = (0, 0) ↔ i = (1, 1) := by decide
  simp only [this, if_true]
  split_ifs <;> norm_num

/-- C53, C78, non-vacuity: an image with a single pixel of brightness 3 (3×3 pixels) against itself: signal, the peak at the
central pixel, perfect correlation `c² = 1`, and curvature; both errors come out as 0. -/
example (cfg : FFTConfig) : ∃ rx ry,
    crossCorrelationShifts cfg none (realArr fun p : Fin 3 × Fin 3 => if p = (0, 0) then (3 : ℝ) else 0)
      (realArr fun p : Fin 3 × Fin 3 => if p = (0, 0) then (3 : ℝ) else 0) none none none false true false false
      = .ok [rx, ry, .fin 0, .fin 0] := by
  have hp : prep false (realArr fun p : Fin 3 × Fin 3 => if p = (0, 0) then (3 : ℝ) else 0)
      = fun p => if p = (0, 0) then (3 : ℝ) else 0 := by
    rw [prep_real]; funext p; simp
  have hX : (Spec.localFit (Spec.ccMap (fun p : Fin 3 × Fin 3 => if p = (0, 0) then (3 : ℝ) else 0)
      (fun p => if p = (0, 0) then 3 else 0)) (1, 1)).X ≠ 0 := by
    simp [Spec.localFit, Spec.curvX, Spec.ext0, Spec.ccMap, point3_xcorr]
  have hY : (Spec.localFit (Spec.ccMap (fun p : Fin 3 × Fin 3 => if p = (0, 0) then (3 : ℝ) else 0)
      (fun p => if p = (0, 0) then 3 else 0)) (1, 1)).Y ≠ 0 := by
    simp [Spec.localFit, Spec.curvY, Spec.ext0, Spec.ccMap, point3_xcorr]
  have hmax : Np.IsFirstMax (Spec.xcorr (fun p : Fin 3 × Fin 3 => if p = (0, 0) then (3 : ℝ) else 0)
      (fun p => if p = (0, 0) then 3 else 0)) (1, 1) := by
    rw [← Np.argmax_eq_of_unique (f := Spec.xcorr (fun p : Fin 3 × Fin 3 => if p = (0, 0) then (3 : ℝ) else 0)
      (fun p => if p = (0, 0) then 3 else 0)) (i := (1, 1)) (fun j hj => by
        rw [point3_xcorr, point3_xcorr, if_neg hj, if_pos rfl]; norm_num)]
    exact Np.argmax_spec _
  have hsum : ∑ p : Fin 3 × Fin 3, (if p = (0, 0) then (3 : ℝ) else 0) ^ 2 = 9 := by
    rw [Finset.sum_eq_single (0, 0) (fun p _ hp => by simp [hp]) (by simp)]; norm_num
  have hc : ((3 * 3 : ℕ) : ℝ) * 9 / (9 * 9) = 1 := by norm_num
  obtain ⟨rx, ry, ex, ey, -, h, h1, -, h2, -, -⟩ := C78_degenerate cfg none
    (realArr fun p : Fin 3 × Fin 3 => if p = (0, 0) then (3 : ℝ) else 0)
    (realArr fun p : Fin 3 × Fin 3 => if p = (0, 0) then (3 : ℝ) else 0) none none false false (Or.inr (by norm_num)) (1, 1)
    (by rw [hp]; exact hmax) (by rw [hp, point3_xcorr]; norm_num) (by decide) (by decide) _ rfl _ _ _ rfl rfl rfl
  rw [hp] at h h1 h2
  simp only [point3_xcorr, if_true, hsum, hc] at h h1 h2
  refine ⟨rx, ry, ?_⟩
  rw [h, if_neg (fun h => hY h.2), h1 (by norm_num) hY, h2 (by norm_num) hX]

end

end ImgReg
