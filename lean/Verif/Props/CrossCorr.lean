import Verif.Lemmas.AutoCorr

/-!
# Properties of `cross_correlation_shifts` and `second_derivative` (C50–C53, C78, C27)
-/

open Finset

namespace ImgReg

/-! ## C52 -/

/-- C52: `second_derivative` of an image of any size gives, at every pixel, the three-point second
differences along x and along y and minus the usual mixed difference; pixels outside count as 0. -/
theorem C52_second_derivative {m n : ℕ} (image : Fin m × Fin n → ℝ) (y : Fin m) (x : Fin n) :
    let E := Spec.ext0 image
    let r : ℤ := ((y : ℕ) : ℤ)
    let c : ℤ := ((x : ℕ) : ℤ)
    (secondDerivative image).dxx (y, x) = E r (c + 1) + E r (c - 1) - 2 * E r c ∧
    (secondDerivative image).dyy (y, x) = E (r + 1) c + E (r - 1) c - 2 * E r c ∧
    (secondDerivative image).dxy (y, x)
      = -((E (r + 1) (c + 1) + E (r - 1) (c - 1) - E (r + 1) (c - 1) - E (r - 1) (c + 1)) / 4) :=
  secondDerivative_eq image (y, x)

/-- C52, non-vacuity: the mixed derivative of `x·y` (whose mixed difference is `+1` inside) comes out as
`-1`. -/
example : (secondDerivative (fun i : Fin 3 × Fin 3 => ((i.1 : ℕ) : ℝ) * ((i.2 : ℕ) : ℝ))).dxy (1, 1) = -1 := by
  rw [(C52_second_derivative _ _ _).2.2]
  norm_num [Spec.ext0, show Int.toNat 2 = 2 from rfl]

section
variable {ny nx : ℕ} [NeZero ny] [NeZero nx]

/-! ## C27 -/

/-- C27 for `cross_correlation_shifts`: images of different shape are refused with ValueError. -/
theorem C27_cross_correlation_shifts {my mx : ℕ} (cfg : FFTConfig) (agpy : Agpy ny nx)
    (im1 : Fin ny × Fin nx → Pix) (im2 : Fin my × Fin mx → Pix) (e1 e2 : Option (Fin ny × Fin nx → Pix))
    (mo : Option ℕ) (g re zm ah : Bool) (h : (ny, nx) ≠ (my, mx)) :
    crossCorrelationShifts cfg agpy im1 im2 e1 e2 mo g re zm ah = .error .valueError := by
  unfold crossCorrelationShifts
  rw [dif_neg]
  rintro ⟨rfl, rfl⟩; exact h rfl

/-! ## C53 -/

/-- the value at the first maximum does not depend on which maximum it is -/
theorem argmax_val {c : Fin ny × Fin nx → ℝ} {i : Fin ny × Fin nx} (h : ∀ j, c j ≤ c i) :
    c (Np.argmax c) = c i := le_antisymm (h _) ((Np.argmax_spec c).1 i)

/-- C53: if the largest value of the correlation map is 0 the result is exactly `(0, 0)` — two values,
whatever the flags. -/
theorem C53_no_signal (cfg : FFTConfig) (agpy : Agpy ny nx) (im1 im2 : Fin ny × Fin nx → Pix)
    (e1 e2 : Option (Fin ny × Fin nx → Pix)) (mo : Option ℕ) (g re zm ah : Bool) (hf : Spec.fits ah ny nx)
    (hmax : ∀ i, Spec.xcorr (prep zm im1) (prep zm im2) i ≤ 0)
    (hex : ∃ i, Spec.xcorr (prep zm im1) (prep zm im2) i = 0) :
    crossCorrelationShifts cfg agpy im1 im2 e1 e2 mo g re zm ah = .ok [.fin 0, .fin 0] := by
  rw [ccShifts_eq _ _ _ _ _ _ _ _ _ _ _ hf]
  obtain ⟨i, hi⟩ := hex
  have h0 : Spec.ccMap (prep zm im1) (prep zm im2) i = 0 := by unfold Spec.ccMap; rw [hi, zero_div]
  have : Spec.ccMap (prep zm im1) (prep zm im2) (Np.argmax (Spec.ccMap (prep zm im1) (prep zm im2))) = 0 := by
    have hle : ∀ j, Spec.ccMap (prep zm im1) (prep zm im2) j ≤ Spec.ccMap (prep zm im1) (prep zm im2) i := by
      intro j
      rw [h0]
      exact div_nonpos_of_nonpos_of_nonneg (hmax j) (by positivity)
    rw [argmax_val hle, h0]
  unfold ccFromMap
  rw [if_pos this]

/-- C53, non-vacuity: two constant images have no signal once the mean is subtracted. -/
example (cfg : FFTConfig) (agpy : Agpy 3 4) (re : Bool) :
    crossCorrelationShifts cfg agpy (realArr fun _ : Fin 3 × Fin 4 => 5) (realArr fun _ : Fin 3 × Fin 4 => 7) none none (some 2)
      true re true false = .ok [.fin 0, .fin 0] := by
  have h : prep true (realArr fun _ : Fin 3 × Fin 4 => (5 : ℝ)) = fun _ => 0 := by
    rw [prep_real]; funext p; norm_num [Spec.mean]
  refine C53_no_signal _ _ _ _ _ _ _ _ _ _ _ (Or.inr (by norm_num)) ?_ ⟨0, ?_⟩ <;>
    simp [h, Spec.xcorr]

/-- C53: with `zeromean` the correlation map sums to 0, so its maximum is 0 only when the map vanishes
identically: "no signal" is never reported when there is some. -/
theorem C53_zeromean_max (im1 im2 : Fin ny × Fin nx → Pix)
    (hmax : ∀ i, Spec.xcorr (prep true im1) (prep true im2) i ≤ 0) (i : Fin ny × Fin nx) :
    Spec.xcorr (prep true im1) (prep true im2) i = 0 := by
  -- the prepared second image sums to 0
  have hs : ∑ p, prep true im2 p = 0 := by
    rw [prep_def]
    simp only [if_true]
    by_cases hn : (univ.filter fun i => (im2 i).isSome).card = 0
    · refine Finset.sum_eq_zero fun p _ => ?_
      simp [Spec.nan0, subPix, nanMean, hn]
    · have hm : nanMean im2 = some ((∑ i ∈ univ.filter fun i => (im2 i).isSome, (im2 i).getD 0)
          / ((univ.filter fun i => (im2 i).isSome).card : ℝ)) := by
        unfold nanMean; rw [if_neg hn]
      generalize hmd : (∑ i ∈ univ.filter fun i => (im2 i).isSome, (im2 i).getD 0)
          / ((univ.filter fun i => (im2 i).isSome).card : ℝ) = m at hm
      have : ∀ p, Spec.nan0 (subPix im2 (nanMean im2)) p
          = if (im2 p).isSome then (im2 p).getD 0 - m else 0 := by
        intro p
        rw [hm]
        cases hp : im2 p <;> simp [Spec.nan0, subPix, hp]
      simp only [this]
      have hc : ((univ.filter fun i => (im2 i).isSome).card : ℝ) ≠ 0 := by exact_mod_cast hn
      rw [← Finset.sum_filter, Finset.sum_sub_distrib, Finset.sum_const, nsmul_eq_mul, ← hmd]
      field_simp
      ring
  have hsum : ∑ i, Spec.xcorr (prep true im1) (prep true im2) i = 0 := by
    unfold Spec.xcorr
    rw [Finset.sum_comm]
    refine Finset.sum_eq_zero fun p _ => ?_
    rw [← Finset.mul_sum]
    have : ∑ i : Fin ny × Fin nx, prep true im2 (Spec.move ((Spec.zeroLag ny : ℤ) - ((i.1 : ℕ) : ℤ))
        ((Spec.zeroLag nx : ℤ) - ((i.2 : ℕ) : ℤ)) p) = ∑ p, prep true im2 p := by
      have hw : ∀ (n : ℕ) [NeZero n] (q i : Fin n), Spec.wrap n (((q : ℕ) : ℤ) + ((Spec.zeroLag n : ℤ)
          - ((i : ℕ) : ℤ))) = Spec.wrap n (((q : ℕ) : ℤ) + (Spec.zeroLag n : ℤ)) - i := by
        intro n _ q i
        rw [Spec.wrap_eq_iff]
        refine Int.ModEq.symm ((Fin.val_sub_modEq _ _).trans ?_)
        have := (Spec.wrap_modEq n (((q : ℕ) : ℤ) + (Spec.zeroLag n : ℤ))).sub (Int.ModEq.refl ((i : ℕ) : ℤ))
        rwa [add_sub_assoc] at this
      unfold Spec.move
      simp only [hw]
      exact Fintype.sum_equiv (Equiv.subLeft ((Spec.wrap ny (((p.1 : ℕ) : ℤ) + (Spec.zeroLag ny : ℤ)),
        Spec.wrap nx (((p.2 : ℕ) : ℤ) + (Spec.zeroLag nx : ℤ))) : Fin ny × Fin nx)) _ _ fun i => rfl
    rw [this, hs, mul_zero]
  have := (Finset.sum_eq_zero_iff_of_nonpos (fun i _ => hmax i)).1 hsum
  exact this i (mem_univ _)

/-- C53: as soon as there is signal, any `maxoff` raises TypeError. -/
theorem C53_maxoff (cfg : FFTConfig) (agpy : Agpy ny nx) (im1 im2 : Fin ny × Fin nx → Pix)
    (e1 e2 : Option (Fin ny × Fin nx → Pix)) (mo : ℕ) (g re zm ah : Bool) (hf : Spec.fits ah ny nx)
    (hex : (∃ i, 0 < Spec.xcorr (prep zm im1) (prep zm im2) i) ∨
      ∀ i, Spec.xcorr (prep zm im1) (prep zm im2) i < 0) :
    crossCorrelationShifts cfg agpy im1 im2 e1 e2 (some mo) g re zm ah = .error .typeError := by
  rw [ccShifts_eq _ _ _ _ _ _ _ _ _ _ _ hf]
  have : Spec.ccMap (prep zm im1) (prep zm im2) (Np.argmax (Spec.ccMap (prep zm im1) (prep zm im2))) ≠ 0 := by
    have hN : (0 : ℝ) < ((ny * nx : ℕ) : ℝ) := by
      exact_mod_cast Nat.mul_pos (Nat.pos_of_ne_zero (NeZero.ne ny)) (Nat.pos_of_ne_zero (NeZero.ne nx))
    rcases hex with ⟨i, hi⟩ | h
    · have h1 := (Np.argmax_spec (Spec.ccMap (prep zm im1) (prep zm im2))).1 i
      have h2 : 0 < Spec.ccMap (prep zm im1) (prep zm im2) i := div_pos hi hN
      exact (lt_of_lt_of_le h2 h1).ne'
    · exact (div_neg_of_neg_of_pos (h _) hN).ne
  unfold ccFromMap
  rw [if_neg this]
  rfl

theorem size_pos : (0 : ℝ) < ((ny * nx : ℕ) : ℝ) := by
  exact_mod_cast Nat.mul_pos (Nat.pos_of_ne_zero (NeZero.ne ny)) (Nat.pos_of_ne_zero (NeZero.ne nx))

theorem argmax_ccMap {a b : Fin ny × Fin nx → ℝ} {loc : Fin ny × Fin nx}
    (h : Np.IsFirstMax (Spec.xcorr a b) loc) : Np.argmax (Spec.ccMap a b) = loc := by
  rw [← Np.argmax_eq h]
  exact Np.argmax_comp fun i j => div_le_div_iff_of_pos_right size_pos

/-- C53: without a Gaussian fit, a peak in the first row or the first column raises ValueError (the slice
around it starts at index -1). -/
theorem C53_first_row_or_column (cfg : FFTConfig) (agpy : Agpy ny nx) (im1 im2 : Fin ny × Fin nx → Pix)
    (e1 e2 : Option (Fin ny × Fin nx → Pix)) (re zm ah : Bool) (hf : Spec.fits ah ny nx)
    (loc : Fin ny × Fin nx) (hloc : Np.IsFirstMax (Spec.xcorr (prep zm im1) (prep zm im2)) loc)
    (h0 : Spec.xcorr (prep zm im1) (prep zm im2) loc ≠ 0) (hedge : loc.1 = 0 ∨ loc.2 = 0) :
    crossCorrelationShifts cfg agpy im1 im2 e1 e2 none false re zm ah = .error .valueError := by
  rw [ccShifts_eq _ _ _ _ _ _ _ _ _ _ _ hf]
  generalize prep zm im1 = a at *
  generalize prep zm im2 = b at *
  have ha := argmax_ccMap hloc
  obtain ⟨m, hm⟩ := errCorr_ok cfg ah hf a b e1 e2
  have hne : Spec.ccMap a b (Np.argmax (Spec.ccMap a b)) ≠ 0 := by
    rw [ha]; exact div_ne_zero h0 size_pos.ne'
  have hg : npGradient (localValues (Spec.ccMap a b) (Np.argmax (Spec.ccMap a b)).1
      (Np.argmax (Spec.ccMap a b)).2) = .error .valueError := by
    unfold npGradient
    rw [dif_neg]
    rintro ⟨h1, h2⟩
    rcases hedge with h | h
    · have hz : ((Np.argmax (Spec.ccMap a b)).1 : ℕ) = 0 := by rw [ha, h]; rfl
      have := pySlice_zero ny (Nat.pos_of_ne_zero (NeZero.ne ny))
      rw [← hz] at this; omega
    · have hz : ((Np.argmax (Spec.ccMap a b)).2 : ℕ) = 0 := by rw [ha, h]; rfl
      have := pySlice_zero nx (Nat.pos_of_ne_zero (NeZero.ne nx))
      rw [← hz] at this; omega
  unfold ccFromMap
  cases re <;>
    simp only [hne, if_false, Option.isSome_none, Bool.false_eq_true, bind, Except.bind, pure, Except.pure, hg,
      hm, Except.map, if_true]

/-- C53: a Gaussian fit without agpy installed raises ImportError whenever there is signal. -/
theorem C53_gaussfit_needs_agpy (cfg : FFTConfig) (im1 im2 : Fin ny × Fin nx → Pix)
    (e1 e2 : Option (Fin ny × Fin nx → Pix)) (re zm ah : Bool) (hf : Spec.fits ah ny nx)
    (loc : Fin ny × Fin nx) (hloc : Np.IsFirstMax (Spec.xcorr (prep zm im1) (prep zm im2)) loc)
    (h0 : Spec.xcorr (prep zm im1) (prep zm im2) loc ≠ 0) :
    crossCorrelationShifts cfg none im1 im2 e1 e2 none true re zm ah = .error .importError := by
  rw [ccShifts_eq _ _ _ _ _ _ _ _ _ _ _ hf]
  obtain ⟨m, hm⟩ := errCorr_ok cfg ah hf (prep zm im1) (prep zm im2) e1 e2
  have hne : Spec.ccMap (prep zm im1) (prep zm im2) (Np.argmax (Spec.ccMap (prep zm im1) (prep zm im2))) ≠ 0 := by
    rw [argmax_ccMap hloc]; exact div_ne_zero h0 size_pos.ne'
  unfold ccFromMap
  cases re <;>
    simp only [hne, if_false, Option.isSome_none, Bool.false_eq_true, bind, Except.bind, pure, Except.pure,
      hm, Except.map, if_true]

/-- C53: with agpy installed, a Gaussian fit always returns two values, four with `return_error`. -/
theorem C53_gaussfit_values (cfg : FFTConfig) (fit) (im1 im2 : Fin ny × Fin nx → Pix)
    (e1 e2 : Option (Fin ny × Fin nx → Pix)) (re zm ah : Bool) (hf : Spec.fits ah ny nx)
    (loc : Fin ny × Fin nx) (hloc : Np.IsFirstMax (Spec.xcorr (prep zm im1) (prep zm im2)) loc)
    (h0 : Spec.xcorr (prep zm im1) (prep zm im2) loc ≠ 0) :
    ∃ r, crossCorrelationShifts cfg (some fit) im1 im2 e1 e2 none true re zm ah = .ok r ∧
      r.length = if re then 4 else 2 := by
  rw [ccShifts_eq _ _ _ _ _ _ _ _ _ _ _ hf]
  obtain ⟨m, hm⟩ := errCorr_ok cfg ah hf (prep zm im1) (prep zm im2) e1 e2
  have hne : Spec.ccMap (prep zm im1) (prep zm im2) (Np.argmax (Spec.ccMap (prep zm im1) (prep zm im2))) ≠ 0 := by
    rw [argmax_ccMap hloc]; exact div_ne_zero h0 size_pos.ne'
  unfold ccFromMap
  cases re <;>
    simp only [hne, if_false, Option.isSome_none, Bool.false_eq_true, bind, Except.bind, pure, Except.pure,
      hm, Except.map, if_true] <;>
    exact ⟨_, rfl, rfl⟩

/-! ## C51 -/

/-- the finite differences of the correlation map around its peak -/
structure Spec.LocalFit where
  X : ℝ
  Y : ℝ
  M : ℝ
  fx : ℝ
  fy : ℝ

/-- curvatures, mixed derivative and slopes of the map `c` at pixel `(y, x)` (0 outside the map) -/
noncomputable def Spec.localFit (c : Fin ny × Fin nx → ℝ) (loc : Fin ny × Fin nx) : Spec.LocalFit :=
  let y : ℤ := ((loc.1 : ℕ) : ℤ)
  let x : ℤ := ((loc.2 : ℕ) : ℤ)
  { X := Spec.curvX (Spec.ext0 c) y x
    Y := Spec.curvY (Spec.ext0 c) y x
    M := Spec.mixed (Spec.ext0 c) y x
    fx := Spec.slopeX nx (Spec.ext0 c) y x
    fy := Spec.slopeY ny (Spec.ext0 c) y x }

/-- the reference position: `(n-1)//2` for even `n`, half a pixel more for odd `n` -/
noncomputable def Spec.ccRef (n : ℕ) : ℝ := (Spec.zeroLag n : ℝ) + if n % 2 = 1 then 1 / 2 else 0

theorem ccCentre_eq (n : ℕ) [NeZero n] : ccCentre n = Spec.ccRef n := by
  unfold ccCentre Spec.ccRef Spec.zeroLag
  have := Nat.pos_of_ne_zero (NeZero.ne n)
  rcases Nat.even_or_odd' n with ⟨k, rfl | rfl⟩
  · have h1 : 2 * k % 2 = 0 := by omega
    have h2 : (2 * k - 1) / 2 = k - 1 := by omega
    rw [h1, h2, if_neg (by norm_num), Nat.cast_sub (by omega)]
    push_cast; ring
  · have h1 : (2 * k + 1) % 2 = 1 := by omega
    have h2 : (2 * k + 1 - 1) / 2 = k := by omega
    rw [h1, h2, if_pos rfl]
    push_cast; ring

/-- everything about a call without Gaussian fit and without `return_error` whose peak is not in the
first row or column -/
theorem C51_formula (cfg : FFTConfig) (agpy : Agpy ny nx) (im1 im2 : Fin ny × Fin nx → Pix)
    (e1 e2 : Option (Fin ny × Fin nx → Pix)) (zm ah : Bool) (hf : Spec.fits ah ny nx)
    (loc : Fin ny × Fin nx) (hloc : Np.IsFirstMax (Spec.xcorr (prep zm im1) (prep zm im2)) loc)
    (h0 : Spec.xcorr (prep zm im1) (prep zm im2) loc ≠ 0) (hy : loc.1 ≠ 0) (hx : loc.2 ≠ 0)
    (q : Spec.LocalFit) (hq : q = Spec.localFit (Spec.ccMap (prep zm im1) (prep zm im2)) loc) :
    crossCorrelationShifts cfg agpy im1 im2 e1 e2 none false false zm ah = .ok
      (if q.M ^ 2 - q.X * q.Y = 0 then
        [if q.X * q.fx + q.M * q.fy = 0 then .nan else .inf, if q.Y * q.fy + q.M * q.fx = 0 then .nan else .inf]
       else
        [.fin (Spec.ccRef nx - ((loc.2 : ℕ) : ℝ) - (q.X * q.fx + q.M * q.fy) / (q.M ^ 2 - q.X * q.Y)),
         .fin (Spec.ccRef ny - ((loc.1 : ℕ) : ℝ) - (q.Y * q.fy + q.M * q.fx) / (q.M ^ 2 - q.X * q.Y))]) := by
  rw [ccShifts_eq _ _ _ _ _ _ _ _ _ _ _ hf]
  generalize prep zm im1 = a at *
  generalize prep zm im2 = b at *
  have ha := argmax_ccMap hloc
  have hne : Spec.ccMap a b (Np.argmax (Spec.ccMap a b)) ≠ 0 := by
    rw [ha]; exact div_ne_zero h0 size_pos.ne'
  have vy : (loc.1 : ℕ) ≠ 0 := fun h => hy (Fin.ext h)
  have vx : (loc.2 : ℕ) ≠ 0 := fun h => hx (Fin.ext h)
  rw [ccFromMap_eq cfg ah hf agpy a b (Spec.ccMap a b) e1 e2 false hne (by rw [ha]; omega) (by rw [ha]; omega)
    ((loc.1 : ℕ) : ℤ) ((loc.2 : ℕ) : ℤ) (by rw [ha]) (by rw [ha]) q.X q.Y q.M q.fx q.fy
    (by rw [hq]; rfl) (by rw [hq]; rfl) (by rw [hq]; rfl) (by rw [hq]; rfl) (by rw [hq]; rfl)]
  simp only [Bool.false_eq_true, if_false, ccCentre_eq, Int.cast_natCast]
  congr 1
  unfold Fl.div
  split_ifs <;> simp only [Fl.negAdd]
  congr 2
  · ring
  · congr 2; ring

/-- the displacement at which the local quadratic with these derivatives is stationary -/
def Spec.stationary (q : Spec.LocalFit) (sx sy : ℝ) : Prop :=
  q.fx + q.X * sx + q.M * sy = 0 ∧ q.fy + q.M * sx + q.Y * sy = 0

/-- C51: the sub-pixel correction is the stationary point of the local quadratic exactly when the slopes
vanish (then the correction is 0) or the two curvatures are equal and the mixed derivative is 0. -/
theorem C51_stationary_iff (cfg : FFTConfig) (agpy : Agpy ny nx) (im1 im2 : Fin ny × Fin nx → Pix)
    (e1 e2 : Option (Fin ny × Fin nx → Pix)) (zm ah : Bool) (hf : Spec.fits ah ny nx)
    (loc : Fin ny × Fin nx) (hloc : Np.IsFirstMax (Spec.xcorr (prep zm im1) (prep zm im2)) loc)
    (h0 : Spec.xcorr (prep zm im1) (prep zm im2) loc ≠ 0) (hy : loc.1 ≠ 0) (hx : loc.2 ≠ 0)
    (q : Spec.LocalFit) (hq : q = Spec.localFit (Spec.ccMap (prep zm im1) (prep zm im2)) loc)
    (hdet : q.M ^ 2 - q.X * q.Y ≠ 0) :
    ∃ sx sy : ℝ, crossCorrelationShifts cfg agpy im1 im2 e1 e2 none false false zm ah
        = .ok [.fin (Spec.ccRef nx - ((loc.2 : ℕ) : ℝ) - sx), .fin (Spec.ccRef ny - ((loc.1 : ℕ) : ℝ) - sy)] ∧
      (Spec.stationary q sx sy ↔ (q.fx = 0 ∧ q.fy = 0) ∨ (q.X = q.Y ∧ q.M = 0)) ∧
      (q.fx = 0 ∧ q.fy = 0 → sx = 0 ∧ sy = 0) := by
  have h := C51_formula cfg agpy im1 im2 e1 e2 zm ah hf loc hloc h0 hy hx q hq
  rw [if_neg hdet] at h
  refine ⟨_, _, h, ?_, ?_⟩
  · obtain ⟨X, Y, M, fx, fy⟩ := q
    simp only at hdet
    unfold Spec.stationary
    simp only
    constructor
    · rintro ⟨h1, h2⟩
      field_simp at h1 h2
      -- both equations, combined, say ((X-Y)^2 + 4 M^2) (fx^2 + fy^2) = 0
      have k1 : (X - Y) * fx + 2 * M * fy = 0 := by
        have : (M ^ 2 - X * Y) * ((X - Y) * fx + 2 * M * fy) = 0 := by
          linear_combination M * h2 - Y * h1
        exact (mul_eq_zero.1 this).resolve_left hdet
      have k2 : (Y - X) * fy + 2 * M * fx = 0 := by
        have : (M ^ 2 - X * Y) * ((Y - X) * fy + 2 * M * fx) = 0 := by
          linear_combination M * h1 - X * h2
        exact (mul_eq_zero.1 this).resolve_left hdet
      by_cases hz : fx = 0 ∧ fy = 0
      · exact Or.inl hz
      · right
        have hg : 0 < fx ^ 2 + fy ^ 2 := by
          rcases not_and_or.1 hz with h | h <;> positivity
        have e : ((X - Y) ^ 2 + 4 * M ^ 2) * (fx ^ 2 + fy ^ 2) = 0 := by
          have : ((X - Y) ^ 2 + 4 * M ^ 2) * (fx ^ 2 + fy ^ 2)
              = ((X - Y) * fx + 2 * M * fy) ^ 2 + ((Y - X) * fy + 2 * M * fx) ^ 2 := by ring
          rw [this, k1, k2]; norm_num
        have := (mul_eq_zero.1 e).resolve_right hg.ne'
        constructor
        · nlinarith [sq_nonneg (X - Y), sq_nonneg M]
        · nlinarith [sq_nonneg (X - Y), sq_nonneg M]
    · rintro (⟨rfl, rfl⟩ | ⟨rfl, rfl⟩)
      · simp
      · simp only [ne_eq, OfNat.ofNat_ne_zero, not_false_eq_true, zero_pow, zero_sub, neg_eq_zero,
          mul_self_eq_zero, zero_mul, add_zero] at hdet ⊢
        constructor <;> field_simp <;> ring
  · rintro ⟨h1, h2⟩
    rw [h1, h2]; simp

/-- C51: for a correlation map that is point-symmetric about an interior peak the correction vanishes. -/
theorem C51_symmetric (cfg : FFTConfig) (agpy : Agpy ny nx) (im1 im2 : Fin ny × Fin nx → Pix)
    (e1 e2 : Option (Fin ny × Fin nx → Pix)) (zm ah : Bool) (hf : Spec.fits ah ny nx)
    (loc : Fin ny × Fin nx) (hloc : Np.IsFirstMax (Spec.xcorr (prep zm im1) (prep zm im2)) loc)
    (h0 : Spec.xcorr (prep zm im1) (prep zm im2) loc ≠ 0)
    (hy : 1 ≤ (loc.1 : ℕ)) (hy' : (loc.1 : ℕ) + 2 ≤ ny) (hx : 1 ≤ (loc.2 : ℕ)) (hx' : (loc.2 : ℕ) + 2 ≤ nx)
    (q : Spec.LocalFit) (hq : q = Spec.localFit (Spec.ccMap (prep zm im1) (prep zm im2)) loc)
    (hdet : q.M ^ 2 - q.X * q.Y ≠ 0)
    (hsy : ∀ i j : Fin ny × Fin nx, (i.1 : ℕ) + (j.1 : ℕ) = 2 * (loc.1 : ℕ) →
      (i.2 : ℕ) + (j.2 : ℕ) = 2 * (loc.2 : ℕ) →
      Spec.xcorr (prep zm im1) (prep zm im2) i = Spec.xcorr (prep zm im1) (prep zm im2) j) :
    crossCorrelationShifts cfg agpy im1 im2 e1 e2 none false false zm ah
        = .ok [.fin (Spec.ccRef nx - ((loc.2 : ℕ) : ℝ)), .fin (Spec.ccRef ny - ((loc.1 : ℕ) : ℝ))] := by
  obtain ⟨sx, sy, h, -, hz⟩ := C51_stationary_iff cfg agpy im1 im2 e1 e2 zm ah hf loc hloc h0
    (fun h => by rw [h] at hy; exact absurd hy (by simp)) (fun h => by rw [h] at hx; exact absurd hx (by simp))
    q hq hdet
  have hl1 := loc.1.isLt
  have hl2 := loc.2.isLt
  have hs : ∀ i j : Fin ny × Fin nx, (i.1 : ℕ) + (j.1 : ℕ) = 2 * (loc.1 : ℕ) →
      (i.2 : ℕ) + (j.2 : ℕ) = 2 * (loc.2 : ℕ) →
      Spec.ccMap (prep zm im1) (prep zm im2) i = Spec.ccMap (prep zm im1) (prep zm im2) j := by
    intro i j h1 h2
    unfold Spec.ccMap
    rw [hsy i j h1 h2]
  obtain ⟨z1, z2⟩ := hz (by
    rw [hq]
    unfold Spec.localFit Spec.slopeX Spec.slopeY
    simp only
    rw [if_pos (by omega), if_pos (by omega)]
    constructor
    · rw [ext0_eq _ (loc.1, ⟨(loc.2 : ℕ) + 1, by omega⟩) rfl (by simp),
        ext0_eq _ (loc.1, ⟨(loc.2 : ℕ) - 1, by omega⟩) rfl (by simp; omega),
        hs (loc.1, ⟨(loc.2 : ℕ) + 1, by omega⟩) (loc.1, ⟨(loc.2 : ℕ) - 1, by omega⟩) (by simp; omega)
          (by simp; omega)]
      simp
    · rw [ext0_eq _ (⟨(loc.1 : ℕ) + 1, by omega⟩, loc.2) (by simp) rfl,
        ext0_eq _ (⟨(loc.1 : ℕ) - 1, by omega⟩, loc.2) (by simp; omega) rfl,
        hs (⟨(loc.1 : ℕ) + 1, by omega⟩, loc.2) (⟨(loc.1 : ℕ) - 1, by omega⟩, loc.2) (by simp; omega)
          (by simp; omega)]
      simp)
  rw [h, z1, z2, sub_zero, sub_zero]

/-! ## C50 -/

/-- the autocorrelation map of an aperiodic image and its roll: where the peak is -/
theorem roll_peak (a : Fin ny × Fin nx → ℝ) (ha : Spec.aperiodic a) (dy dx : ℤ) (loc : Fin ny × Fin nx)
    (hy : ((loc.1 : ℕ) : ℤ) = Spec.zeroLag ny - dy) (hx : ((loc.2 : ℕ) : ℤ) = Spec.zeroLag nx - dx)
    (j : Fin ny × Fin nx) (hj : j ≠ loc) :
    Spec.xcorr a (Spec.roll2 dy dx a) j < Spec.xcorr a (Spec.roll2 dy dx a) loc := by
  rw [xcorr_roll, xcorr_roll, hy, hx]
  have e1 : (Spec.zeroLag ny : ℤ) - ((Spec.zeroLag ny : ℤ) - dy) - dy = 0 := by ring
  have e2 : (Spec.zeroLag nx : ℤ) - ((Spec.zeroLag nx : ℤ) - dx) - dx = 0 := by ring
  rw [e1, e2]
  refine autocorr_lt a ha _ _ fun ⟨h1, h2⟩ => hj ?_
  have key : ∀ (n : ℕ) [NeZero n] (i l : Fin n) (d : ℤ), ((l : ℕ) : ℤ) = Spec.zeroLag n - d →
      (n : ℤ) ∣ (Spec.zeroLag n : ℤ) - ((i : ℕ) : ℤ) - d → i = l := by
    intro n _ i l d hl hd
    apply Fin.eq_of_modEq
    refine Int.modEq_iff_dvd.2 ?_
    rw [hl, show (Spec.zeroLag n : ℤ) - d - ((i : ℕ) : ℤ) = Spec.zeroLag n - ((i : ℕ) : ℤ) - d by ring]
    exact hd
  exact Prod.ext (key ny _ _ _ hy h1) (key nx _ _ _ hx h2)

theorem aperiodic_sub_const {a : Fin ny × Fin nx → ℝ} (c : ℝ) (ha : Spec.aperiodic a) :
    Spec.aperiodic fun p => a p - c := by
  intro dy dx h
  exact ha dy dx fun p => by have := h p; linarith

theorem prep_roll (zm : Bool) (a : Fin ny × Fin nx → ℝ) (dy dx : ℤ) :
    prep zm (realArr (Spec.roll2 dy dx a)) = Spec.roll2 dy dx (prep zm (realArr a)) := by
  rw [prep_real, prep_real]
  unfold Spec.mean
  rw [Spec.roll2_sum]
  rfl

/-- local derivatives of the correlation of an image with its roll, at the peak -/
theorem roll_localFit (a : Fin ny × Fin nx → ℝ) (dy dx : ℤ) (loc : Fin ny × Fin nx)
    (hy : ((loc.1 : ℕ) : ℤ) = Spec.zeroLag ny - dy) (hx : ((loc.2 : ℕ) : ℤ) = Spec.zeroLag nx - dx)
    (hy1 : 1 ≤ (loc.1 : ℕ)) (hy2 : (loc.1 : ℕ) + 2 ≤ ny) (hx1 : 1 ≤ (loc.2 : ℕ)) (hx2 : (loc.2 : ℕ) + 2 ≤ nx) :
    Spec.localFit (Spec.ccMap a (Spec.roll2 dy dx a)) loc =
      { X := 2 * (Spec.autocorr a 0 1 - Spec.autocorr a 0 0) / ((ny * nx : ℕ) : ℝ)
        Y := 2 * (Spec.autocorr a 1 0 - Spec.autocorr a 0 0) / ((ny * nx : ℕ) : ℝ)
        M := (Spec.autocorr a 1 1 - Spec.autocorr a 1 (-1)) / 2 / ((ny * nx : ℕ) : ℝ)
        fx := 0
        fy := 0 } := by
  have hE : ∀ s t : ℤ, -1 ≤ s → s ≤ 1 → -1 ≤ t → t ≤ 1 →
      Spec.ext0 (Spec.ccMap a (Spec.roll2 dy dx a)) (((loc.1 : ℕ) : ℤ) + s) (((loc.2 : ℕ) : ℤ) + t)
        = Spec.autocorr a s t / ((ny * nx : ℕ) : ℝ) := by
    intro s t h1 h2 h3 h4
    rw [ext0_eq _ (⟨(((loc.1 : ℕ) : ℤ) + s).toNat, by omega⟩, ⟨(((loc.2 : ℕ) : ℤ) + t).toNat, by omega⟩)
      (by simp only; omega) (by simp only; omega)]
    unfold Spec.ccMap
    rw [xcorr_roll, ← autocorr_neg a s t]
    congr 2
    · simp only; omega
    · simp only; omega
  have E00 := hE 0 0 (by omega) (by omega) (by omega) (by omega)
  have E01 := hE 0 1 (by omega) (by omega) (by omega) (by omega)
  have E0n := hE 0 (-1) (by omega) (by omega) (by omega) (by omega)
  have E10 := hE 1 0 (by omega) (by omega) (by omega) (by omega)
  have En0 := hE (-1) 0 (by omega) (by omega) (by omega) (by omega)
  have E11 := hE 1 1 (by omega) (by omega) (by omega) (by omega)
  have E1n := hE 1 (-1) (by omega) (by omega) (by omega) (by omega)
  have En1 := hE (-1) 1 (by omega) (by omega) (by omega) (by omega)
  have Enn := hE (-1) (-1) (by omega) (by omega) (by omega) (by omega)
  have s1 := autocorr_neg a 0 1
  have s2 := autocorr_neg a 1 0
  have s3 := autocorr_neg a 1 1
  have s4 := autocorr_neg a 1 (-1)
  simp only [neg_zero, neg_neg] at s1 s2 s3 s4
  rw [s1] at E0n
  rw [s2] at En0
  rw [s3] at Enn
  rw [s4] at En1
  simp only [add_zero] at E00 E01 E0n E10 En0
  unfold Spec.localFit Spec.curvX Spec.curvY Spec.mixed Spec.slopeX Spec.slopeY
  simp only [sub_eq_add_neg] at *
  rw [if_pos (by omega), if_pos (by omega), E00, E01, E0n, E10, En0, E11, E1n, En1, Enn]
  congr 1 <;> ring

/-- C50: if `im2` is `im1` rolled by `(dy, dx)`, no other roll leaves `im1` unchanged, and the correlation
peak is not on the border of the map, then exactly `(dx, dy)` is returned along axes of even size and
exactly half a pixel more along axes of odd size. -/
theorem C50_roll (cfg : FFTConfig) (agpy : Agpy ny nx) (im1 : Fin ny × Fin nx → ℝ)
    (ha : Spec.aperiodic im1) (dy dx : ℤ)
    (hy1 : dy + 1 ≤ ((ny - 1) / 2 : ℕ)) (hy2 : ((ny - 1) / 2 : ℕ) + 2 ≤ ny + dy)
    (hx1 : dx + 1 ≤ ((nx - 1) / 2 : ℕ)) (hx2 : ((nx - 1) / 2 : ℕ) + 2 ≤ nx + dx)
    (e1 e2 : Option (Fin ny × Fin nx → Pix)) (zm ah : Bool) (hf : Spec.fits ah ny nx) :
    crossCorrelationShifts cfg agpy (realArr im1) (realArr (Spec.roll2 dy dx im1)) e1 e2 none false false zm ah
      = .ok [.fin (dx + if nx % 2 = 1 then 1 / 2 else 0), .fin (dy + if ny % 2 = 1 then 1 / 2 else 0)] := by
  set a := prep zm (realArr im1) with hadef
  have haa : Spec.aperiodic a := by rw [hadef, prep_real]; exact aperiodic_sub_const _ ha
  have hpr := prep_roll zm im1 dy dx
  rw [← hadef] at hpr
  let loc : Fin ny × Fin nx := (⟨((Spec.zeroLag ny : ℤ) - dy).toNat, by unfold Spec.zeroLag; omega⟩,
    ⟨((Spec.zeroLag nx : ℤ) - dx).toNat, by unfold Spec.zeroLag; omega⟩)
  have ly : ((loc.1 : ℕ) : ℤ) = Spec.zeroLag ny - dy := by
    simp only [loc]; rw [Int.toNat_of_nonneg]; unfold Spec.zeroLag; omega
  have lx : ((loc.2 : ℕ) : ℤ) = Spec.zeroLag nx - dx := by
    simp only [loc]; rw [Int.toNat_of_nonneg]; unfold Spec.zeroLag; omega
  have zy : Spec.zeroLag ny = (ny - 1) / 2 := rfl
  have zx : Spec.zeroLag nx = (nx - 1) / 2 := rfl
  have b1 : 1 ≤ (loc.1 : ℕ) := by omega
  have b2 : (loc.1 : ℕ) + 2 ≤ ny := by omega
  have b3 : 1 ≤ (loc.2 : ℕ) := by omega
  have b4 : (loc.2 : ℕ) + 2 ≤ nx := by omega
  have hmax : Np.IsFirstMax (Spec.xcorr a (Spec.roll2 dy dx a)) loc := by
    have := Np.argmax_spec (Spec.xcorr a (Spec.roll2 dy dx a))
    rwa [Np.argmax_eq_of_unique (roll_peak a haa dy dx loc ly lx)] at this
  have hess := autocorr_hessian a haa (by omega) (by omega)
  have hne : Spec.xcorr a (Spec.roll2 dy dx a) loc ≠ 0 := by
    rw [xcorr_roll, ly, lx]
    have e1 : (Spec.zeroLag ny : ℤ) - ((Spec.zeroLag ny : ℤ) - dy) - dy = 0 := by ring
    have e2 : (Spec.zeroLag nx : ℤ) - ((Spec.zeroLag nx : ℤ) - dx) - dx = 0 := by ring
    rw [e1, e2]
    intro hz
    have hall : ∀ p, a p = 0 := by
      unfold Spec.autocorr at hz
      simp only [move_zero] at hz
      intro p
      have := (Finset.sum_eq_zero_iff_of_nonneg (fun p _ => mul_self_nonneg (a p))).1 hz p (mem_univ _)
      exact mul_self_eq_zero.1 this
    have := haa 1 1 (fun p => by rw [hall, hall])
    have := Int.le_of_dvd (by norm_num) this.1
    omega
  have hN := size_pos (ny := ny) (nx := nx)
  obtain ⟨sx, sy, h, -, hz⟩ := C51_stationary_iff cfg agpy (realArr im1) (realArr (Spec.roll2 dy dx im1)) e1 e2 zm
    ah hf loc (by rw [hpr]; exact hmax) (by rw [hpr]; exact hne)
    (fun h => by rw [h] at b1; exact absurd b1 (by simp)) (fun h => by rw [h] at b3; exact absurd b3 (by simp)) _
    (by rw [hpr, roll_localFit a dy dx loc ly lx b1 b2 b3 b4]) (by
      simp only
      rw [div_pow, div_mul_div_comm, ← sq ((ny * nx : ℕ) : ℝ), ← sub_div]
      exact div_ne_zero (by linarith) (by positivity))
  obtain ⟨z1, z2⟩ := hz ⟨rfl, rfl⟩
  rw [h, z1, z2, sub_zero, sub_zero]
  have c1 : ((loc.2 : ℕ) : ℝ) = (Spec.zeroLag nx : ℝ) - dx := by exact_mod_cast lx
  have c2 : ((loc.1 : ℕ) : ℝ) = (Spec.zeroLag ny : ℝ) - dy := by exact_mod_cast ly
  rw [c1, c2]
  unfold Spec.ccRef
  congr 3
  · ring
  · congr 2; ring

/-- a point source is aperiodic -/
theorem aperiodic_point (p0 : Fin ny × Fin nx) :
    Spec.aperiodic fun p => if p = p0 then (1 : ℝ) else 0 := by
  intro dy dx h
  have := h p0
  simp only [if_true] at this
  by_cases hm : Spec.move dy dx p0 = p0
  · have k : ∀ (n : ℕ) [NeZero n] (i : Fin n) (d : ℤ), Spec.wrap n (((i : ℕ) : ℤ) + d) = i → (n : ℤ) ∣ d := by
      intro n _ i d hw
      have := (Int.modEq_iff_dvd.1 ((Spec.wrap_eq_iff n _ i).1 hw))
      rw [show ((i : ℕ) : ℤ) - (((i : ℕ) : ℤ) + d) = -d by ring] at this
      exact (dvd_neg).1 this
    exact ⟨k ny _ _ (congrArg Prod.fst hm), k nx _ _ (congrArg Prod.snd hm)⟩
  · rw [if_neg hm] at this; norm_num at this

/-- C50, non-vacuity: a point source on a 10×9 grid moved by one row and two columns is measured as
`(2.5, 1)`: the odd axis is off by half a pixel. -/
example (cfg : FFTConfig) (zm : Bool) :
    crossCorrelationShifts cfg none (realArr fun p : Fin 10 × Fin 9 => if p = (4, 3) then 1 else 0)
      (realArr (Spec.roll2 1 2 fun p : Fin 10 × Fin 9 => if p = (4, 3) then 1 else 0)) none none none false false
      zm false = .ok [.fin (5 / 2), .fin 1] := by
  rw [C50_roll cfg none _ (aperiodic_point _) 1 2 (by norm_num) (by norm_num) (by norm_num) (by norm_num) none
    none zm false (Or.inr (by norm_num))]
  norm_num

/-! ## C78 -/

/-- C78: the error estimates. With `N` pixels, `S1`, `S2` the energies of the prepared images and
`c = N·(correlation sum at the peak)/(S1·S2)`, the *x* error is computed from the curvature of the map
along *y* and the *y* error from the curvature along *x*. -/
theorem C78_errors (cfg : FFTConfig) (agpy : Agpy ny nx) (im1 im2 : Fin ny × Fin nx → Pix)
    (e1 e2 : Option (Fin ny × Fin nx → Pix)) (zm ah : Bool) (hf : Spec.fits ah ny nx)
    (loc : Fin ny × Fin nx) (hloc : Np.IsFirstMax (Spec.xcorr (prep zm im1) (prep zm im2)) loc)
    (h0 : Spec.xcorr (prep zm im1) (prep zm im2) loc ≠ 0) (hy : loc.1 ≠ 0) (hx : loc.2 ≠ 0)
    (q : Spec.LocalFit) (hq : q = Spec.localFit (Spec.ccMap (prep zm im1) (prep zm im2)) loc)
    (N S c : ℝ) (hN : N = ((ny * nx : ℕ) : ℝ))
    (hS : S = (∑ p, prep zm im1 p ^ 2) * ∑ p, prep zm im2 p ^ 2)
    (hc : c = N * Spec.xcorr (prep zm im1) (prep zm im2) loc / S) (hc1 : c ^ 2 ≠ 1) (hX : q.X ≠ 0) (hY : q.Y ≠ 0) :
    ∃ rx ry, crossCorrelationShifts cfg agpy im1 im2 e1 e2 none false false zm ah = .ok [rx, ry] ∧
      crossCorrelationShifts cfg agpy im1 im2 e1 e2 none false true zm ah
        = .ok [rx, ry, .fin (|N ^ 3 * q.Y / S * (c / (1 - c ^ 2))| ^ (-(1 / 2) : ℝ)),
            .fin (|N ^ 3 * q.X / S * (c / (1 - c ^ 2))| ^ (-(1 / 2) : ℝ))] := by
  rw [ccShifts_eq _ _ _ _ _ _ _ _ _ _ _ hf, ccShifts_eq _ _ _ _ _ _ _ _ _ _ _ hf]
  generalize prep zm im1 = a at *
  generalize prep zm im2 = b at *
  have ha := argmax_ccMap hloc
  have hne : Spec.ccMap a b (Np.argmax (Spec.ccMap a b)) ≠ 0 := by
    rw [ha]; exact div_ne_zero h0 size_pos.ne'
  have vy : (loc.1 : ℕ) ≠ 0 := fun h => hy (Fin.ext h)
  have vx : (loc.2 : ℕ) ≠ 0 := fun h => hx (Fin.ext h)
  have main := fun re => ccFromMap_eq cfg ah hf agpy a b (Spec.ccMap a b) e1 e2 re hne (by rw [ha]; omega)
    (by rw [ha]; omega)
    ((loc.1 : ℕ) : ℤ) ((loc.2 : ℕ) : ℤ) (by rw [ha]) (by rw [ha]) q.X q.Y q.M q.fx q.fy
    (by rw [hq]; rfl) (by rw [hq]; rfl) (by rw [hq]; rfl) (by rw [hq]; rfl) (by rw [hq]; rfl)
  rw [main false, main true]
  simp only [Bool.false_eq_true, if_false, if_true]
  refine ⟨_, _, rfl, ?_⟩
  have hN0 : N ≠ 0 := by rw [hN]; exact size_pos.ne'
  have hS1 : ∑ p, a p ^ 2 ≠ 0 := by
    intro hz
    apply h0
    unfold Spec.xcorr
    refine Finset.sum_eq_zero fun p _ => ?_
    have := (Finset.sum_eq_zero_iff_of_nonneg (fun p _ => sq_nonneg (a p))).1 hz p (mem_univ _)
    rw [(pow_eq_zero_iff two_ne_zero).1 this, zero_mul]
  have hS2 : ∑ p, b p ^ 2 ≠ 0 := by
    intro hz
    apply h0
    unfold Spec.xcorr
    refine Finset.sum_eq_zero fun p _ => ?_
    have hb : ∀ r, b r = 0 := fun r => (pow_eq_zero_iff two_ne_zero).1
      ((Finset.sum_eq_zero_iff_of_nonneg (fun p _ => sq_nonneg (b p))).1 hz r (mem_univ _))
    rw [hb, mul_zero]
  have hnorm : 1 / ((∑ i, a i ^ 2) / ((ny * nx : ℕ) : ℝ)) / ((∑ i, b i ^ 2) / ((ny * nx : ℕ) : ℝ)) = N ^ 2 / S := by
    rw [← hN, hS]; field_simp
  have hcc : Spec.ccMap a b (Np.argmax (Spec.ccMap a b)) * (N ^ 2 / S) = c := by
    rw [ha, hc]; unfold Spec.ccMap; rw [← hN]
    field_simp
  have hS0 : S ≠ 0 := by rw [hS]; exact mul_ne_zero hS1 hS2
  have hc0 : c ≠ 0 := by rw [hc]; exact div_ne_zero (mul_ne_zero hN0 h0) hS0
  have h1c : 1 - c ^ 2 ≠ 0 := fun h => hc1 (by linarith)
  have hz : ∀ k : ℝ, k ≠ 0 → zuckerError N k (N ^ 2 / S) c
      = .fin (|N ^ 3 * k / S * (c / (1 - c ^ 2))| ^ (-(1 / 2) : ℝ)) := by
    intro k hk
    unfold zuckerError
    simp only
    rw [if_neg h1c, if_neg]
    · congr 2
      rw [← abs_neg]
      congr 1
      field_simp
    · refine mul_ne_zero (div_ne_zero (mul_ne_zero (mul_ne_zero (mul_ne_zero (by norm_num) hN0) hk) ?_) hc0) ?_
      · exact div_ne_zero (pow_ne_zero _ hN0) hS0
      · exact div_ne_zero (pow_ne_zero _ hc0) h1c
  rw [hnorm, hcc, ← hN, hz q.Y hY, hz q.X hX]
  rfl

/-- C78: without a Gaussian fit, `errim1` and `errim2` have no effect on anything returned. -/
theorem C78_errim_unused (cfg : FFTConfig) (agpy : Agpy ny nx) (im1 im2 : Fin ny × Fin nx → Pix)
    (e1 e2 e1' e2' : Option (Fin ny × Fin nx → Pix)) (mo : Option ℕ) (re zm ah : Bool)
    (hf : Spec.fits ah ny nx) :
    crossCorrelationShifts cfg agpy im1 im2 e1 e2 mo false re zm ah
      = crossCorrelationShifts cfg agpy im1 im2 e1' e2' mo false re zm ah := by
  rw [ccShifts_eq _ _ _ _ _ _ _ _ _ _ _ hf, ccShifts_eq _ _ _ _ _ _ _ _ _ _ _ hf]
  obtain ⟨m, hm⟩ := errCorr_ok cfg ah hf (prep zm im1) (prep zm im2) e1 e2
  obtain ⟨m', hm'⟩ := errCorr_ok cfg ah hf (prep zm im1) (prep zm im2) e1' e2'
  unfold ccFromMap
  cases re <;> simp only [hm, hm', Except.map, bind, Except.bind, Bool.false_eq_true, if_false, if_true]

/-- C53, non-vacuity: a point source moved by four of nine columns has its peak in the first column, and the
call fails. -/
example (cfg : FFTConfig) (re : Bool) :
    crossCorrelationShifts cfg none (realArr fun p : Fin 10 × Fin 9 => if p = (4, 3) then 1 else 0)
      (realArr (Spec.roll2 0 4 fun p : Fin 10 × Fin 9 => if p = (4, 3) then 1 else 0)) none none none false re
      false false = .error .valueError := by
  have hp : prep false (realArr fun p : Fin 10 × Fin 9 => if p = (4, 3) then (1 : ℝ) else 0)
      = fun p => if p = (4, 3) then (1 : ℝ) else 0 := by
    rw [prep_real]; funext p; simp
  have hmax := roll_peak (fun p : Fin 10 × Fin 9 => if p = (4, 3) then (1 : ℝ) else 0) (aperiodic_point _) 0 4
    (4, 0) (by norm_num [Spec.zeroLag]) (by norm_num [Spec.zeroLag])
  have h1 := Np.argmax_spec (Spec.xcorr (fun p : Fin 10 × Fin 9 => if p = (4, 3) then (1 : ℝ) else 0)
    (Spec.roll2 0 4 fun p => if p = (4, 3) then (1 : ℝ) else 0))
  rw [Np.argmax_eq_of_unique hmax] at h1
  refine C53_first_row_or_column cfg none _ _ none none re false false (Or.inr (by norm_num)) (4, 0) ?_ ?_
    (Or.inr rfl)
  · rw [prep_roll, hp]; exact h1
  · rw [prep_roll, hp]
    have h2 := hmax (0, 0) (by decide)
    refine (lt_of_le_of_lt ?_ h2).ne'
    unfold Spec.xcorr Spec.roll2
    exact Finset.sum_nonneg fun p _ => by positivity

end

end ImgReg
