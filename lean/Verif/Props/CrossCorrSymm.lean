import Verif.Props.CrossCorrMore
import Verif.Props.Chi2Symm

/-!
# Symmetries of `cross_correlation_shifts` (C118)

Exchanging the images, rolling both, changing the intensity scale.
-/

open Finset

namespace ImgReg

section
variable {ny nx : ℕ} [NeZero ny] [NeZero nx]

/-! ### the result as a function of the map -/

/-- a peak in the first row or column -/
theorem ccFromMap_edge (cfg : FFTConfig) (ah : Bool) (hf : Spec.fits ah ny nx) (agpy : Agpy ny nx) (a b c : Fin ny × Fin nx → ℝ)
    (e1 e2 : Option (Fin ny × Fin nx → Pix)) (re : Bool) (h0 : c (Np.argmax c) ≠ 0)
    (hedge : ((Np.argmax c).1 : ℕ) = 0 ∨ ((Np.argmax c).2 : ℕ) = 0) :
    ccFromMap cfg ah agpy a b c e1 e2 none false re = .error .valueError := by
  obtain ⟨m, hm⟩ := errCorr_ok cfg ah hf a b e1 e2
  have hg : npGradient (localValues c (Np.argmax c).1 (Np.argmax c).2) = .error .valueError := by
    unfold npGradient
    rw [dif_neg]
    rintro ⟨h1, h2⟩
    rcases hedge with hz | hz
    · have := pySlice_zero ny (Nat.pos_of_ne_zero (NeZero.ne ny))
      rw [← hz] at this; omega
    · have := pySlice_zero nx (Nat.pos_of_ne_zero (NeZero.ne nx))
      rw [← hz] at this; omega
  unfold ccFromMap
  cases re <;>
    simp only [h0, if_false, Option.isSome_none, Bool.false_eq_true, bind, Except.bind, pure, Except.pure, hg,
      hm, Except.map, if_true]

theorem ccFromMap_maxoff (cfg : FFTConfig) (ah : Bool) (agpy : Agpy ny nx) (a b c : Fin ny × Fin nx → ℝ)
    (e1 e2 : Option (Fin ny × Fin nx → Pix)) (k : ℕ) (g re : Bool) (h0 : c (Np.argmax c) ≠ 0) :
    ccFromMap cfg ah agpy a b c e1 e2 (some k) g re = .error .typeError := by
  unfold ccFromMap
  rw [if_neg h0]
  rfl

theorem ccFromMap_zero (cfg : FFTConfig) (ah : Bool) (agpy : Agpy ny nx) (a b c : Fin ny × Fin nx → ℝ)
    (e1 e2 : Option (Fin ny × Fin nx → Pix)) (mo : Option ℕ) (g re : Bool) (h0 : c (Np.argmax c) = 0) :
    ccFromMap cfg ah agpy a b c e1 e2 mo g re = .ok [.fin 0, .fin 0] := by
  unfold ccFromMap
  rw [if_pos h0]

/-! ### intensity scale -/

omit [NeZero ny] [NeZero nx] in
theorem ext0_smul (s : ℝ) (c : Fin ny × Fin nx → ℝ) (y x : ℤ) : Spec.ext0 (fun i => s * c i) y x = s * Spec.ext0 c y x := by
  unfold Spec.ext0
  split_ifs
  · rfl
  · rw [mul_zero]

theorem Fl.div_smul (s : ℝ) (hs : s ≠ 0) (x y : ℝ) : Fl.div (s ^ 2 * x) (s ^ 2 * y) = Fl.div x y := by
  have h2 : s ^ 2 ≠ 0 := pow_ne_zero _ hs
  unfold Fl.div
  simp only [mul_eq_zero, h2, false_or, mul_div_mul_left _ _ h2]

/-- multiplying the map by a positive number changes nothing but the errors -/
theorem ccFromMap_smul (cfg : FFTConfig) (ah : Bool) (hf : Spec.fits ah ny nx) (agpy : Agpy ny nx) (a b a' b' c : Fin ny × Fin nx → ℝ)
    (e1 e2 : Option (Fin ny × Fin nx → Pix)) (mo : Option ℕ) (s : ℝ) (hs : 0 < s) :
    ccFromMap cfg ah agpy a' b' (fun i => s * c i) e1 e2 mo false false = ccFromMap cfg ah agpy a b c e1 e2 mo false false := by
  have harg : Np.argmax (fun i => s * c i) = Np.argmax c := Np.argmax_comp fun _ _ => mul_le_mul_iff_right₀ hs
  by_cases h0 : c (Np.argmax c) = 0
  · rw [ccFromMap_zero _ _ _ _ _ _ _ _ _ _ _ h0, ccFromMap_zero _ _ _ _ _ _ _ _ _ _ _ (by rw [harg, h0, mul_zero])]
  have h0' : (fun i => s * c i) (Np.argmax fun i => s * c i) ≠ 0 := by
    rw [harg]; exact mul_ne_zero hs.ne' h0
  cases mo with
  | some k => rw [ccFromMap_maxoff _ _ _ _ _ _ _ _ _ _ _ h0, ccFromMap_maxoff _ _ _ _ _ _ _ _ _ _ _ h0']
  | none =>
    by_cases hedge : ((Np.argmax c).1 : ℕ) = 0 ∨ ((Np.argmax c).2 : ℕ) = 0
    · rw [ccFromMap_edge _ _ hf _ _ _ _ _ _ _ h0 hedge, ccFromMap_edge _ _ hf _ _ _ _ _ _ _ h0' (by rw [harg]; exact hedge)]
    · rw [ccFromMap_eq cfg ah hf agpy a b c e1 e2 false h0 (by omega) (by omega) _ _ rfl rfl _ _ _ _ _ rfl rfl rfl rfl rfl,
        ccFromMap_eq cfg ah hf agpy a' b' _ e1 e2 false h0' (by rw [harg]; omega) (by rw [harg]; omega) _ _ rfl rfl _ _ _ _ _
          rfl rfl rfl rfl rfl]
      simp only [Bool.false_eq_true, if_false]
      rw [harg]
      generalize (((Np.argmax c).1 : ℕ) : ℤ) = y
      generalize (((Np.argmax c).2 : ℕ) : ℤ) = x
      have e1 : Spec.curvX (Spec.ext0 fun i => s * c i) y x = s * Spec.curvX (Spec.ext0 c) y x := by
        unfold Spec.curvX; simp only [ext0_smul]; ring
      have e2 : Spec.curvY (Spec.ext0 fun i => s * c i) y x = s * Spec.curvY (Spec.ext0 c) y x := by
        unfold Spec.curvY; simp only [ext0_smul]; ring
      have e3 : Spec.mixed (Spec.ext0 fun i => s * c i) y x = s * Spec.mixed (Spec.ext0 c) y x := by
        unfold Spec.mixed; simp only [ext0_smul]; ring
      have e4 : Spec.slopeX nx (Spec.ext0 fun i => s * c i) y x = s * Spec.slopeX nx (Spec.ext0 c) y x := by
        unfold Spec.slopeX; simp only [ext0_smul]; split_ifs <;> ring
      have e5 : Spec.slopeY ny (Spec.ext0 fun i => s * c i) y x = s * Spec.slopeY ny (Spec.ext0 c) y x := by
        unfold Spec.slopeY; simp only [ext0_smul]; split_ifs <;> ring
      rw [e1, e2, e3, e4, e5]
      generalize Spec.curvX (Spec.ext0 c) y x = X
      generalize Spec.curvY (Spec.ext0 c) y x = Y
      generalize Spec.mixed (Spec.ext0 c) y x = M
      generalize Spec.slopeX nx (Spec.ext0 c) y x = fx
      generalize Spec.slopeY ny (Spec.ext0 c) y x = fy
      rw [show s * X * (s * fx) + s * M * (s * fy) = s ^ 2 * (X * fx + M * fy) by ring,
        show s * Y * (s * fy) + s * M * (s * fx) = s ^ 2 * (Y * fy + M * fx) by ring,
        show (s * M) ^ 2 - s * X * (s * Y) = s ^ 2 * (M ^ 2 - X * Y) by ring, Fl.div_smul s hs.ne', Fl.div_smul s hs.ne']

omit [NeZero ny] [NeZero nx] in
/-- an affine change of intensity of an image whose mean is subtracted only scales it -/
theorem prep_affine (k c : ℝ) (zm : Bool) (h : zm = true ∨ c = 0) (im : Fin ny × Fin nx → Pix) :
    prep zm (fun i => (im i).map fun v => k * v + c) = fun i => k * prep zm im i := by
  cases zm with
  | false =>
    obtain rfl : c = 0 := by simpa using h
    simp only [add_zero]
    exact prep_smul false k im
  | true =>
    funext p
    unfold prep
    cases hp : im p with
    | none => simp [hp]
    | some v =>
      simp only [hp, Option.map_some, if_true]
      have hfil : (univ.filter fun i => ((im i).map fun v => k * v + c).isSome)
          = univ.filter fun i => (im i).isSome := by
        ext i; simp
      have hpos : (((univ.filter fun i => (im i).isSome).card : ℕ) : ℝ) ≠ 0 := by
        have : 0 < (univ.filter fun i => (im i).isSome).card :=
          Finset.card_pos.2 ⟨p, by simp [hp]⟩
        exact_mod_cast this.ne'
      have hm : Spec.finiteMean (fun i => (im i).map fun v => k * v + c) = k * Spec.finiteMean im + c := by
        unfold Spec.finiteMean
        rw [hfil, div_eq_iff hpos, add_mul, mul_assoc, div_mul_cancel₀ _ hpos, Finset.mul_sum, Finset.card_filter]
        push_cast
        rw [Finset.mul_sum, ← Finset.sum_add_distrib]
        refine Finset.sum_congr rfl fun i _ => ?_
        cases im i <;> simp
      rw [hm]; ring

theorem xcorr_smul (k m : ℝ) (a b : Fin ny × Fin nx → ℝ) (i : Fin ny × Fin nx) :
    Spec.xcorr (fun p => k * a p) (fun p => m * b p) i = k * m * Spec.xcorr a b i := by
  unfold Spec.xcorr
  rw [Finset.mul_sum]
  exact Finset.sum_congr rfl fun p _ => by ring

/-- C118: brightness and background do not matter. With `zeromean` (the default), replacing the images by `k1·im1 + c1` and
`k2·im2 + c2` with `k1·k2 > 0` changes nothing in the result (shifts, "no signal", or the exception raised); without `zeromean` the same
holds for `c1 = c2 = 0`. -/
theorem C118_brightness (cfg : FFTConfig) (agpy : Agpy ny nx) (im1 im2 : Fin ny × Fin nx → Pix)
    (e1 e2 : Option (Fin ny × Fin nx → Pix)) (mo : Option ℕ) (zm ah : Bool) (k1 k2 c1 c2 : ℝ) (hk : 0 < k1 * k2)
    (hz : zm = true ∨ (c1 = 0 ∧ c2 = 0)) :
    crossCorrelationShifts cfg agpy (fun p => (im1 p).map fun v => k1 * v + c1) (fun p => (im2 p).map fun v => k2 * v + c2)
        e1 e2 mo false false zm ah
      = crossCorrelationShifts cfg agpy im1 im2 e1 e2 mo false false zm ah := by
  by_cases hf : Spec.fits ah ny nx
  · rw [ccShifts_eq _ _ _ _ _ _ _ _ _ _ _ hf, ccShifts_eq _ _ _ _ _ _ _ _ _ _ _ hf,
      prep_affine k1 c1 zm (hz.imp_right And.left), prep_affine k2 c2 zm (hz.imp_right And.right)]
    have : Spec.ccMap (fun i => k1 * prep zm im1 i) (fun i => k2 * prep zm im2 i)
        = fun i => k1 * k2 * Spec.ccMap (prep zm im1) (prep zm im2) i := by
      funext i
      unfold Spec.ccMap
      rw [xcorr_smul, mul_div_assoc]
    rw [this]
    exact ccFromMap_smul cfg ah hf agpy _ _ _ _ _ e1 e2 mo _ hk
  · unfold crossCorrelationShifts
    rw [dif_pos ⟨rfl, rfl⟩, dif_pos ⟨rfl, rfl⟩]
    unfold ccShiftsBody
    simp only [correlate2d_huge cfg ah hf, bind, Except.bind]

/-! ### rolling both images -/

theorem xcorr_common_roll (a b : Fin ny × Fin nx → ℝ) (dy dx : ℤ) :
    Spec.xcorr (Spec.roll2 dy dx a) (Spec.roll2 dy dx b) = Spec.xcorr a b := by
  funext i
  unfold Spec.xcorr
  symm
  refine Fintype.sum_bijective _ (Spec.move_bijective dy dx) _ _ fun p => ?_
  rw [Spec.roll2_move]
  congr 1
  have : ∀ s t : ℤ, Spec.move s t (Spec.move dy dx p) = Spec.move dy dx (Spec.move s t p) := by
    intro s t
    simp only [Spec.move_eq]; abel
  rw [this, Spec.roll2_move]

theorem roll2_comp {α β : Type} (g : α → β) (dy dx : ℤ) (a : Fin ny × Fin nx → α) :
    (fun p => g (Spec.roll2 dy dx a p)) = Spec.roll2 dy dx fun p => g (a p) := rfl

theorem ccErr_roll (e : Option (Fin ny × Fin nx → Pix)) (a : Fin ny × Fin nx → ℝ) (dy dx : ℤ) :
    Spec.ccErr (e.map (Spec.roll2 dy dx)) (Spec.roll2 dy dx a) = Spec.roll2 dy dx (Spec.ccErr e a) := by
  cases e with
  | some e => rfl
  | none =>
    have h1 : ∑ r, Spec.roll2 dy dx a r = ∑ r, a r := Spec.roll2_sum dy dx a
    have h2 : ∑ p, (Spec.roll2 dy dx a p - (∑ r, a r) / ((ny : ℝ) * nx)) ^ 2 = ∑ p, (a p - (∑ r, a r) / ((ny : ℝ) * nx)) ^ 2 :=
      Spec.roll2_sum dy dx fun p => (a p - (∑ r, a r) / ((ny : ℝ) * nx)) ^ 2
    funext p
    simp only [Spec.ccErr, Option.map_none, h1, h2]
    rfl

/-- C118: rolling both images (and the error images, if given) by the same whole-pixel amount changes nothing, whatever the flags. -/
theorem C118_common_roll (cfg : FFTConfig) (agpy : Agpy ny nx) (im1 im2 : Fin ny × Fin nx → Pix)
    (e1 e2 : Option (Fin ny × Fin nx → Pix)) (mo : Option ℕ) (g re zm ah : Bool) (dy dx : ℤ) :
    crossCorrelationShifts cfg agpy (Spec.roll2 dy dx im1) (Spec.roll2 dy dx im2) (e1.map (Spec.roll2 dy dx))
        (e2.map (Spec.roll2 dy dx)) mo g re zm ah
      = crossCorrelationShifts cfg agpy im1 im2 e1 e2 mo g re zm ah := by
  by_cases hf : Spec.fits ah ny nx
  · rw [ccShifts_eq _ _ _ _ _ _ _ _ _ _ _ hf, ccShifts_eq _ _ _ _ _ _ _ _ _ _ _ hf, prep_roll2, prep_roll2]
    generalize prep zm im1 = a
    generalize prep zm im2 = b
    have hm : Spec.ccMap (Spec.roll2 dy dx a) (Spec.roll2 dy dx b) = Spec.ccMap a b := by
      unfold Spec.ccMap; rw [xcorr_common_roll]
    have hE : errCorr cfg ah (Spec.roll2 dy dx a) (Spec.roll2 dy dx b) (e1.map (Spec.roll2 dy dx)) (e2.map (Spec.roll2 dy dx))
        = errCorr cfg ah a b e1 e2 := by
      rw [errCorr_eq cfg ah hf, errCorr_eq cfg ah hf, ccErr_roll, ccErr_roll]
      unfold Spec.ccErrMap
      simp only [roll2_comp (fun v : ℝ => v ^ 2), xcorr_common_roll]
    have hs : ∀ a : Fin ny × Fin nx → ℝ, ∑ i, Spec.roll2 dy dx a i ^ 2 = ∑ i, a i ^ 2 :=
      fun a => Spec.roll2_sum dy dx fun p => a p ^ 2
    rw [hm]
    unfold ccFromMap
    simp only [hE, hs]
  · unfold crossCorrelationShifts
    rw [dif_pos ⟨rfl, rfl⟩, dif_pos ⟨rfl, rfl⟩]
    unfold ccShiftsBody
    simp only [correlate2d_huge cfg ah hf, bind, Except.bind]

/-! ### exchanging the images -/

theorem xcorr_exchange (a b : Fin ny × Fin nx → ℝ) (i : Fin ny × Fin nx) :
    Spec.xcorr b a i = Spec.xcorr a b (Spec.wrap ny (2 * ((ny - 1) / 2 : ℕ) - ((i.1 : ℕ) : ℤ)),
      Spec.wrap nx (2 * ((nx - 1) / 2 : ℕ) - ((i.2 : ℕ) : ℤ))) := by
  obtain ⟨o12, o21, h1, h2, h3⟩ := C22_exchange ⟨false, false, 1⟩ true (.inl rfl) a b
  rw [correlate2d_eq _ _ (.inl rfl)] at h1 h2
  have e1 : Spec.xcorr a b = o12 := congrArg finiteVals (Except.ok.inj h1)
  have e2 : Spec.xcorr b a = o21 := congrArg finiteVals (Except.ok.inj h2)
  rw [e1, e2]
  exact h3 i

/-- what exchanging the images does to a reported number: `h - r` (infinities and NaN stay) -/
def Spec.reflect (h : ℝ) : Fl → Fl
  | .fin r => .fin (h - r)
  | .inf => .inf
  | .nan => .nan

/-- 1 for an odd size, 0 for an even one -/
def Spec.oddOne (n : ℕ) : ℝ := ((n % 2 : ℕ) : ℝ)

theorem two_ccRef (n : ℕ) [NeZero n] : 2 * Spec.ccRef n = 2 * (((n - 1) / 2 : ℕ) : ℝ) + Spec.oddOne n := by
  unfold Spec.ccRef Spec.zeroLag Spec.oddOne
  rcases Nat.mod_two_eq_zero_or_one n with h | h <;> rw [h] <;> norm_num
  ring

/-- C118: exchanging the images negates the reported shift up to the half pixel of odd sizes: each number `r` becomes `h - r` with `h = 1`
for an odd size and `h = 0` for an even one. Here the correlation map has a unique largest value, at a pixel `loc` that is not on the
border of the map, and whose mirror image about the zero-lag pixel `(n-1)//2` is not either. -/
theorem C118_exchange (cfg : FFTConfig) (agpy : Agpy ny nx) (im1 im2 : Fin ny × Fin nx → Pix)
    (e1 e2 : Option (Fin ny × Fin nx → Pix)) (zm ah : Bool) (hf : Spec.fits ah ny nx)
    (loc : Fin ny × Fin nx)
    (hloc : ∀ j, j ≠ loc → Spec.xcorr (prep zm im1) (prep zm im2) j < Spec.xcorr (prep zm im1) (prep zm im2) loc)
    (h0 : Spec.xcorr (prep zm im1) (prep zm im2) loc ≠ 0)
    (hy : 1 ≤ (loc.1 : ℕ)) (hy' : (loc.1 : ℕ) + 2 ≤ ny) (hym : (loc.1 : ℕ) + 1 ≤ 2 * ((ny - 1) / 2))
    (hx : 1 ≤ (loc.2 : ℕ)) (hx' : (loc.2 : ℕ) + 2 ≤ nx) (hxm : (loc.2 : ℕ) + 1 ≤ 2 * ((nx - 1) / 2)) :
    ∃ rx ry, crossCorrelationShifts cfg agpy im1 im2 e1 e2 none false false zm ah = .ok [rx, ry] ∧
      crossCorrelationShifts cfg agpy im2 im1 e1 e2 none false false zm ah
        = .ok [Spec.reflect (Spec.oddOne nx) rx, Spec.reflect (Spec.oddOne ny) ry] := by
  have key : ∀ q q' : Spec.LocalFit, ∀ loc' : Fin ny × Fin nx,
      q'.X = q.X → q'.Y = q.Y → q'.M = q.M → q'.fx = -q.fx → q'.fy = -q.fy →
      (((loc'.1 : ℕ) : ℝ) = 2 * (((ny - 1) / 2 : ℕ) : ℝ) - ((loc.1 : ℕ) : ℝ)) →
      (((loc'.2 : ℕ) : ℝ) = 2 * (((nx - 1) / 2 : ℕ) : ℝ) - ((loc.2 : ℕ) : ℝ)) →
      ∃ rx ry, (if q.M ^ 2 - q.X * q.Y = 0 then
        [if q.X * q.fx + q.M * q.fy = 0 then Fl.nan else .inf, if q.Y * q.fy + q.M * q.fx = 0 then .nan else .inf]
       else
        [.fin (Spec.ccRef nx - ((loc.2 : ℕ) : ℝ) - (q.X * q.fx + q.M * q.fy) / (q.M ^ 2 - q.X * q.Y)),
         .fin (Spec.ccRef ny - ((loc.1 : ℕ) : ℝ) - (q.Y * q.fy + q.M * q.fx) / (q.M ^ 2 - q.X * q.Y))]) = [rx, ry] ∧
       (if q'.M ^ 2 - q'.X * q'.Y = 0 then
        [if q'.X * q'.fx + q'.M * q'.fy = 0 then Fl.nan else .inf, if q'.Y * q'.fy + q'.M * q'.fx = 0 then .nan else .inf]
       else
        [.fin (Spec.ccRef nx - ((loc'.2 : ℕ) : ℝ) - (q'.X * q'.fx + q'.M * q'.fy) / (q'.M ^ 2 - q'.X * q'.Y)),
         .fin (Spec.ccRef ny - ((loc'.1 : ℕ) : ℝ) - (q'.Y * q'.fy + q'.M * q'.fx) / (q'.M ^ 2 - q'.X * q'.Y))])
         = [Spec.reflect (Spec.oddOne nx) rx, Spec.reflect (Spec.oddOne ny) ry] := by
    rintro ⟨X, Y, M, fx, fy⟩ ⟨X', Y', M', fx', fy'⟩ loc' h1 h2 h3 h4 h5 h6 h7
    simp only at h1 h2 h3 h4 h5
    subst h1 h2 h3 h4 h5
    simp only
    rw [show X' * -fx + M' * -fy = -(X' * fx + M' * fy) by ring, show Y' * -fy + M' * -fx = -(Y' * fy + M' * fx) by ring]
    by_cases hd : M' ^ 2 - X' * Y' = 0
    · rw [if_pos hd, if_pos hd]
      refine ⟨_, _, rfl, ?_⟩
      simp only [neg_eq_zero]
      split_ifs <;> rfl
    · rw [if_neg hd, if_neg hd]
      refine ⟨_, _, rfl, ?_⟩
      simp only [Spec.reflect]
      have cx := two_ccRef nx
      have cy := two_ccRef ny
      rw [h6, h7]
      congr 2
      · rw [neg_div]; linarith
      · congr 1; rw [neg_div]; linarith
  let loc' : Fin ny × Fin nx := (⟨2 * ((ny - 1) / 2) - (loc.1 : ℕ), by omega⟩, ⟨2 * ((nx - 1) / 2) - (loc.2 : ℕ), by omega⟩)
  have l1 : ((loc'.1 : ℕ) : ℤ) = 2 * ((ny - 1) / 2 : ℕ) - ((loc.1 : ℕ) : ℤ) := by
    simp only [loc']; omega
  have l2 : ((loc'.2 : ℕ) : ℤ) = 2 * ((nx - 1) / 2 : ℕ) - ((loc.2 : ℕ) : ℤ) := by
    simp only [loc']; omega
  have hwi : ∀ (n : ℕ) [NeZero n] (i : Fin n) (z : ℤ), z = ((i : ℕ) : ℤ) → Spec.wrap n z = i := by
    intro n _ i z hz
    rw [Spec.wrap_eq_iff, hz]
  have hinj : ∀ (n : ℕ) [NeZero n] (i l : Fin n) (t z : ℤ), Spec.wrap n (t - ((i : ℕ) : ℤ)) = l → ((l : ℕ) : ℤ) = t - z →
      0 ≤ z → z < n → ((i : ℕ) : ℤ) = z := by
    intro n _ i l t z h hl hz0 hz
    have h1 := (Spec.wrap_eq_iff n _ l).1 h
    rw [hl] at h1
    have h2 := Int.ModEq.sub (Int.ModEq.refl t) h1
    rw [sub_sub_cancel, sub_sub_cancel] at h2
    have := i.isLt
    rw [Int.ModEq, Int.emod_eq_of_lt (by omega) (by omega), Int.emod_eq_of_lt hz0 hz] at h2
    exact h2
  -- the exchanged map has its unique peak at the mirror pixel
  have hval : Spec.xcorr (prep zm im2) (prep zm im1) loc' = Spec.xcorr (prep zm im1) (prep zm im2) loc := by
    rw [xcorr_exchange, hwi ny loc.1 _ (by omega), hwi nx loc.2 _ (by omega)]
  have hloc' : ∀ j, j ≠ loc' → Spec.xcorr (prep zm im2) (prep zm im1) j < Spec.xcorr (prep zm im2) (prep zm im1) loc' := by
    intro j hj
    rw [hval, xcorr_exchange]
    refine hloc _ fun h => hj ?_
    have g1 := hinj ny j.1 loc.1 _ _ (congrArg Prod.fst h) (show ((loc.1 : ℕ) : ℤ) = _ - ((loc'.1 : ℕ) : ℤ) by omega) (by omega)
      (by have := loc'.1.isLt; omega)
    have g2 := hinj nx j.2 loc.2 _ _ (congrArg Prod.snd h) (show ((loc.2 : ℕ) : ℤ) = _ - ((loc'.2 : ℕ) : ℤ) by omega) (by omega)
      (by have := loc'.2.isLt; omega)
    exact Prod.ext (Fin.ext (by exact_mod_cast g1)) (Fin.ext (by exact_mod_cast g2))
  have hE : ∀ s t : ℤ, -1 ≤ s → s ≤ 1 → -1 ≤ t → t ≤ 1 →
      Spec.ext0 (Spec.ccMap (prep zm im2) (prep zm im1)) (((loc'.1 : ℕ) : ℤ) + s) (((loc'.2 : ℕ) : ℤ) + t)
        = Spec.ext0 (Spec.ccMap (prep zm im1) (prep zm im2)) (((loc.1 : ℕ) : ℤ) - s) (((loc.2 : ℕ) : ℤ) - t) := by
    intro s t h1 h2 h3 h4
    rw [ext0_eq _ (⟨(((loc'.1 : ℕ) : ℤ) + s).toNat, by omega⟩, ⟨(((loc'.2 : ℕ) : ℤ) + t).toNat, by omega⟩)
      (by simp only; omega) (by simp only; omega),
      ext0_eq _ (⟨(((loc.1 : ℕ) : ℤ) - s).toNat, by omega⟩, ⟨(((loc.2 : ℕ) : ℤ) - t).toNat, by omega⟩)
      (by simp only; omega) (by simp only; omega)]
    unfold Spec.ccMap
    rw [xcorr_exchange, hwi ny ⟨(((loc.1 : ℕ) : ℤ) - s).toNat, by omega⟩ _ (by simp only; omega),
      hwi nx ⟨(((loc.2 : ℕ) : ℤ) - t).toNat, by omega⟩ _ (by simp only; omega)]
  have E00 := hE 0 0 (by omega) (by omega) (by omega) (by omega)
  have E01 := hE 0 1 (by omega) (by omega) (by omega) (by omega)
  have E0n := hE 0 (-1) (by omega) (by omega) (by omega) (by omega)
  have E10 := hE 1 0 (by omega) (by omega) (by omega) (by omega)
  have En0 := hE (-1) 0 (by omega) (by omega) (by omega) (by omega)
  have E11 := hE 1 1 (by omega) (by omega) (by omega) (by omega)
  have E1n := hE 1 (-1) (by omega) (by omega) (by omega) (by omega)
  have En1 := hE (-1) 1 (by omega) (by omega) (by omega) (by omega)
  have Enn := hE (-1) (-1) (by omega) (by omega) (by omega) (by omega)
  have hm1 : Np.IsFirstMax (Spec.xcorr (prep zm im1) (prep zm im2)) loc := by
    have := Np.argmax_spec (Spec.xcorr (prep zm im1) (prep zm im2))
    rwa [Np.argmax_eq_of_unique hloc] at this
  have hm2 : Np.IsFirstMax (Spec.xcorr (prep zm im2) (prep zm im1)) loc' := by
    have := Np.argmax_spec (Spec.xcorr (prep zm im2) (prep zm im1))
    rwa [Np.argmax_eq_of_unique hloc'] at this
  have nz : ∀ (n : ℕ) [NeZero n] (i : Fin n), 1 ≤ (i : ℕ) → i ≠ 0 := by
    intro n _ i h h'
    rw [h'] at h; exact absurd h (by simp)
  rw [C51_formula cfg agpy im1 im2 e1 e2 zm ah hf loc hm1 h0 (nz _ _ hy) (nz _ _ hx) _ rfl,
    C51_formula cfg agpy im2 im1 e1 e2 zm ah hf loc' hm2 (by rw [hval]; exact h0) (nz _ _ (by omega)) (nz _ _ (by omega)) _ rfl]
  simp only [add_zero, sub_zero, sub_neg_eq_add, ← sub_eq_add_neg] at E00 E01 E0n E10 En0 E11 E1n En1 Enn
  obtain ⟨rx, ry, k1, k2⟩ := key (Spec.localFit (Spec.ccMap (prep zm im1) (prep zm im2)) loc)
    (Spec.localFit (Spec.ccMap (prep zm im2) (prep zm im1)) loc') loc'
    (by simp only [Spec.localFit, Spec.curvX]; rw [E01, E0n, E00]; ring)
    (by simp only [Spec.localFit, Spec.curvY]; rw [E10, En0, E00]; ring)
    (by simp only [Spec.localFit, Spec.mixed]; rw [E11, Enn, E1n, En1]; ring)
    (by
      simp only [Spec.localFit, Spec.slopeX]
      rw [if_pos (by omega), if_pos (by omega), E01, E0n]; ring)
    (by
      simp only [Spec.localFit, Spec.slopeY]
      rw [if_pos (by omega), if_pos (by omega), E10, En0]; ring)
    (by exact_mod_cast l1) (by exact_mod_cast l2)
  exact ⟨rx, ry, congrArg _ k1, congrArg _ k2⟩

/-- C118, non-vacuity of `C118_exchange`: a star moved by `(dy, dx) = (1, 2)` on a 10×9 detector. The call reports `(5/2, 1)`, the call with
the images exchanged `(1 - 5/2, 0 - 1)`. -/
example (cfg : FFTConfig) :
    crossCorrelationShifts cfg none (realArr (Spec.roll2 1 2 fun p : Fin 10 × Fin 9 => if p = (4, 3) then 1 else 0))
      (realArr fun p : Fin 10 × Fin 9 => if p = (4, 3) then 1 else 0) none none none false false
      false false = .ok [.fin (-3 / 2), .fin (-1)] := by
  have hp : prep false (realArr fun p : Fin 10 × Fin 9 => if p = (4, 3) then (1 : ℝ) else 0)
      = fun p => if p = (4, 3) then (1 : ℝ) else 0 := by
    rw [prep_real]; funext p; simp
  have hmax := roll_peak (fun p : Fin 10 × Fin 9 => if p = (4, 3) then (1 : ℝ) else 0) (aperiodic_point _) 1 2
    (3, 2) (by norm_num [Spec.zeroLag]) (by norm_num [Spec.zeroLag])
  obtain ⟨rx, ry, h1, h2⟩ := C118_exchange cfg none (realArr fun p : Fin 10 × Fin 9 => if p = (4, 3) then (1 : ℝ) else 0)
    (realArr (Spec.roll2 1 2 fun p : Fin 10 × Fin 9 => if p = (4, 3) then (1 : ℝ) else 0)) none none false false (Or.inr (by norm_num)) (3, 2)
    (by rw [prep_roll, hp]; exact hmax)
    (by
      rw [prep_roll, hp]
      have h2 := hmax (0, 0) (by decide)
      refine (lt_of_le_of_lt ?_ h2).ne'
      unfold Spec.xcorr Spec.roll2
      exact Finset.sum_nonneg fun p _ => by positivity)
    (by decide) (by decide) (by decide) (by decide) (by decide) (by decide)
  rw [C50_roll cfg none _ (aperiodic_point _) 1 2 (by norm_num) (by norm_num) (by norm_num) (by norm_num) none
    none false false (Or.inr (by norm_num))] at h1
  have h3 := Except.ok.inj h1
  simp only [List.cons.injEq, and_true] at h3
  rw [h2, ← h3.1, ← h3.2]
  norm_num [Spec.reflect, Spec.oddOne]

/-- C118, non-vacuity of `C118_brightness`: the same star on a sky background of 100, exposed three times longer in the second image, gives
the same (non-zero) result. -/
example (cfg : FFTConfig) :
    crossCorrelationShifts cfg none (fun p => (realArr (fun p : Fin 10 × Fin 9 => if p = (4, 3) then (1 : ℝ) else 0) p).map fun v => 2 * v + 100)
      (fun p => (realArr (Spec.roll2 1 2 fun p : Fin 10 × Fin 9 => if p = (4, 3) then (1 : ℝ) else 0) p).map fun v => 6 * v + 100) none none none false false
      true false = .ok [.fin (5 / 2), .fin 1] := by
  rw [C118_brightness cfg none _ _ none none none true false 2 6 100 100 (by norm_num) (.inl rfl),
    C50_roll cfg none _ (aperiodic_point _) 1 2 (by norm_num) (by norm_num) (by norm_num) (by norm_num) none
    none true false (Or.inr (by norm_num))]
  norm_num

/-- C118, the condition `k1·k2 > 0` is needed: with one image negated the star's peak becomes a dip, and the result is not the same one
(here, without `zeromean`, the largest value of the map is 0, so `(0, 0)` is reported). -/
example (cfg : FFTConfig) :
    crossCorrelationShifts cfg none (realArr (fun p : Fin 10 × Fin 9 => if p = (4, 3) then (1 : ℝ) else 0))
      (fun p => (realArr (Spec.roll2 1 2 fun p : Fin 10 × Fin 9 => if p = (4, 3) then (1 : ℝ) else 0) p).map fun v => (-1) * v + 0) none none none
      false false false false = .ok [.fin 0, .fin 0] := by
  have hp : prep false (realArr fun p : Fin 10 × Fin 9 => if p = (4, 3) then (1 : ℝ) else 0)
      = fun p => if p = (4, 3) then (1 : ℝ) else 0 := by
    rw [prep_real]; funext p; simp
  have hx : ∀ i, Spec.xcorr (prep false (realArr (fun p : Fin 10 × Fin 9 => if p = (4, 3) then (1 : ℝ) else 0)))
      (prep false (fun p => (realArr (Spec.roll2 1 2 fun p : Fin 10 × Fin 9 => if p = (4, 3) then (1 : ℝ) else 0) p).map fun v => (-1) * v + 0)) i
      = - Spec.xcorr (fun p : Fin 10 × Fin 9 => if p = (4, 3) then (1 : ℝ) else 0)
        (Spec.roll2 1 2 fun p : Fin 10 × Fin 9 => if p = (4, 3) then (1 : ℝ) else 0) i := by
    intro i
    rw [prep_affine (-1) 0 false (.inr rfl), prep_roll, hp]
    have := xcorr_smul 1 (-1) (fun p : Fin 10 × Fin 9 => if p = (4, 3) then (1 : ℝ) else 0)
      (Spec.roll2 1 2 fun p : Fin 10 × Fin 9 => if p = (4, 3) then (1 : ℝ) else 0) i
    simp only [one_mul] at this
    rw [this]; ring
  refine C53_no_signal cfg none _ _ none none none false false false false (Or.inr (by norm_num)) (fun i => ?_) ⟨(0, 0), ?_⟩
  · rw [hx, neg_nonpos]
    unfold Spec.xcorr Spec.roll2
    exact Finset.sum_nonneg fun p _ => by positivity
  · rw [hx, neg_eq_zero]
    unfold Spec.xcorr
    refine Finset.sum_eq_zero fun p _ => ?_
    beta_reduce
    by_cases h : p = (4, 3)
    · subst h
      rw [if_pos rfl, one_mul]
      unfold Spec.roll2
      exact if_neg (by decide)
    · rw [if_neg h, zero_mul]

end

end ImgReg
