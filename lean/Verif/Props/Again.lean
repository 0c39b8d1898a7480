import Verif.Props.Optimal
import Verif.Props.Recipe
import Verif.Props.TestingOffset

/-!
# Registering again (C133)

What happens to the answer of `chi2_shift` when the second image is moved - in particular when it has been corrected with the answer of a
first call and is measured again (the loop users write around README.md:22-23).
-/

open Complex Finset

namespace ImgReg

section
variable {ny nx : ℕ} [NeZero ny] [NeZero nx]

/-- an error argument whose pixels all count: one number, or an image without zeros and NaNs -/
def Spec.errAllCount : ErrArg ny nx → Prop
  | .image e => ∀ p, ∃ v : ℝ, e p = some v ∧ v ≠ 0
  | _ => True

/-- the error argument that goes with a rolled second image -/
def Spec.rollErr (dy dx : ℤ) : ErrArg ny nx → ErrArg ny nx
  | .image e => .image (Spec.roll2 dy dx e)
  | err => err

theorem interp2C_add_period (x : Fin ny × Fin nx → ℂ) (t u : ℝ) (l k : ℤ) :
    interp2C x (t + l * ny) (u + k * nx) = interp2C x t u := by
  rw [interp2C_sep, interp2C_sep, interpC_add_period]
  simp only [interpC_add_period]

/-- the interpolant of a rolled map -/
theorem interp2C_roll (x : Fin ny × Fin nx → ℝ) (dy dx : ℤ) (t u : ℝ) :
    interp2C (fun i => ((Spec.roll2 dy dx x i : ℝ) : ℂ)) (t + dy) (u + dx) = interp2C (fun i => (x i : ℂ)) t u :=
  interp2C_of_shift x (Spec.roll2 dy dx x) dy dx (fun p => (cshift_int dy dx x p).symm) t u

omit [NeZero ny] [NeZero nx] in
theorem maskOf_all {err : ErrArg ny nx} (h : Spec.errAllCount err) (a : Fin ny × Fin nx → ℝ) : Spec.maskOf err a = a := by
  cases err with
  | none => rfl
  | scalar s => rfl
  | image e =>
    funext p
    obtain ⟨v, hv, h0⟩ := h p
    simp [Spec.maskOf, Spec.nan0, hv, h0]

theorem errAllCount_roll {err : ErrArg ny nx} (h : Spec.errAllCount err) (dy dx : ℤ) : Spec.errAllCount (Spec.rollErr dy dx err) := by
  cases err with
  | none => trivial
  | scalar s => trivial
  | image e => exact fun p => h _

theorem errOf_roll (err : ErrArg ny nx) (dy dx : ℤ) : Spec.errOf (Spec.rollErr dy dx err) = Spec.roll2 dy dx (Spec.errOf err) := by
  cases err <;> rfl

theorem roll2_map (x : Fin ny × Fin nx → ℝ) (f : ℤ → ℤ → ℝ)
    (hf : ∀ a b c d : ℤ, a ≡ b [ZMOD ny] → c ≡ d [ZMOD nx] → f a c = f b d)
    (hx : ∀ i, x i = f (Spec.lag ny i.1) (Spec.lag nx i.2)) (dy dx : ℤ) (i : Fin ny × Fin nx) :
    Spec.roll2 (-dy) (-dx) x i = f (Spec.lag ny i.1 - dy) (Spec.lag nx i.2 - dx) := by
  unfold Spec.roll2
  rw [hx]
  apply hf
  · have := (Int.ModEq.refl (Spec.zeroLag ny : ℤ)).sub (Spec.wrap_modEq ny (((i.1 : ℕ) : ℤ) - -dy))
    refine this.trans ?_
    unfold Spec.lag
    rw [show (Spec.zeroLag ny : ℤ) - (((i.1 : ℕ) : ℤ) - -dy) = (Spec.zeroLag ny : ℤ) - ((i.1 : ℕ) : ℤ) - dy by ring]
  · have := (Int.ModEq.refl (Spec.zeroLag nx : ℤ)).sub (Spec.wrap_modEq nx (((i.2 : ℕ) : ℤ) - -dx))
    refine this.trans ?_
    unfold Spec.lag
    rw [show (Spec.zeroLag nx : ℤ) - (((i.2 : ℕ) : ℤ) - -dx) = (Spec.zeroLag nx : ℤ) - ((i.2 : ℕ) : ℤ) - dx by ring]

theorem chi2_congr_lag (a b σ : Fin ny × Fin nx → ℝ) (k l m n : ℤ) (h1 : k ≡ l [ZMOD ny]) (h2 : m ≡ n [ZMOD nx]) :
    Spec.chi2 a b σ k m = Spec.chi2 a b σ l n := by
  rw [chi2_eq_roll, chi2_eq_roll, roll2_congr h1 h2]

theorem roll2_add {α : Type} (a b c d : ℤ) (x : Fin ny × Fin nx → α) :
    Spec.roll2 a c (Spec.roll2 b d x) = Spec.roll2 (a + b) (c + d) x := by
  have key : ∀ {n : ℕ} [NeZero n] (i : Fin n) (a b : ℤ),
      Spec.wrap n (((Spec.wrap n (((i : ℕ) : ℤ) - a) : Fin n) : ℕ) - b) = Spec.wrap n (((i : ℕ) : ℤ) - (a + b)) := by
    intro n _ i a b
    refine Spec.wrap_congr n ?_
    have := (Spec.wrap_modEq n (((i : ℕ) : ℤ) - a)).sub_right b
    rwa [sub_sub] at this
  funext p
  unfold Spec.roll2
  exact congrArg x (Prod.ext (key _ _ _) (key _ _ _))

theorem roll2_zero {α : Type} (x : Fin ny × Fin nx → α) : Spec.roll2 0 0 x = x := by
  funext p
  unfold Spec.roll2
  rw [sub_zero, sub_zero, Spec.wrap_val, Spec.wrap_val]

/-- rolling the second image and its errors rolls the chi-squared map the other way -/
theorem chi2Map_roll_second (cfg : FFTConfig) (im1 im2 : Fin ny × Fin nx → Pix) (err : ErrArg ny nx) (he : Spec.errAllCount err)
    (zm ah : Bool) (cm cm' : Chi2Map ny nx) (dy dx : ℤ)
    (h : chi2nMapBody cfg im1 im2 err zm false ah = .ok cm)
    (h' : chi2nMapBody cfg im1 (Spec.roll2 dy dx im2) (Spec.rollErr dy dx err) zm false ah = .ok cm') (hf : Spec.fits ah ny nx) :
    cm'.chi2 = Spec.roll2 (-dy) (-dx) cm.chi2 := by
  obtain ⟨m, h1, h2⟩ := chi2nMapBody_chi2 cfg im1 im2 err zm ah hf
  obtain ⟨m', h1', h2'⟩ := chi2nMapBody_chi2 cfg im1 (Spec.roll2 dy dx im2) (Spec.rollErr dy dx err) zm ah hf
  obtain rfl : cm = m := Except.ok.inj (h.symm.trans h1)
  obtain rfl : cm' = m' := Except.ok.inj (h'.symm.trans h1')
  funext i
  rw [roll2_map cm.chi2 _ (chi2_congr_lag _ _ _) h2 dy dx i, h2', maskOf_all he, maskOf_all (errAllCount_roll he dy dx),
    maskOf_all he, maskOf_all (errAllCount_roll he dy dx), prep_roll2, errOf_roll, chi2_eq_roll, chi2_eq_roll,
    ← Spec.sum_move dy dx]
  refine Finset.sum_congr rfl fun p _ => ?_
  rw [Spec.roll2_move, Spec.roll2_move]
  congr 3
  have := Spec.roll2_move dy dx (Spec.roll2 (Spec.lag ny i.1 - dy) (Spec.lag nx i.2 - dx) (prep zm im1)) p
  rw [roll2_add] at this
  rw [← this]
  congr 1 <;> ring

/-- rolling the first image rolls the chi-squared map the same way -/
theorem chi2Map_roll_first (cfg : FFTConfig) (im1 im2 : Fin ny × Fin nx → Pix) (err : ErrArg ny nx) (he : Spec.errAllCount err)
    (zm ah : Bool) (cm cm' : Chi2Map ny nx) (dy dx : ℤ)
    (h : chi2nMapBody cfg im1 im2 err zm false ah = .ok cm)
    (h' : chi2nMapBody cfg (Spec.roll2 (-dy) (-dx) im1) im2 err zm false ah = .ok cm') (hf : Spec.fits ah ny nx) :
    cm'.chi2 = Spec.roll2 (-dy) (-dx) cm.chi2 := by
  obtain ⟨m, h1, h2⟩ := chi2nMapBody_chi2 cfg im1 im2 err zm ah hf
  obtain ⟨m', h1', h2'⟩ := chi2nMapBody_chi2 cfg (Spec.roll2 (-dy) (-dx) im1) im2 err zm ah hf
  obtain rfl : cm = m := Except.ok.inj (h.symm.trans h1)
  obtain rfl : cm' = m' := Except.ok.inj (h'.symm.trans h1')
  funext i
  rw [roll2_map cm.chi2 _ (chi2_congr_lag _ _ _) h2 dy dx i, h2', maskOf_all he, maskOf_all he, maskOf_all he, prep_roll2,
    chi2_eq_roll, chi2_eq_roll, roll2_add]
  rfl

/-- the answer for a rolled chi-squared map -/
theorem chi2Shift_roll_map (cfg : FFTConfig) (st : Stats) (hst : Spec.validStats st)
    (im1 im2 im1' im2' : Fin ny × Fin nx → Pix) (err err' : ErrArg ny nx) (us : UsFactor) (zm : Bool) (nf : ℝ)
    (mas : ℕ) (mns : ℝ) (ah : Bool) (hf : Spec.fits ah ny nx) (hus : Spec.validUs ny mas us) (ddy ddx : ℤ)
    (hroll : ∀ cm cm' : Chi2Map ny nx, chi2nMapBody cfg im1 im2 err zm false ah = .ok cm →
      chi2nMapBody cfg im1' im2' err' zm false ah = .ok cm' → cm'.chi2 = Spec.roll2 (-ddy) (-ddx) cm.chi2) :
    ∃ (chi2 : Fin ny × Fin nx → ℝ) (dx dy ex ey : ℝ) (s1 s2 : ℕ) (xv yv c : Fin s1 × Fin s2 → ℝ),
      chi2nMap cfg im1 im2 err zm false false ah = .ok (.only chi2) ∧
      (∀ re rc, chi2Shift cfg st im1 im2 err us zm nf false re rc mas mns ah
        = .ok (Spec.layout re rc dx dy ex ey (.arrays s1 s2 xv yv c))) ∧
      ((∃ q, ∀ q', q' ≠ q → chi2 q < chi2 q') →
        (us = .auto → Spec.regionSize (Spec.roll2 (-ddy) (-ddx) chi2) (mAuto st mns nf) = Spec.regionSize chi2 (mAuto st mns nf)) →
        ∃ k l : ℤ, ∀ re rc, chi2Shift cfg st im1' im2' err' us zm nf false re rc mas mns ah
          = .ok (Spec.layout re rc (dx + ddx - k * nx) (dy + ddy - l * ny) ex ey
              (.arrays s1 s2 (fun i => xv i - ddx + k * nx) (fun i => yv i - ddy + l * ny) c))) := by
  obtain ⟨cm, hcm, s1, s2, i1, i2, hg, u, hu, hu0, yv, xv, hyv, hxv, c, hc, er, her, hres⟩ :=
    chi2Shift_ok cfg st hst im1 im2 err us zm nf mas mns ah hf hus
  obtain ⟨cm', hcm', s1', s2', i1', i2', hg', u', hu', hu0', yv', xv', hyv', hxv', c', hc', er', her', hres'⟩ :=
    chi2Shift_ok cfg st hst im1' im2' err' us zm nf mas mns ah hf hus
  obtain ⟨rfl, rfl⟩ := Prod.mk.inj (hg.trans hg'.symm)
  refine ⟨cm.chi2, _, _, _, _, s1, s2, xv, yv, c, by rw [chi2nMap_same, hcm]; rfl, hres, ?_⟩
  rintro ⟨q, hq⟩ hsame
  have hm := hroll cm cm' hcm hcm'
  have huu : u' = u := by
    rw [hu, hu']
    cases us with
    | auto => simp only [Spec.usUsed]; rw [hm, hsame rfl]
    | int _ => rfl
    | float _ => rfl
  subst huu
  have hq1 : Np.argmin cm.chi2 = q := Np.argmin_eq_of_unique hq
  have hq2 : Np.argmin cm'.chi2 = Spec.move (-ddy) (-ddx) q := by
    apply Np.argmin_eq_of_unique
    intro j hj
    obtain ⟨j0, rfl⟩ := (Spec.move_bijective (-ddy) (-ddx)).2 j
    rw [hm, Spec.roll2_move, Spec.roll2_move]
    exact hq _ fun h => hj (by rw [h])
  have hrep : ∀ (n : ℕ) [NeZero n] (i : Fin n) (d : ℤ), ∃ k : ℤ,
      ((Spec.wrap n (((i : ℕ) : ℤ) + -d) : ℕ) : ℝ) = ((i : ℕ) : ℝ) - d + k * n := by
    intro n _ i d
    obtain ⟨k, hk⟩ := (Spec.wrap_modEq n (((i : ℕ) : ℤ) + -d)).symm.dvd
    refine ⟨k, ?_⟩
    have : (((Spec.wrap n (((i : ℕ) : ℤ) + -d) : ℕ) : ℤ)) = ((i : ℕ) : ℤ) - d + k * n := by linarith
    exact_mod_cast this
  obtain ⟨l, hl⟩ := hrep ny q.1 ddy
  obtain ⟨k, hk⟩ := hrep nx q.2 ddx
  have ey' : yv' = fun i => yv i - ddy + l * ny := by
    funext i
    rw [hyv', hyv, hq1, hq2]
    simp only [Spec.gridShift, Spec.move, hl]
    ring
  have ex' : xv' = fun i => xv i - ddx + k * nx := by
    funext i
    rw [hxv', hxv, hq1, hq2]
    simp only [Spec.gridShift, Spec.move, hk]
    ring
  have ec' : c' = c := by
    have key : ∀ t u : ℝ, interp2C (fun i => (cm'.chi2 i : ℂ)) (t - ddy + l * ny + (Spec.zeroLag ny : ℕ))
        (u - ddx + k * nx + (Spec.zeroLag nx : ℕ))
        = interp2C (fun i => (cm.chi2 i : ℂ)) (t + (Spec.zeroLag ny : ℕ)) (u + (Spec.zeroLag nx : ℕ)) := by
      intro t u
      rw [hm, ← interp2C_roll cm.chi2 (-ddy) (-ddx), ← interp2C_add_period _ (t + (Spec.zeroLag ny : ℕ) + ((-ddy : ℤ) : ℝ)) _ l k]
      have e1 : t - ddy + l * ny + (Spec.zeroLag ny : ℕ) = t + (Spec.zeroLag ny : ℕ) + ((-ddy : ℤ) : ℝ) + l * ny := by
        push_cast; ring
      have e2 : u - ddx + k * nx + (Spec.zeroLag nx : ℕ) = u + (Spec.zeroLag nx : ℕ) + ((-ddx : ℤ) : ℝ) + k * nx := by
        push_cast; ring
      rw [e1, e2]
    rw [hc', hc, ey', ex']
    simp only [key]
  refine ⟨k, l, fun re rc => ?_⟩
  obtain rfl : er' = er := by
    rw [ec'] at her'
    exact Except.ok.inj (her'.symm.trans her)
  subst ec'
  rw [hres', ey', ex']
  have e1 : -(xv (Np.argmin c') - ddx + k * nx) = -xv (Np.argmin c') + ddx - k * nx := by ring
  have e2 : -(yv (Np.argmin c') - ddy + l * ny) = -yv (Np.argmin c') + ddy - l * ny := by ring
  simp only [e1, e2]

/-- C133: rolling the second image (together with its error image, if there is one) by whole pixels moves the answer of `chi2_shift` by
exactly that much, up to whole image sizes; the error bars and the values of the upsampled map are the same. Explicit upsampling factor,
no zero or NaN errors, and one best pixel in the chi-squared map. -/
theorem C133_roll_second (cfg : FFTConfig) (st : Stats) (hst : Spec.validStats st)
    (im1 im2 : Fin ny × Fin nx → Pix) (err : ErrArg ny nx) (he : Spec.errAllCount err) (us : UsFactor) (hna : us ≠ .auto) (zm : Bool)
    (nf : ℝ) (mas : ℕ) (mns : ℝ) (ah : Bool) (hf : Spec.fits ah ny nx) (hus : Spec.validUs ny mas us) (ddy ddx : ℤ) :
    ∃ (chi2 : Fin ny × Fin nx → ℝ) (dx dy ex ey : ℝ) (s1 s2 : ℕ) (xv yv c : Fin s1 × Fin s2 → ℝ),
      chi2nMap cfg im1 im2 err zm false false ah = .ok (.only chi2) ∧
      (∀ re rc, chi2Shift cfg st im1 im2 err us zm nf false re rc mas mns ah
        = .ok (Spec.layout re rc dx dy ex ey (.arrays s1 s2 xv yv c))) ∧
      ((∃ q, ∀ q', q' ≠ q → chi2 q < chi2 q') →
        ∃ k l : ℤ, ∀ re rc,
          chi2Shift cfg st im1 (Spec.roll2 ddy ddx im2) (Spec.rollErr ddy ddx err) us zm nf false re rc mas mns ah
          = .ok (Spec.layout re rc (dx + ddx - k * nx) (dy + ddy - l * ny) ex ey
              (.arrays s1 s2 (fun i => xv i - ddx + k * nx) (fun i => yv i - ddy + l * ny) c))) := by
  obtain ⟨chi2, dx, dy, ex, ey, s1, s2, xv, yv, c, h1, h2, h3⟩ :=
    chi2Shift_roll_map cfg st hst im1 im2 im1 _ err _ us zm nf mas mns ah hf hus ddy ddx
      fun cm cm' h h' => chi2Map_roll_second cfg im1 im2 err he zm ah cm cm' ddy ddx h h' hf
  exact ⟨chi2, dx, dy, ex, ey, s1, s2, xv, yv, c, h1, h2, fun h => h3 h fun ha => absurd ha hna⟩

/-- C133: rolling the first image by whole pixels moves the answer the other way by exactly that much, up to whole image sizes; the error
image stays (it belongs to the second image). -/
theorem C133_roll_first (cfg : FFTConfig) (st : Stats) (hst : Spec.validStats st)
    (im1 im2 : Fin ny × Fin nx → Pix) (err : ErrArg ny nx) (he : Spec.errAllCount err) (us : UsFactor) (hna : us ≠ .auto) (zm : Bool)
    (nf : ℝ) (mas : ℕ) (mns : ℝ) (ah : Bool) (hf : Spec.fits ah ny nx) (hus : Spec.validUs ny mas us) (ddy ddx : ℤ) :
    ∃ (chi2 : Fin ny × Fin nx → ℝ) (dx dy ex ey : ℝ) (s1 s2 : ℕ) (xv yv c : Fin s1 × Fin s2 → ℝ),
      chi2nMap cfg im1 im2 err zm false false ah = .ok (.only chi2) ∧
      (∀ re rc, chi2Shift cfg st im1 im2 err us zm nf false re rc mas mns ah
        = .ok (Spec.layout re rc dx dy ex ey (.arrays s1 s2 xv yv c))) ∧
      ((∃ q, ∀ q', q' ≠ q → chi2 q < chi2 q') →
        ∃ k l : ℤ, ∀ re rc, chi2Shift cfg st (Spec.roll2 ddy ddx im1) im2 err us zm nf false re rc mas mns ah
          = .ok (Spec.layout re rc (dx - ddx - k * nx) (dy - ddy - l * ny) ex ey
              (.arrays s1 s2 (fun i => xv i + ddx + k * nx) (fun i => yv i + ddy + l * ny) c))) := by
  obtain ⟨chi2, dx, dy, ex, ey, s1, s2, xv, yv, c, h1, h2, h3⟩ :=
    chi2Shift_roll_map cfg st hst im1 im2 (Spec.roll2 ddy ddx im1) im2 err err us zm nf mas mns ah hf hus (-ddy) (-ddx)
    (fun cm cm' h h' => chi2Map_roll_first cfg im1 im2 err he zm ah cm cm' (-ddy) (-ddx) h (by rwa [neg_neg, neg_neg]) hf)
  refine ⟨chi2, dx, dy, ex, ey, s1, s2, xv, yv, c, h1, h2, fun h => ?_⟩
  simpa only [Int.cast_neg, ← sub_eq_add_neg, sub_neg_eq_add] using h3 h fun ha => absurd ha hna

/-- C133: measured again after the correction, nothing is left. With `upsample_factor=1` and one best pixel in the chi-squared map the
measured shift is a whole number of pixels, and after the second image (and its error image, if there is one) has been moved back by it
`chi2_shift` returns exactly `[0, 0]`. -/
theorem C133_measured_again (cfg cfg' : FFTConfig) (st : Stats) (hst : Spec.validStats st)
    (im1 : Fin ny × Fin nx → Pix) (im2 : Fin ny × Fin nx → ℝ) (hy : 2 ≤ ny) (err : ErrArg ny nx) (he : Spec.errAllCount err) (zm : Bool)
    (nf : ℝ) (mas : ℕ) (mns : ℝ) (ah : Bool) (hf : Spec.fits ah ny nx) (ra : Bool) :
    ∃ chi2 : Fin ny × Fin nx → ℝ,
      chi2nMap cfg im1 (realArr im2) err zm false false ah = .ok (.only chi2) ∧
      ((∃ q, ∀ q', q' ≠ q → chi2 q < chi2 q') →
        ∃ (dx dy : ℤ) (corrected : Fin ny × Fin nx → ℝ),
          chi2Shift cfg st im1 (realArr im2) err (.int 1) zm nf false false false mas mns ah = .ok [.num dx, .num dy] ∧
          shift2d cfg' (rArr im2) (-dx) (-dy) 0 ra true = .real (realArr corrected) ∧
          chi2Shift cfg st im1 (realArr corrected) (Spec.rollErr (-dy) (-dx) err) (.int 1) zm nf false false false mas mns ah
            = .ok [.num 0, .num 0]) := by
  obtain ⟨cm, hcm, -⟩ := chi2nMapBody_chi2 cfg im1 (realArr im2) err zm ah hf
  refine ⟨cm.chi2, by rw [chi2nMap_same, hcm]; rfl, ?_⟩
  rintro ⟨q, hq⟩
  set dy : ℤ := (((ny - 1) / 2 : ℕ) : ℤ) - ((q.1 : ℕ) : ℤ) with hdy
  set dx : ℤ := (((nx - 1) / 2 : ℕ) : ℤ) - ((q.2 : ℕ) : ℤ) with hdx
  refine ⟨dx, dy, Spec.roll2 (-dy) (-dx) im2, ?_, ?_, ?_⟩
  · have := chi2ShiftB_one cfg .wrap st hst _ _ err zm nf mas mns ah hy cm hcm q hq
    refine Eq.trans this ?_
    rw [hdy, hdx]
    push_cast
    rfl
  · have := C02_shift2d_integer_roll cfg' im2 (-dx) (-dy) ra
    push_cast at this
    exact this
  · obtain ⟨cm', hcm', -⟩ := chi2nMapBody_chi2 cfg im1 (Spec.roll2 (-dy) (-dx) (realArr im2)) (Spec.rollErr (-dy) (-dx) err) zm ah hf
    have hm := chi2Map_roll_second cfg im1 (realArr im2) err he zm ah cm cm' (-dy) (-dx) hcm hcm' hf
    rw [neg_neg, neg_neg] at hm
    have hmid : Spec.move dy dx q = (⟨(ny - 1) / 2, by omega⟩, ⟨(nx - 1) / 2, by have := Nat.pos_of_ne_zero (NeZero.ne nx); omega⟩) := by
      unfold Spec.move
      refine Prod.ext ?_ ?_
      · show Spec.wrap ny (((q.1 : ℕ) : ℤ) + dy) = _
        rw [hdy, add_sub_cancel]
        exact Spec.wrap_val ny ⟨(ny - 1) / 2, by omega⟩
      · show Spec.wrap nx (((q.2 : ℕ) : ℤ) + dx) = _
        rw [hdx, add_sub_cancel]
        exact Spec.wrap_val nx ⟨(nx - 1) / 2, by have := Nat.pos_of_ne_zero (NeZero.ne nx); omega⟩
    have hq' : ∀ i, i ≠ Spec.move dy dx q → cm'.chi2 (Spec.move dy dx q) < cm'.chi2 i := by
      intro i hi
      obtain ⟨j, rfl⟩ := (Spec.move_bijective dy dx).2 i
      rw [hm, Spec.roll2_move, Spec.roll2_move]
      exact hq _ fun h => hi (by rw [h])
    have := chi2ShiftB_one cfg .wrap st hst _ _ (Spec.rollErr (-dy) (-dx) err) zm nf mas mns ah hy cm' hcm' _ hq'
    rw [hmid, sub_self, sub_self] at this
    exact this

/-- C133: one pass of the recipe never makes the match worse. Whenever the search grid contains the best whole-pixel displacement, the
corrected second image is at least as close to the first (sum of squared differences) as the second image was. -/
theorem C133_pass_never_worse (cfg cfg' : FFTConfig) (st : Stats) (hst : Spec.validStats st)
    (im1 im2 : Fin ny × Fin nx → ℝ) (u : ℕ) (hu : 0 < u) (hg : Spec.gridHasWhole ny nx u)
    (err : ErrArg ny nx) (s : ℝ) (hs : s ≠ 0) (herr : Spec.isScalarErr err s)
    (nf : ℝ) (mas : ℕ) (mns : ℝ) (ah : Bool) (hf : Spec.fits ah ny nx) (ra : Bool) :
    ∃ (rx ry : ℝ) (corrected : Fin ny × Fin nx → ℝ),
      chi2Shift cfg st (realArr im1) (realArr im2) err (.int u) false nf false false false mas mns ah = .ok [.num rx, .num ry] ∧
      shift2d cfg' (rArr im2) (-rx) (-ry) 0 ra true = .real (realArr corrected) ∧
      ∑ p, (im1 p - corrected p) ^ 2 ≤ ∑ p, (im1 p - im2 p) ^ 2 := by
  obtain ⟨rx, ry, y, h1, h2, h3⟩ := C128_no_worse_than_whole_pixels cfg cfg' st hst im1 im2 im1 im2 u hu hg false (fun p => by simp)
    (fun p => by simp) err s hs herr nf mas mns ah hf
  have hy : y = cshift (-ry) (-rx) im2 := by
    rw [rArr_eq_cArr] at h2
    exact shift2d_cplx h2
  refine ⟨rx, ry, fun p => (cshift (-ry) (-rx) im2 p).re, h1, shift2d_real cfg' im2 _ _ ra, ?_⟩
  have h4 := h3 0 0
  have hr : Spec.roll2 0 0 im1 = im1 := by
    have := roll2_back (Int.ModEq.refl (0 : ℤ)) (Int.ModEq.refl (0 : ℤ)) im1 (ny := ny) (nx := nx)
    rwa [neg_zero, roll2_add, add_zero] at this
  rw [hr, ← Finset.sum_div, ← Finset.sum_div, div_le_div_iff_of_pos_right (by positivity)] at h4
  refine le_trans (Finset.sum_le_sum fun p _ => ?_) h4
  rw [← sq_abs, hy]
  refine pow_le_pow_left₀ (abs_nonneg _) ?_ 2
  have := Complex.abs_re_le_norm ((im1 p : ℂ) - cshift (-ry) (-rx) im2 p)
  simpa using this

/-- one pass of the recipe: measure the shift against `im1`, shift back by it -/
def Spec.pass (cfg cfg' : FFTConfig) (st : Stats) (im1 : Fin ny × Fin nx → ℝ) (err : ErrArg ny nx) (u : ℕ) (nf : ℝ) (mas : ℕ) (mns : ℝ)
    (ah ra : Bool) (im im' : Fin ny × Fin nx → ℝ) : Prop :=
  ∃ rx ry : ℝ,
    chi2Shift cfg st (realArr im1) (realArr im) err (.int u) false nf false false false mas mns ah = .ok [.num rx, .num ry] ∧
    shift2d cfg' (rArr im) (-rx) (-ry) 0 ra true = .real (realArr im')

/-- C133: however often the recipe is repeated, each pass returns and no pass makes the match worse; the sums of squared differences
converge. -/
theorem C133_passes (cfg cfg' : FFTConfig) (st : Stats) (hst : Spec.validStats st)
    (im1 im2 : Fin ny × Fin nx → ℝ) (u : ℕ) (hu : 0 < u) (hg : Spec.gridHasWhole ny nx u)
    (err : ErrArg ny nx) (s : ℝ) (hs : s ≠ 0) (herr : Spec.isScalarErr err s)
    (nf : ℝ) (mas : ℕ) (mns : ℝ) (ah : Bool) (hf : Spec.fits ah ny nx) (ra : Bool) :
    ∃ ims : ℕ → Fin ny × Fin nx → ℝ, ims 0 = im2 ∧
      (∀ k, Spec.pass cfg cfg' st im1 err u nf mas mns ah ra (ims k) (ims (k + 1))) ∧
      (∀ ims' : ℕ → Fin ny × Fin nx → ℝ, ims' 0 = im2 →
        (∀ k, Spec.pass cfg cfg' st im1 err u nf mas mns ah ra (ims' k) (ims' (k + 1))) → ims' = ims) ∧
      Antitone (fun k => ∑ p, (im1 p - ims k p) ^ 2) ∧
      ∃ limit, Filter.Tendsto (fun k => ∑ p, (im1 p - ims k p) ^ 2) Filter.atTop (nhds limit) := by
  have step := fun im => C133_pass_never_worse cfg cfg' st hst im1 im u hu hg err s hs herr nf mas mns ah hf ra
  choose rx ry nxt h1 h2 h3 using step
  have uniq : ∀ im im', Spec.pass cfg cfg' st im1 err u nf mas mns ah ra im im' → im' = nxt im := by
    rintro im im' ⟨x, y, e1, e2⟩
    have := (h1 im).symm.trans e1
    simp only [Except.ok.injEq, List.cons.injEq, RetVal.num.injEq, and_true] at this
    obtain ⟨rfl, rfl⟩ := this
    have h := NdOut.real.inj (e2.symm.trans (h2 im))
    funext p
    exact Option.some.inj (congrFun h p)
  have mono : Antitone (fun k => ∑ p, (im1 p - Nat.rec im2 (fun _ im => nxt im) k p) ^ 2) :=
    antitone_nat_of_succ_le fun k => h3 _
  refine ⟨fun k => Nat.rec im2 (fun _ im => nxt im) k, rfl, fun k => ⟨_, _, h1 _, h2 _⟩, ?_, mono, ?_⟩
  · intro ims' e0 e
    funext k
    induction k with
    | zero => exact e0
    | succ k ih => rw [uniq _ _ (e k), ih]
  · exact ⟨_, tendsto_atTop_ciInf mono ⟨0, by rintro _ ⟨k, rfl⟩; exact Finset.sum_nonneg fun p _ => sq_nonneg _⟩⟩

/-- C133 (and C33): with an even number of rows and an even upsampling factor the vertical shift is never a whole number of pixels: it is
at least half a grid step away, even for identical images. -/
theorem C133_even_factor_never_whole (cfg : FFTConfig) (st : Stats) (hst : Spec.validStats st)
    (im1 im2 : Fin ny × Fin nx → Pix) (err : ErrArg ny nx) (hy : Even ny)
    (u : ℕ) (hu : 0 < u) (hev : Even u) (zm : Bool) (nf : ℝ) (mas : ℕ) (mns : ℝ) (ah : Bool)
    (hf : Spec.fits ah ny nx) :
    ∃ dx dy : ℝ, chi2Shift cfg st im1 im2 err (.int u) zm nf false false false mas mns ah
        = .ok [.num dx, .num dy] ∧ ∀ z : ℤ, 1 / (2 * (u : ℝ)) ≤ |dy - z| := by
  obtain ⟨cm, hcm, s1, s2, i1, i2, hg, uu, huu, hu0, yv, xv, hyv, hxv, c, hc, er, her, hres⟩ :=
    chi2Shift_ok cfg st hst im1 im2 err (.int u) zm nf mas mns ah hf hu
  refine ⟨_, _, (hres false false).trans rfl, fun z => ?_⟩
  replace huu : uu = (u : ℝ) := huu
  subst huu
  obtain ⟨t, ht⟩ : ∃ t, s1 = 2 * t := by
    rcases (gridSize_int_cases hg).1 with h | h
    · obtain ⟨t, ht⟩ := hy; exact ⟨t, by omega⟩
    · exact ⟨u, h⟩
  obtain ⟨v, hv⟩ := hev
  rw [hyv]
  simp only [Spec.gridShift]
  have hh : Spec.halfPix ny = 1 / 2 := by
    have : ny % 2 = 0 := Nat.even_iff.1 hy
    simp [Spec.halfPix, this]
  rw [hh]
  generalize ((Np.argmin cm.chi2).1 : ℕ) = q
  generalize ((Np.argmin c).1 : ℕ) = j
  rw [ht]
  have hup : (0 : ℝ) < u := hu0
  have hv' : (u : ℝ) = 2 * v := by rw [hv]; push_cast; ring
  have e : (-((q : ℝ) - (Spec.zeroLag ny : ℕ) + 1 / 2 + ((j : ℝ) - (((2 * t : ℕ) : ℝ) - 1) / 2) / u) - z)
      = ((2 * (2 * (v : ℤ) * ((Spec.zeroLag ny : ℕ) - q - z) - v - j + t) - 1 : ℤ) : ℝ) * (1 / (2 * u)) := by
    have hv0 : (v : ℝ) ≠ 0 := by intro h; rw [h] at hv'; linarith
    rw [hv']
    push_cast
    field_simp
    ring
  rw [e, abs_mul, abs_of_pos (by positivity : (0 : ℝ) < 1 / (2 * u))]
  have : (1 : ℝ) ≤ |((2 * (2 * (v : ℤ) * ((Spec.zeroLag ny : ℕ) - q - z) - v - j + t) - 1 : ℤ) : ℝ)| := by
    rw [← Int.cast_abs]
    have hne : (2 * (2 * (v : ℤ) * ((Spec.zeroLag ny : ℕ) - q - z) - v - j + t) - 1 : ℤ) ≠ 0 := by omega
    exact_mod_cast Int.one_le_abs hne
  nlinarith [show (0 : ℝ) < 1 / (2 * u) by positivity]

end
/-- two 3 × 3 images with one bright pixel each, at (0, 0) and at (1, 2): the chi-squared map has one best pixel, as C133 asks -/
theorem again_case (cfg : FFTConfig) : ∃ chi2 : Fin 3 × Fin 3 → ℝ,
    chi2nMap cfg (realArr fun p : Fin 3 × Fin 3 => if p = (0, 0) then 1 else 0) (realArr fun p : Fin 3 × Fin 3 => if p = (1, 2) then 1 / 2 else 0)
      (.scalar 3) false false false true = .ok (.only chi2) ∧ ∀ q', q' ≠ (0, 2) → chi2 (0, 2) < chi2 q' := by
  obtain ⟨cm, hcm, hchi⟩ := chi2nMapBody_chi2 cfg (realArr fun p : Fin 3 × Fin 3 => if p = (0, 0) then 1 else 0)
    (realArr fun p : Fin 3 × Fin 3 => if p = (1, 2) then 1 / 2 else 0) (.scalar 3) false true (.inl rfl)
  refine ⟨cm.chi2, by rw [chi2nMap_same, hcm]; rfl, ?_⟩
  have pr : ∀ a : Fin 3 × Fin 3 → ℝ, prep false (realArr a) = a := by
    intro a; rw [prep_real]; funext p; simp
  have hv : ∀ i, cm.chi2 i = if i = (0, 2) then 1 / 36 else 5 / 36 := by
    intro i
    rw [hchi, chi2_eq_roll, pr, pr]
    have hd : ∀ i p : Fin 3 × Fin 3, (Spec.wrap 3 (((p.1 : ℕ) : ℤ) - Spec.lag 3 i.1), Spec.wrap 3 (((p.2 : ℕ) : ℤ) - Spec.lag 3 i.2))
        = ((0, 0) : Fin 3 × Fin 3) ↔ p = (Spec.wrap 3 (Spec.lag 3 i.1), Spec.wrap 3 (Spec.lag 3 i.2)) := by decide
    have hr : ∀ p, Spec.roll2 (Spec.lag 3 i.1) (Spec.lag 3 i.2) (fun p : Fin 3 × Fin 3 => if p = (0, 0) then (1 : ℝ) else 0) p
        = if p = (Spec.wrap 3 (Spec.lag 3 i.1), Spec.wrap 3 (Spec.lag 3 i.2)) then 1 else 0 := by
      intro p
      unfold Spec.roll2
      simp only [hd]
    simp only [Spec.maskOf, Spec.errOf, hr]
    have hi : ∀ i : Fin 3 × Fin 3, (Spec.wrap 3 (Spec.lag 3 i.1), Spec.wrap 3 (Spec.lag 3 i.2)) = ((1, 2) : Fin 3 × Fin 3) ↔ i = (0, 2) := by decide
    by_cases h : i = (0, 2)
    · rw [if_pos h, (hi i).2 h, Finset.sum_eq_single (1, 2)]
      · norm_num
      · intro p _ hp; simp [hp]
      · simp
    · rw [if_neg h]
      have hne := fun h' => h ((hi i).1 h')
      generalize (Spec.wrap 3 (Spec.lag 3 i.1), Spec.wrap 3 (Spec.lag 3 i.2)) = r at hne
      have : ∀ p : Fin 3 × Fin 3, ((if p = r then (1 : ℝ) else 0) - if p = (1, 2) then 1 / 2 else 0) ^ 2 / 3 ^ 2
          = (if p = r then 1 / 9 else 0) + if p = (1, 2) then 1 / 36 else 0 := by
        intro p
        by_cases h1 : p = r
        · have h2 : p ≠ (1, 2) := fun h2 => hne (h1.symm.trans h2)
          simp only [h1, if_true]
          rw [if_neg (h1 ▸ h2), if_neg (h1 ▸ h2)]; norm_num
        · by_cases h2 : p = (1, 2)
          · rw [if_neg h1, if_neg h1, if_pos h2, if_pos h2]; norm_num
          · rw [if_neg h1, if_neg h1, if_neg h2, if_neg h2]; norm_num
      simp only [this, Finset.sum_add_distrib, Finset.sum_ite_eq', Finset.mem_univ, if_true]
      norm_num
  intro q' hq'
  rw [hv, hv, if_pos rfl, if_neg hq']
  norm_num

/-- the hypotheses of `C133_roll_second` are met: the bright pixel of the second image moved on by (1, 1) -/
example (cfg : FFTConfig) : ∃ (dx dy ex ey : ℝ) (k l : ℤ),
    chi2Shift cfg none (realArr fun p : Fin 3 × Fin 3 => if p = (0, 0) then 1 else 0)
      (realArr fun p : Fin 3 × Fin 3 => if p = (1, 2) then 1 / 2 else 0) (.scalar 3) (.int 2) false 1 false true false 10 1 true
      = .ok [.num dx, .num dy, .num ex, .num ey] ∧
    chi2Shift cfg none (realArr fun p : Fin 3 × Fin 3 => if p = (0, 0) then 1 else 0)
      (Spec.roll2 1 1 (realArr fun p : Fin 3 × Fin 3 => if p = (1, 2) then 1 / 2 else 0)) (.scalar 3) (.int 2) false 1 false true false 10 1 true
      = .ok [.num (dx + 1 - k * 3), .num (dy + 1 - l * 3), .num ex, .num ey] := by
  obtain ⟨chi2, hc, hq⟩ := again_case cfg
  obtain ⟨chi2', dx, dy, ex, ey, s1, s2, xv, yv, c, h1, h2, h3⟩ := C133_roll_second cfg none trivial
    (realArr fun p : Fin 3 × Fin 3 => if p = (0, 0) then 1 else 0) (realArr fun p : Fin 3 × Fin 3 => if p = (1, 2) then 1 / 2 else 0)
    (.scalar 3) trivial (.int 2) (fun h => by cases h) false 1 10 1 true (.inl rfl) (by exact Nat.two_pos) 1 1
  rw [hc] at h1
  obtain rfl : chi2 = chi2' := Chi2Ret.only.inj (Except.ok.inj h1)
  obtain ⟨k, l, h⟩ := h3 ⟨_, hq⟩
  refine ⟨dx, dy, ex, ey, k, l, (h2 true false).trans rfl, (h true false).trans ?_⟩
  simp [Spec.layout]

/-- the hypotheses of `C133_measured_again` are met -/
example (cfg cfg' : FFTConfig) : ∃ (dx dy : ℤ) (corrected : Fin 3 × Fin 3 → ℝ),
    chi2Shift cfg none (realArr fun p : Fin 3 × Fin 3 => if p = (0, 0) then 1 else 0)
      (realArr fun p : Fin 3 × Fin 3 => if p = (1, 2) then 1 / 2 else 0) (.scalar 3) (.int 1) false 1 false false false 10 1 true
      = .ok [.num dx, .num dy] ∧
    shift2d cfg' (rArr fun p : Fin 3 × Fin 3 => if p = (1, 2) then 1 / 2 else 0) (-dx) (-dy) 0 true true = .real (realArr corrected) ∧
    chi2Shift cfg none (realArr fun p : Fin 3 × Fin 3 => if p = (0, 0) then 1 else 0) (realArr corrected) (.scalar 3) (.int 1) false 1 false
      false false 10 1 true = .ok [.num 0, .num 0] := by
  obtain ⟨chi2, hc, hq⟩ := again_case cfg
  obtain ⟨chi2', h1, h2⟩ := C133_measured_again cfg cfg' none trivial (realArr fun p : Fin 3 × Fin 3 => if p = (0, 0) then 1 else 0)
    (fun p : Fin 3 × Fin 3 => if p = (1, 2) then 1 / 2 else 0) (by norm_num) (.scalar 3) trivial false 1 10 1 true (.inl rfl) true
  rw [hc] at h1
  obtain rfl : chi2 = chi2' := Chi2Ret.only.inj (Except.ok.inj h1)
  exact h2 ⟨_, hq⟩

/-- the hypotheses of `C133_passes` are met by any pair of 5 × 7 images and `upsample_factor=3`; those of the finding by a 4 × 4 image
measured against itself with `upsample_factor=2` -/
example (cfg : FFTConfig) (im1 im2 : Fin 5 × Fin 7 → ℝ) : ∃ ims : ℕ → Fin 5 × Fin 7 → ℝ, ims 0 = im2 ∧
    (∀ k, Spec.pass cfg cfg none im1 (.scalar 2) 3 1 10 1 true true (ims k) (ims (k + 1))) ∧
    Antitone (fun k => ∑ p, (im1 p - ims k p) ^ 2) := by
  obtain ⟨ims, h1, h2, -, h3, -⟩ := C133_passes cfg cfg none trivial im1 im2 3 (by norm_num)
    (.inl ⟨by norm_num, .inl (by decide), .inl (by decide)⟩) (.scalar 2) 2 (by norm_num) rfl 1 10 1 true (.inl rfl) true
  exact ⟨ims, h1, h2, h3⟩

example (cfg : FFTConfig) (im : Fin 4 × Fin 4 → Pix) : ∃ dx dy : ℝ,
    chi2Shift cfg none im im .none (.int 2) false 1 false false false 10 1 true = .ok [.num dx, .num dy] ∧ 1 / 4 ≤ |dy| := by
  obtain ⟨dx, dy, h, h2⟩ := C133_even_factor_never_whole cfg none trivial im im .none (by decide) 2 (by norm_num) (by decide) false 1 10 1
    true (.inl rfl)
  refine ⟨dx, dy, h, ?_⟩
  have := h2 0
  norm_num at this ⊢
  exact this

end ImgReg
