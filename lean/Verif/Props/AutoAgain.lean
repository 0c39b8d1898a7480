import Verif.Props.Again
import Verif.Props.Chi2Recover

/-!
# Moving an image and calling `chi2_shift` again with the default `upsample_factor='auto'` (C136)
-/

open Finset

namespace ImgReg

section
variable {ny nx : ℕ} [NeZero ny] [NeZero nx]

/-- the pixels of a map that are less than `t` above its minimum all stay inside the map when moved by `(-ddy, -ddx)` and some whole image
sizes, the same for all of them -/
def Spec.regionStays (chi2 : Fin ny × Fin nx → ℝ) (t : ℝ) (ddy ddx : ℤ) : Prop :=
  ∃ l k : ℤ, ∀ p : Fin ny × Fin nx, (∀ q, chi2 p - chi2 q < t) →
    (0 ≤ ((p.1 : ℕ) : ℤ) - ddy + l * ny ∧ ((p.1 : ℕ) : ℤ) - ddy + l * ny < ny) ∧
    (0 ≤ ((p.2 : ℕ) : ℤ) - ddx + k * nx ∧ ((p.2 : ℕ) : ℤ) - ddx + k * nx < nx)

theorem region_iff (chi2 : Fin ny × Fin nx → ℝ) (t : ℝ) (p : Fin ny × Fin nx) :
    chi2 p - chi2 (Np.argmin chi2) < t ↔ ∀ q, chi2 p - chi2 q < t := by
  refine ⟨fun h q => ?_, fun h => h _⟩
  have := (Np.argmin_spec chi2).1 q
  linarith

theorem wrap_inside {n : ℕ} [NeZero n] (p : Fin n) (d l : ℤ) (h1 : 0 ≤ ((p : ℕ) : ℤ) - d + l * n) (h2 : ((p : ℕ) : ℤ) - d + l * n < n) :
    ((Spec.wrap n (((p : ℕ) : ℤ) + -d) : ℕ) : ℤ) = ((p : ℕ) : ℤ) - d + l * n := by
  have hm := Spec.wrap_modEq n (((p : ℕ) : ℤ) + -d)
  have hm' : ((p : ℕ) : ℤ) + -d ≡ ((p : ℕ) : ℤ) - d + l * n [ZMOD n] := Int.modEq_iff_dvd.2 ⟨l, by ring⟩
  have h3 := hm.trans hm'
  have := (Spec.wrap n (((p : ℕ) : ℤ) + -d)).isLt
  rwa [Int.ModEq, Int.emod_eq_of_lt (by omega) (by omega), Int.emod_eq_of_lt h1 h2] at h3

/-- the extent of the region does not change when the region stays in one piece -/
theorem regionSize_roll (chi2 : Fin ny × Fin nx → ℝ) (t : ℝ) (ddy ddx : ℤ) (h : Spec.regionStays chi2 t ddy ddx) :
    Spec.regionSize (Spec.roll2 (-ddy) (-ddx) chi2) t = Spec.regionSize chi2 t := by
  obtain ⟨l, k, hs⟩ := h
  have hreg : ∀ p, (Spec.roll2 (-ddy) (-ddx) chi2 (Spec.move (-ddy) (-ddx) p) - Spec.roll2 (-ddy) (-ddx) chi2 (Np.argmin (Spec.roll2 (-ddy) (-ddx) chi2)) < t
      ↔ chi2 p - chi2 (Np.argmin chi2) < t) := by
    intro p
    rw [region_iff, region_iff]
    constructor
    · intro h q
      have := h (Spec.move (-ddy) (-ddx) q)
      rwa [Spec.roll2_move, Spec.roll2_move] at this
    · intro h q
      obtain ⟨q0, rfl⟩ := (Spec.move_bijective (-ddy) (-ddx)).2 q
      rw [Spec.roll2_move, Spec.roll2_move]
      exact h q0
  have hc1 : ∀ p, chi2 p - chi2 (Np.argmin chi2) < t → (((Spec.move (-ddy) (-ddx) p).1 : ℕ) : ℝ) = ((p.1 : ℕ) : ℝ) - ddy + l * ny := by
    intro p hp
    obtain ⟨⟨a1, a2⟩, -⟩ := hs p ((region_iff chi2 t p).1 hp)
    exact_mod_cast wrap_inside p.1 ddy l a1 a2
  have hc2 : ∀ p, chi2 p - chi2 (Np.argmin chi2) < t → (((Spec.move (-ddy) (-ddx) p).2 : ℕ) : ℝ) = ((p.2 : ℕ) : ℝ) - ddx + k * nx := by
    intro p hp
    obtain ⟨-, a1, a2⟩ := hs p ((region_iff chi2 t p).1 hp)
    exact_mod_cast wrap_inside p.2 ddx k a1 a2
  apply le_antisymm
  · rcases regionSize_attained (Spec.roll2 (-ddy) (-ddx) chi2) t with h1 | ⟨p, q, hp, hq, hv⟩
    · rw [h1]; exact regionSize_pos chi2 t
    · obtain ⟨p, rfl⟩ := (Spec.move_bijective (-ddy) (-ddx)).2 p
      obtain ⟨q, rfl⟩ := (Spec.move_bijective (-ddy) (-ddx)).2 q
      have hp' := (hreg p).1 hp
      have hq' := (hreg q).1 hq
      obtain ⟨b1, b2⟩ := regionSize_bound chi2 t p q hp' hq'
      rw [hc1 p hp', hc1 q hq', hc2 p hp', hc2 q hq'] at hv
      rcases hv with hv | hv <;> rw [hv]
      · refine le_trans (le_of_eq ?_) (le_trans (le_abs_self _) b1); ring
      · refine le_trans (le_of_eq ?_) (le_trans (le_abs_self _) b2); ring
  · rcases regionSize_attained chi2 t with h1 | ⟨p, q, hp, hq, hv⟩
    · rw [h1]; exact regionSize_pos _ t
    · obtain ⟨b1, b2⟩ := regionSize_bound (Spec.roll2 (-ddy) (-ddx) chi2) t _ _ ((hreg p).2 hp) ((hreg q).2 hq)
      rw [hc1 p hp, hc1 q hq] at b1
      rw [hc2 p hp, hc2 q hq] at b2
      rcases hv with hv | hv <;> rw [hv]
      · refine le_trans (le_of_eq ?_) (le_trans (le_abs_self _) b1); ring
      · refine le_trans (le_of_eq ?_) (le_trans (le_abs_self _) b2); ring

theorem auto_layout_size (cfg : FFTConfig) (st : Stats) (hst : Spec.validStats st)
    (im1 im2 : Fin ny × Fin nx → Pix) (err : ErrArg ny nx) (zm : Bool)
    (nf : ℝ) (mas : ℕ) (hmas : 0 < mas) (mns : ℝ) (ah : Bool) (hf : Spec.fits ah ny nx) (dx dy ex ey : ℝ) {s1 s2 : ℕ} (xv yv c : Fin s1 × Fin s2 → ℝ)
    (h : chi2Shift cfg st im1 im2 err .auto zm nf false false true mas mns ah
        = .ok (Spec.layout false true dx dy ex ey (.arrays s1 s2 xv yv c))) : s1 = mas ∧ s2 = mas := by
  obtain ⟨_, _, _, _, -, -, -, -, -, -, -, -, dx0, dy0, xv0, yv0, c0, h5, -⟩ := C35_auto cfg st hst im1 im2 err zm nf mas hmas mns ah hf
  have h6 := Except.ok.inj (h.symm.trans h5)
  simp only [Spec.layout, Bool.false_eq_true, if_false, if_true, List.append_nil, List.cons_append, List.nil_append, List.cons.injEq,
    RetVal.arrays.injEq, and_true] at h6
  exact ⟨h6.2.2.1, h6.2.2.2.1⟩

/-- C136: with the default `upsample_factor='auto'`, rolling the second image (together with its error image) by whole pixels moves the answer of
`chi2_shift` by exactly that much, up to whole image sizes, and leaves the error bars and the values of the upsampled map unchanged, provided the
chi-squared map has one best pixel and the region below the threshold of the automatic choice is not cut in two by the edge of the map before or after the move. -/
theorem C136_roll_second (cfg : FFTConfig) (st : Stats) (hst : Spec.validStats st)
    (im1 im2 : Fin ny × Fin nx → Pix) (err : ErrArg ny nx) (he : Spec.errAllCount err) (zm : Bool)
    (nf : ℝ) (mas : ℕ) (hmas : 0 < mas) (mns : ℝ) (ah : Bool) (hf : Spec.fits ah ny nx) (ddy ddx : ℤ) :
    ∃ (chi2 : Fin ny × Fin nx → ℝ) (dx dy ex ey : ℝ) (xv yv c : Fin mas × Fin mas → ℝ),
      chi2nMap cfg im1 im2 err zm false false ah = .ok (.only chi2) ∧
      (∀ re rc, chi2Shift cfg st im1 im2 err .auto zm nf false re rc mas mns ah
        = .ok (Spec.layout re rc dx dy ex ey (.arrays mas mas xv yv c))) ∧
      ((∃ q, ∀ q', q' ≠ q → chi2 q < chi2 q') → Spec.regionStays chi2 (Spec.autoThreshold st mns nf) ddy ddx →
        ∃ k l : ℤ, ∀ re rc,
          chi2Shift cfg st im1 (Spec.roll2 ddy ddx im2) (Spec.rollErr ddy ddx err) .auto zm nf false re rc mas mns ah
          = .ok (Spec.layout re rc (dx + ddx - k * nx) (dy + ddy - l * ny) ex ey
              (.arrays mas mas (fun i => xv i - ddx + k * nx) (fun i => yv i - ddy + l * ny) c))) := by
  obtain ⟨chi2, dx, dy, ex, ey, s1, s2, xv, yv, c, h1, h2, h3⟩ :=
    chi2Shift_roll_map cfg st hst im1 im2 im1 (Spec.roll2 ddy ddx im2) err (Spec.rollErr ddy ddx err) .auto zm nf mas mns ah hf hmas ddy ddx
      fun cm cm' h h' => chi2Map_roll_second cfg im1 im2 err he zm ah cm cm' ddy ddx h h' hf
  obtain ⟨rfl, rfl⟩ := auto_layout_size cfg st hst im1 im2 err zm nf mas hmas mns ah hf dx dy ex ey xv yv c (h2 false true)
  refine ⟨chi2, dx, dy, ex, ey, xv, yv, c, h1, h2, fun hq hs => h3 hq fun _ => ?_⟩
  rw [autoThreshold_eq]
  exact regionSize_roll chi2 _ ddy ddx hs

/-- C136: the same for the first image, with the opposite sign; the error image stays. -/
theorem C136_roll_first (cfg : FFTConfig) (st : Stats) (hst : Spec.validStats st)
    (im1 im2 : Fin ny × Fin nx → Pix) (err : ErrArg ny nx) (he : Spec.errAllCount err) (zm : Bool)
    (nf : ℝ) (mas : ℕ) (hmas : 0 < mas) (mns : ℝ) (ah : Bool) (hf : Spec.fits ah ny nx) (ddy ddx : ℤ) :
    ∃ (chi2 : Fin ny × Fin nx → ℝ) (dx dy ex ey : ℝ) (xv yv c : Fin mas × Fin mas → ℝ),
      chi2nMap cfg im1 im2 err zm false false ah = .ok (.only chi2) ∧
      (∀ re rc, chi2Shift cfg st im1 im2 err .auto zm nf false re rc mas mns ah
        = .ok (Spec.layout re rc dx dy ex ey (.arrays mas mas xv yv c))) ∧
      ((∃ q, ∀ q', q' ≠ q → chi2 q < chi2 q') → Spec.regionStays chi2 (Spec.autoThreshold st mns nf) (-ddy) (-ddx) →
        ∃ k l : ℤ, ∀ re rc,
          chi2Shift cfg st (Spec.roll2 ddy ddx im1) im2 err .auto zm nf false re rc mas mns ah
          = .ok (Spec.layout re rc (dx - ddx - k * nx) (dy - ddy - l * ny) ex ey
              (.arrays mas mas (fun i => xv i + ddx + k * nx) (fun i => yv i + ddy + l * ny) c))) := by
  obtain ⟨chi2, dx, dy, ex, ey, s1, s2, xv, yv, c, h1, h2, h3⟩ :=
    chi2Shift_roll_map cfg st hst im1 im2 (Spec.roll2 ddy ddx im1) im2 err err .auto zm nf mas mns ah hf hmas (-ddy) (-ddx)
    (fun cm cm' h h' => chi2Map_roll_first cfg im1 im2 err he zm ah cm cm' (-ddy) (-ddx) h (by rwa [neg_neg, neg_neg]) hf)
  obtain ⟨rfl, rfl⟩ := auto_layout_size cfg st hst im1 im2 err zm nf mas hmas mns ah hf dx dy ex ey xv yv c (h2 false true)
  refine ⟨chi2, dx, dy, ex, ey, xv, yv, c, h1, h2, fun hq hs => ?_⟩
  simpa only [Int.cast_neg, ← sub_eq_add_neg, sub_neg_eq_add] using h3 hq fun _ => by
    rw [autoThreshold_eq]
    exact regionSize_roll chi2 _ _ _ hs

/-- C136: but where the images lie matters for the resolution. If the region below the threshold has pixels in two neighbouring columns, then some roll of the second
image makes `chi2_shift` choose a grid whose points are at least `min(1, 2(nx-1)/max_auto_size)` apart, however small the region: the roll
that takes the two columns to the two ends of the map. -/
theorem C136_resolution_depends_on_position (cfg : FFTConfig) (st : Stats) (hst : Spec.validStats st)
    (im1 im2 : Fin ny × Fin nx → Pix) (hnx : 2 ≤ nx) (err : ErrArg ny nx) (he : Spec.errAllCount err) (zm : Bool)
    (nf : ℝ) (mas : ℕ) (hmas : 0 < mas) (mns : ℝ) (ah : Bool) (hf : Spec.fits ah ny nx)
    (chi2 : Fin ny × Fin nx → ℝ) (hmap : chi2nMap cfg im1 im2 err zm false false ah = .ok (.only chi2))
    (p p' : Fin ny × Fin nx) (hp : ∀ q, chi2 p - chi2 q < Spec.autoThreshold st mns nf)
    (hp' : ∀ q, chi2 p' - chi2 q < Spec.autoThreshold st mns nf) (hadj : (p'.2 : ℕ) = (p.2 : ℕ) + 1) :
    ∃ (ddx : ℤ) (dx dy spacing : ℝ) (xv yv c : Fin mas × Fin mas → ℝ),
      chi2Shift cfg st im1 (Spec.roll2 0 ddx im2) (Spec.rollErr 0 ddx err) .auto zm nf false false true mas mns ah
        = .ok [.num dx, .num dy, .arrays mas mas xv yv c] ∧
      (∀ i j : Fin mas × Fin mas, xv i - xv j = (((i.2 : ℕ) : ℝ) - ((j.2 : ℕ) : ℝ)) * spacing ∧
        yv i - yv j = (((i.1 : ℕ) : ℝ) - ((j.1 : ℕ) : ℝ)) * spacing) ∧
      min 1 (2 * ((nx : ℝ) - 1) / mas) ≤ spacing := by
  obtain ⟨cm, hcm, -⟩ := chi2nMapBody_chi2 cfg im1 im2 err zm ah hf
  rw [chi2nMap_same, hcm] at hmap
  obtain rfl : cm.chi2 = chi2 := Chi2Ret.only.inj (Except.ok.inj hmap)
  set ddx : ℤ := ((p'.2 : ℕ) : ℤ) with hddx
  obtain ⟨cm', hcm', -⟩ := chi2nMapBody_chi2 cfg im1 (Spec.roll2 0 ddx im2) (Spec.rollErr 0 ddx err) zm ah hf
  have hm := chi2Map_roll_second cfg im1 im2 err he zm ah cm cm' 0 ddx hcm hcm' hf
  obtain ⟨chi2', q, size, us, h1, hq, hs1, hu1, hu, hbd, -, -, dx, dy, xv, yv, c, hres, hsp⟩ :=
    C35_auto cfg st hst im1 (Spec.roll2 0 ddx im2) (Spec.rollErr 0 ddx err) zm nf mas hmas mns ah hf
  rw [chi2nMap_same, hcm'] at h1
  obtain rfl : cm'.chi2 = chi2' := Chi2Ret.only.inj (Except.ok.inj h1)
  have hin : ∀ r : Fin ny × Fin nx, (∀ q, cm.chi2 r - cm.chi2 q < Spec.autoThreshold st mns nf) →
      cm'.chi2 (Spec.move (-0) (-ddx) r) - cm'.chi2 q < Spec.autoThreshold st mns nf := by
    intro r hr
    obtain ⟨q0, rfl⟩ := (Spec.move_bijective (-0 : ℤ) (-ddx)).2 q
    rw [hm, Spec.roll2_move, Spec.roll2_move]
    exact hr q0
  have hb := (hbd _ _ (hin p hp) (hin p' hp')).2
  have c1 : (((Spec.move (-0) (-ddx) p).2 : ℕ) : ℤ) = nx - 1 := by
    have := p.2.isLt
    have := wrap_inside p.2 ddx 1 (by omega) (by omega)
    refine this.trans ?_
    omega
  have c2 : (((Spec.move (-0) (-ddx) p').2 : ℕ) : ℤ) = 0 := by
    have := wrap_inside p'.2 ddx 0 (by omega) (by omega)
    refine this.trans ?_
    omega
  have c1' : (((Spec.move (-0) (-ddx) p).2 : ℕ) : ℝ) = (nx : ℝ) - 1 := by
    have : ((((Spec.move (-0) (-ddx) p).2 : ℕ) : ℤ) : ℝ) = ((nx - 1 : ℤ) : ℝ) := by rw [c1]
    push_cast at this
    exact this
  have c2' : (((Spec.move (-0) (-ddx) p').2 : ℕ) : ℝ) = 0 := by
    have : ((((Spec.move (-0) (-ddx) p').2 : ℕ) : ℤ) : ℝ) = ((0 : ℤ) : ℝ) := by rw [c2]
    push_cast at this
    exact this
  rw [c1', c2', sub_zero] at hb
  have hn : (1 : ℝ) ≤ (nx : ℝ) - 1 := by
    have : (2 : ℝ) ≤ nx := by exact_mod_cast hnx
    linarith
  rw [abs_of_nonneg (by linarith)] at hb
  have hM : (0 : ℝ) < mas := by exact_mod_cast hmas
  refine ⟨ddx, dx, dy, 1 / us, xv, yv, c, hres, fun i j => ?_, ?_⟩
  · rw [mul_one_div, mul_one_div]
    exact hsp i j
  · rw [hu, min_le_iff]
    rcases le_total ((mas : ℝ) / 2 / size) 1 with h | h
    · left; rw [max_eq_left h]; norm_num
    · right
      rw [max_eq_right h, div_le_div_iff₀ hM (by positivity)]
      have : (mas : ℝ) / 2 / size * size = mas / 2 := by field_simp
      have h5 : (mas : ℝ) / 2 / size * ((nx : ℝ) - 1) ≤ mas / 2 := by
        calc (mas : ℝ) / 2 / size * ((nx : ℝ) - 1) ≤ mas / 2 / size * size := mul_le_mul_of_nonneg_left hb (by positivity)
          _ = mas / 2 := this
      nlinarith

end

/-! ### Cases -/

/-- a row of nine pixels, two of them bright -/
def autoCase (p : Fin 1 × Fin 9) : ℤ := if (p.2 : ℕ) < 2 then 1 else 0

theorem auto_case (cfg : FFTConfig) : ∃ chi2 : Fin 1 × Fin 9 → ℝ,
    chi2nMap cfg (realArr fun p => (autoCase p : ℝ)) (realArr fun p => (autoCase p : ℝ)) (.scalar 1) false false false true
      = .ok (.only chi2) ∧ ∀ i, chi2 i = if i = (0, 4) then 0 else if i = (0, 3) ∨ i = (0, 5) then 2 else 4 := by
  obtain ⟨cm, hcm, hchi⟩ := chi2nMapBody_chi2 cfg (realArr fun p => (autoCase p : ℝ)) (realArr fun p => (autoCase p : ℝ)) (.scalar 1) false
    true (.inl rfl)
  refine ⟨cm.chi2, by rw [chi2nMap_same, hcm]; rfl, fun i => ?_⟩
  have pr : ∀ a : Fin 1 × Fin 9 → ℝ, prep false (realArr a) = a := by
    intro a; rw [prep_real]; funext p; simp
  have hd : ∀ i : Fin 1 × Fin 9, ∑ p, (Spec.roll2 (Spec.lag 1 i.1) (Spec.lag 9 i.2) autoCase p - autoCase p) ^ 2
      = if i = (0, 4) then 0 else if i = (0, 3) ∨ i = (0, 5) then 2 else 4 := by decide
  rw [hchi, chi2_eq_roll, pr]
  have h := congrArg (Int.cast : ℤ → ℝ) (hd i)
  push_cast at h
  rw [← h]
  refine Finset.sum_congr rfl fun p _ => ?_
  simp [Spec.maskOf, Spec.errOf, Spec.roll2]

/-- the hypotheses of `C136_roll_second` are met by these images moved by two pixels: the region below the threshold is three pixels wide, and
stays inside the map -/
example (cfg : FFTConfig) : ∃ (dx dy ex ey : ℝ) (k l : ℤ),
    chi2Shift cfg none (realArr fun p => (autoCase p : ℝ)) (realArr fun p => (autoCase p : ℝ)) (.scalar 1) .auto false 2 false true false 10 1.1 true
      = .ok [.num dx, .num dy, .num ex, .num ey] ∧
    chi2Shift cfg none (realArr fun p => (autoCase p : ℝ)) (Spec.roll2 0 2 (realArr fun p => (autoCase p : ℝ))) (.scalar 1) .auto false 2 false
      true false 10 1.1 true = .ok [.num (dx + 2 - k * 9), .num (dy - l), .num ex, .num ey] := by
  obtain ⟨chi2, hc, hv⟩ := auto_case cfg
  obtain ⟨chi2', dx, dy, ex, ey, xv, yv, c, h1, h2, h3⟩ := C136_roll_second cfg none trivial (realArr fun p => (autoCase p : ℝ))
    (realArr fun p => (autoCase p : ℝ)) (.scalar 1) trivial false 2 10 (by norm_num) 1.1 true (.inl rfl) 0 2
  rw [hc] at h1
  obtain rfl : chi2 = chi2' := Chi2Ret.only.inj (Except.ok.inj h1)
  obtain ⟨k, l, h⟩ := h3 ⟨(0, 4), fun q' hq' => by
    rw [hv, hv, if_pos rfl, if_neg hq']
    split_ifs <;> norm_num⟩ ⟨0, 0, fun p hp => by
      have hp0 := hp (0, 4)
      rw [hv p, hv (0, 4), if_pos rfl] at hp0
      have hin : p = (0, 4) ∨ p = (0, 3) ∨ p = (0, 5) := by
        by_contra hne
        push Not at hne
        rw [if_neg hne.1, if_neg (by tauto)] at hp0
        norm_num [Spec.autoThreshold] at hp0
      rcases hin with rfl | rfl | rfl <;> decide⟩
  refine ⟨dx, dy, ex, ey, k, l, (h2 true false).trans rfl, (h true false).trans ?_⟩
  simp [Spec.layout]

/-- the hypotheses of `C136_resolution_depends_on_position` are met by the same images: at some position the grid points are a whole pixel
apart (`16/10` capped at 1), although the region is three pixels wide (so that elsewhere they are 0.4 pixels apart) -/
example (cfg : FFTConfig) : ∃ (ddx : ℤ) (dx dy spacing : ℝ) (xv yv c : Fin 10 × Fin 10 → ℝ),
    chi2Shift cfg none (realArr fun p => (autoCase p : ℝ)) (Spec.roll2 0 ddx (realArr fun p => (autoCase p : ℝ))) (.scalar 1) .auto false 2 false
      false true 10 1.1 true = .ok [.num dx, .num dy, .arrays 10 10 xv yv c] ∧
    xv (0, 1) - xv (0, 0) = spacing ∧ 1 ≤ spacing := by
  obtain ⟨chi2, hc, hv⟩ := auto_case cfg
  obtain ⟨ddx, dx, dy, s, xv, yv, c, h1, h2, h3⟩ := C136_resolution_depends_on_position cfg none trivial (realArr fun p => (autoCase p : ℝ))
    (realArr fun p => (autoCase p : ℝ)) (by norm_num) (.scalar 1) trivial false 2 10 (by norm_num) 1.1 true (.inl rfl) chi2 hc (0, 4) (0, 5)
    (fun q => by
      rw [hv, hv, if_pos rfl]
      simp only [Spec.autoThreshold]
      split_ifs <;> norm_num)
    (fun q => by
      rw [hv, hv, if_neg (by decide), if_pos (by decide)]
      simp only [Spec.autoThreshold]
      split_ifs <;> norm_num) rfl
  refine ⟨ddx, dx, dy, s, xv, yv, c, h1, ?_, ?_⟩
  · have := (h2 (0, 1) (0, 0)).1
    simpa using this
  · norm_num at h3
    exact h3

end ImgReg
