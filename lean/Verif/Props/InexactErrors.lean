import Verif.Props.InexactZoomCases
import Verif.Props.Chi2More

/-!
# The error bars of `chi2map_to_errors` and `chi2_shift` in floating point (C115)
-/

open Complex Finset

namespace ImgReg

section map
variable {m n : ℕ} [NeZero m] [NeZero n]

/-- C115: `chi2map_to_errors` in floating point, on a map `c'` that is itself off by at most `E` from the exact map `c`. It never raises, the four numbers are
never negative, and they are, up to rounding, the distances from a pixel `p` (whose exact chi-squared is within `2E` of the smallest) to the
four sides of a box around a region that contains every pixel safely below the threshold and no pixel safely above it. -/
theorem C115_map_errors (A : Chi2Arith) (Z : ZoomArith) (δ : ℝ) (hA : Spec.Chi2Accurate A δ) (hZ : Spec.ZoomAccurate Z δ)
    (c' c : Fin m × Fin n → ℝ) (E : ℝ) (hE : ∀ i, |c' i - c i| ≤ E) (thr : ℝ) (hthr : 0 < thr) (zf : ℝ) (hzf : 0 < zf) :
    ∃ (er : Errors) (p a b a' b' : Fin m × Fin n), chi2mapToErrorsA A Z thr c' zf = .ok er ∧
      0 ≤ er.xLow ∧ 0 ≤ er.xHigh ∧ 0 ≤ er.yLow ∧ 0 ≤ er.yHigh ∧ (∀ j, c p ≤ c j + 2 * E) ∧
      (∀ i ∈ [a, b, a', b'], ∀ j, c i < c j + thr / (1 - δ) + 2 * E) ∧
      (∀ i, (∀ j, c i + 2 * E < c j + thr / (1 + δ)) → a.2 ≤ i.2 ∧ i.2 ≤ b.2 ∧ a'.1 ≤ i.1 ∧ i.1 ≤ b'.1) ∧
      |er.xLow - (((p.2 : ℕ) : ℝ) - ((a.2 : ℕ) : ℝ)) / zf| ≤ ((1 + δ) ^ 2 - 1) * (n / zf) ∧
      |er.xHigh - (((b.2 : ℕ) : ℝ) - ((p.2 : ℕ) : ℝ)) / zf| ≤ ((1 + δ) ^ 2 - 1) * (n / zf) ∧
      |er.yLow - (((p.1 : ℕ) : ℝ) - ((a'.1 : ℕ) : ℝ)) / zf| ≤ ((1 + δ) ^ 2 - 1) * (m / zf) ∧
      |er.yHigh - (((b'.1 : ℕ) : ℝ) - ((p.1 : ℕ) : ℝ)) / zf| ≤ ((1 + δ) ^ 2 - 1) * (m / zf) := by
  obtain ⟨er, S, a, b, a', b', h1, h2, h3, ha, hb, ha', hb', h4, p1, p2, p3, p4, n1, n2, n3, n4⟩ :=
    chi2mapToErrorsA_near hA hZ hE thr hthr zf hzf
  refine ⟨er, Np.argmin c', a, b, a', b', h1, p1, p2, p3, p4, argmin_near hE, ?_, fun i hi => h4 i (h2 i hi), ?_, ?_, ?_, ?_⟩
  · intro i hi
    simp only [List.mem_cons, List.not_mem_nil, or_false] at hi
    rcases hi with rfl | rfl | rfl | rfl <;> exact h3 _ ‹_›
  · rw [sub_div, sub_mul, one_mul]; exact n1.dist
  · rw [sub_div, sub_mul, one_mul]; exact n2.dist
  · rw [sub_div, sub_mul, one_mul]; exact n3.dist
  · rw [sub_div, sub_mul, one_mul]; exact n4.dist

/-- C115: with error-free operations `chi2map_to_errors` is the exact one. -/
theorem C115_exact_arithmetic (A : Chi2Arith) (Z : ZoomArith) (hA : Spec.Chi2Accurate A 0) (hZ : Spec.ZoomAccurate Z 0) (st : Stats)
    (c : Fin m × Fin n → ℝ) (zf nsig nf : ℝ) (hzf : zf ≠ 0) :
    chi2mapToErrorsA A Z (sigmaToChi2 st nf nsig) c zf = chi2mapToErrors st c zf nsig nf :=
  chi2mapToErrorsA_exact hA hZ st c zf nsig nf hzf

/-- half of the sum of the two computed error bars along an axis -/
theorem half_sum {Z : ZoomArith} {δ : ℝ} (hZ : Spec.ZoomAccurate Z δ) {l h x y w W : ℝ} (hl : Near l (y - x) ((1 + δ) ^ 2 * W) W)
    (hh : Near h (w - y) ((1 + δ) ^ 2 * W) W) (hd : δ ≤ 1) (l0 : 0 ≤ l) (h0 : 0 ≤ h) :
    0 ≤ Z.addR l h / 2 ∧ |Z.addR l h / 2 - (w - x) / 2| ≤ ((1 + δ) ^ 3 - 1) * W := by
  have d0 := hZ.nonneg
  have n := (hl.add hh).step d0 (hZ.base.addR _ _)
  have e : y - x + (w - y) = w - x := by ring
  rw [e] at n
  constructor
  · have a := hZ.base.addR l h
    rw [abs_of_nonneg (add_nonneg l0 h0)] at a
    have := (abs_le.1 a).1
    nlinarith
  · have e2 : Z.addR l h / 2 - (w - x) / 2 = (Z.addR l h - (w - x)) / 2 := by ring
    rw [e2, abs_div, abs_two]
    have := n.dist
    have e3 : (1 + δ) * ((1 + δ) ^ 2 * W + (1 + δ) ^ 2 * W) - (W + W) = 2 * (((1 + δ) ^ 3 - 1) * W) := by ring
    rw [e3] at this
    linarith

end map

section two
variable {ny nx : ℕ} [NeZero ny] [NeZero nx]

/-- C115: the error bars `chi2_shift` reports in floating point are never negative, and are, up to rounding, half the extent along x and y of a
region of the exact zoomed map that contains every grid point safely below the 1-sigma threshold and no grid point safely above it. This holds for
all images (NaNs included), all errors, `'auto'` and every given factor. -/
theorem C115_error_bars (A : Chi2Arith) (Z : ZoomArith) (δ : ℝ) (hA : Spec.Chi2Accurate A δ) (hZ : Spec.ZoomAccurate Z δ) (cfg : FFTConfig)
    (st : Stats) (hst : Spec.validStats st) (im1 im2 : Fin ny × Fin nx → Pix) (err : ErrArg ny nx) (hs : ∀ s, err = .scalar s → s ≠ 0)
    (us : UsFactor) (zm : Bool) (nf : ℝ) (mas : ℕ) (mns : ℝ) (hus : Spec.validUs ny mas us) :
    ∃ c : Fin ny × Fin nx → ℝ, chi2nMap cfg im1 im2 err zm false false true = .ok (.only c) ∧
    ∃ (q : Fin ny × Fin nx) (u dx dy ex ey : ℝ) (s1 s2 : ℕ) (a b a' b' : Fin s1 × Fin s2) (cube : Arr) (z : Fin s1 × Fin s2 → ℝ),
      (∀ i, c q ≤ c i + 2 * Spec.chi2Err δ zm im1 im2 err) ∧
      Spec.nearFactor δ (Spec.chi2Err δ zm im1 im2 err) c (mAuto st mns nf) mas us u ∧ (s1, s2) = Spec.gridSize ny nx mas us ∧
      zoomnd2 cfg (rArr c) [((q.1 : ℕ) : ℝ) - ((ny - 1) / 2 : ℕ), ((q.2 : ℕ) : ℝ) - ((nx - 1) / 2 : ℕ)] id u (some (s1, s2)) true true
        = .ok (.withX cube ⟨s1, s2, .real (realArr z)⟩) ∧
      chi2ShiftA A Z st im1 im2 err us zm nf true false mas mns = .ok [.num dx, .num dy, .num ex, .num ey] ∧
      0 ≤ ex ∧ 0 ≤ ey ∧
      (∀ i ∈ [a, b, a', b'], ∀ j, z i < z j + Spec.oneSigma st / (1 - δ) + 2 * Spec.zoomErr δ (Spec.chi2Err δ zm im1 im2 err) c q u s1 s2) ∧
      (∀ i, (∀ j, z i + 2 * Spec.zoomErr δ (Spec.chi2Err δ zm im1 im2 err) c q u s1 s2 < z j + Spec.oneSigma st / (1 + δ)) →
        a.2 ≤ i.2 ∧ i.2 ≤ b.2 ∧ a'.1 ≤ i.1 ∧ i.1 ≤ b'.1) ∧
      |ex - (cube.val [1, b.1, b.2] - cube.val [1, a.1, a.2]) / 2| ≤ ((1 + δ) ^ 3 - 1) * (s2 / u) ∧
      |ey - (cube.val [0, b'.1, b'.2] - cube.val [0, a'.1, a'.2]) / 2| ≤ ((1 + δ) ^ 3 - 1) * (s1 / u) := by
  obtain ⟨c, h1, h2⟩ := C113_map_error A δ hA cfg im1 im2 err hs zm
  obtain ⟨q, s1, s2, i1, i2, hq, hg, u, xv, yv, ups, hu, hnf, -, hy, hx, hz, er, her, hres⟩ :=
    chi2ShiftA_core hA hZ st hst im1 im2 err us zm nf mas mns hus c _ h2
  obtain ⟨cube, hv, hzm⟩ := zoomnd2_chi2 cfg c (((q.1 : ℕ) : ℝ) - ((ny - 1) / 2 : ℕ)) (((q.2 : ℕ) : ℝ) - ((nx - 1) / 2 : ℕ)) u hu.ne' s1 s2
    (Nat.pos_of_ne_zero (NeZero.ne s1)) (Nat.pos_of_ne_zero (NeZero.ne s2))
  have gy : ∀ i, Spec.zoomGrid (((ny : ℝ) - 1) / 2 + (((q.1 : ℕ) : ℝ) - ((ny - 1) / 2 : ℕ))) u s1 i
      = Spec.gridShift ny q.1 u s1 i + (Spec.zeroLag ny : ℕ) := fun i => zoomCentre_grid ny q.1 u s1 i
  have gx : ∀ i, Spec.zoomGrid (((nx : ℝ) - 1) / 2 + (((q.2 : ℕ) : ℝ) - ((nx - 1) / 2 : ℕ))) u s2 i
      = Spec.gridShift nx q.2 u s2 i + (Spec.zeroLag nx : ℕ) := fun i => zoomCentre_grid nx q.2 u s2 i
  simp only [gy, gx] at hv hzm
  obtain ⟨er', S, a, b, a', b', k1, k2, k3, ha, hb, ha', hb', k4, p1, p2, p3, p4, n1, n2, n3, n4⟩ :=
    chi2mapToErrorsA_near hA hZ hz (sigmaToChi2 st 2 1) (sigma_pos st hst) u hu
  rw [her] at k1
  obtain rfl : er = er' := Except.ok.inj k1
  rw [sigma_one] at k2 k3
  obtain ⟨x0, xd⟩ := half_sum hZ n1 n2 hA.lt_one.le p1 p2
  obtain ⟨y0, yd⟩ := half_sum hZ n3 n4 hA.lt_one.le p3 p4
  refine ⟨c, h1, q, u, _, _, Z.addR er.xLow er.xHigh / 2, Z.addR er.yLow er.yHigh / 2, s1, s2, a, b, a', b', cube, _, ?_, hnf, hg, hzm,
    (hres true false).trans rfl, x0, y0, ?_, fun i hi => k4 i (k2 i hi), ?_, ?_⟩
  · rw [hq]; exact argmin_near h2
  · intro i hi
    simp only [List.mem_cons, List.not_mem_nil, or_false] at hi
    rcases hi with rfl | rfl | rfl | rfl <;> exact k3 _ ‹_›
  · rw [(hv _ _).2, (hv _ _).2]
    have e : Spec.gridShift nx q.2 u s2 b.2 + ((Spec.zeroLag nx : ℕ) : ℝ) - (Spec.gridShift nx q.2 u s2 a.2 + ((Spec.zeroLag nx : ℕ) : ℝ))
        = ((b.2 : ℕ) : ℝ) / u - ((a.2 : ℕ) : ℝ) / u := by
      unfold Spec.gridShift; ring
    rw [e]; exact xd
  · rw [(hv _ _).1, (hv _ _).1]
    have e : Spec.gridShift ny q.1 u s1 b'.1 + ((Spec.zeroLag ny : ℕ) : ℝ) - (Spec.gridShift ny q.1 u s1 a'.1 + ((Spec.zeroLag ny : ℕ) : ℝ))
        = ((b'.1 : ℕ) : ℝ) / u - ((a'.1 : ℕ) : ℝ) / u := by
      unfold Spec.gridShift; ring
    rw [e]; exact yd

/-- C115: rounding changes the error bars only by the rounding of the reported numbers when no grid point is close to the threshold: for a given
factor, if the exact map `c` has a pixel `q` below all others by more than twice its error bound, and the exact upsampled map `z` (as returned by
`return_chi2array`) exceeds its minimum at every grid point either by safely less or by safely more than the 1-sigma threshold, then the reported
error bars are those of exact arithmetic up to rounding. -/
theorem C115_same_errors (A : Chi2Arith) (Z : ZoomArith) (δ : ℝ) (hA : Spec.Chi2Accurate A δ) (hZ : Spec.ZoomAccurate Z δ) (cfg : FFTConfig)
    (st : Stats) (hst : Spec.validStats st) (im1 im2 : Fin ny × Fin nx → Pix) (err : ErrArg ny nx) (hs : ∀ s, err = .scalar s → s ≠ 0)
    (us : UsFactor) (u : ℝ) (hu : (∃ k : ℕ, us = .int k ∧ u = k) ∨ us = .float u) (zm : Bool) (nf : ℝ) (mas : ℕ) (mns : ℝ)
    (hus : Spec.validUs ny mas us) (c : Fin ny × Fin nx → ℝ) (hc : chi2nMap cfg im1 im2 err zm false false true = .ok (.only c))
    (q : Fin ny × Fin nx) (hq : ∀ i, i ≠ q → c q + 2 * Spec.chi2Err δ zm im1 im2 err < c i) (dx dy ex ey : ℝ) (s1 s2 : ℕ)
    (xv yv z : Fin s1 × Fin s2 → ℝ)
    (hz : chi2Shift cfg st im1 im2 err us zm nf false true true mas mns true
      = .ok [.num dx, .num dy, .num ex, .num ey, .arrays s1 s2 xv yv z])
    (best : Fin s1 × Fin s2) (hbest : ∀ i, z best ≤ z i)
    (hb : ∀ i, z i + 2 * Spec.zoomErr δ (Spec.chi2Err δ zm im1 im2 err) c q u s1 s2 < z best + Spec.oneSigma st / (1 + δ) ∨
      z best + Spec.oneSigma st / (1 - δ) + 2 * Spec.zoomErr δ (Spec.chi2Err δ zm im1 im2 err) c q u s1 s2 ≤ z i) :
    ∃ dx' dy' ex' ey', chi2ShiftA A Z st im1 im2 err us zm nf true false mas mns = .ok [.num dx', .num dy', .num ex', .num ey'] ∧
      |ex' - ex| ≤ ((1 + δ) ^ 3 - 1) * (s2 / u) ∧ |ey' - ey| ≤ ((1 + δ) ^ 3 - 1) * (s1 / u) := by
  obtain ⟨a1, a2⟩ := C113_same_pixel A δ hA cfg im1 im2 err hs zm c hc q hq
  have h2 : ∀ i, |chi2MapA A im1 im2 err zm i - c i| ≤ Spec.chi2Err δ zm im1 im2 err := by
    obtain ⟨c', e1, e2⟩ := C113_map_error A δ hA cfg im1 im2 err hs zm
    have e : c = c' := by
      have := hc.symm.trans e1
      simpa using this
    rw [e]; exact e2
  obtain ⟨q', t1, t2, i1, i2, hq', hg, u', xw, yw, ups, hu', hnf, -, hy, hx, hzz, er1, her1, hres⟩ :=
    chi2ShiftA_core hA hZ st hst im1 im2 err us zm nf mas mns hus c _ h2
  rw [a1] at hq'
  subst hq'
  have hu2 : u' = u := by
    rcases hu with ⟨k, rfl, rfl⟩ | rfl
    · exact hnf
    · exact hnf
  subst hu2
  obtain ⟨cm, hcm, r1, r2, j1, j2, hg', u2, hu2, -, yv', xv', hyv, hxv, z', hz', er, her, hres'⟩ :=
    chi2Shift_ok cfg st hst im1 im2 err us zm nf mas mns true (.inl rfl) hus
  have ec : cm.chi2 = c := by
    have e3 : chi2nMap cfg im1 im2 err zm false false true = .ok (.only cm.chi2) := by rw [chi2nMap_same, hcm]; rfl
    have := e3.symm.trans hc
    simpa using this
  have eu : u2 = u' := by
    rcases hu with ⟨k, rfl, rfl⟩ | rfl
    · exact hu2
    · exact hu2
  subst eu
  have es := hg.trans hg'.symm
  obtain ⟨rfl, rfl⟩ := Prod.mk.inj es
  have hl := (hres' true true).symm.trans hz
  simp only [Spec.layout, if_true, List.cons_append, List.nil_append, Except.ok.injEq,
    List.cons.injEq, RetVal.num.injEq, and_true] at hl
  obtain ⟨l1, l2, l3, l4, l5⟩ := hl
  injection l5 with k1 k2 k3 k4 k5
  subst k1 k2
  have k5 := eq_of_heq k5
  subst k5
  rw [ec, a2] at hyv hxv
  rw [ec] at hz'
  have hzz' : ∀ i, |ups i - z' i| ≤ Spec.zoomErr δ (Spec.chi2Err δ zm im1 im2 err) c q' u2 t1 t2 := by
    intro i
    rw [hz', hyv, hxv]
    exact hzz i
  obtain ⟨er', S, a, b, a', b', k1, k2, k3, ha, hb1, ha', hb', k4, p1, p2, p3, p4, n1, n2, n3, n4⟩ :=
    chi2mapToErrorsA_near hA hZ hzz' (sigmaToChi2 st 2 1) (sigma_pos st hst) u2 hu'
  rw [her1] at k1
  obtain rfl : er1 = er' := Except.ok.inj k1
  rw [sigma_one] at k2 k3
  have hE : 0 ≤ Spec.zoomErr δ (Spec.chi2Err δ zm im1 im2 err) c q' u2 t1 t2 := (abs_nonneg _).trans (hzz' best)
  have hd0 := hZ.nonneg
  have hT : 0 < Spec.oneSigma st := by rw [← sigma_one]; exact sigma_pos st hst
  -- the computed region is the exact one
  have hS : ∀ i, i ∈ S ↔ z' i - z' (Np.argmin z') < Spec.oneSigma st := by
    have emin : z' (Np.argmin z') = z' best := le_antisymm ((Np.argmin_spec z').1 best) (hbest _)
    intro i
    rw [emin]
    constructor
    · intro hi
      rcases hb i with h | h
      · have : Spec.oneSigma st / (1 + δ) ≤ Spec.oneSigma st := div_le_self hT.le (by linarith)
        linarith
      · have := k3 i hi best
        linarith
    · intro hi
      rcases hb i with h | h
      · exact k2 i fun j => by have := hbest j; linarith
      · have : Spec.oneSigma st ≤ Spec.oneSigma st / (1 - δ) := by
          rw [le_div_iff₀ (by have := hA.lt_one; linarith)]; nlinarith
        linarith
  obtain ⟨er2, p, hp0, hp, -, -, -, -, hall, ⟨b1, hb11, hb12⟩, ⟨b2, hb21, hb22⟩, ⟨b3, hb31, hb32⟩, ⟨b4, hb41, hb42⟩⟩ :=
    C37_bounding_box st z' u2 1 2 hu' (sigma_pos st hst)
  rw [her] at hp0
  obtain rfl : er = er2 := Except.ok.inj hp0
  have hpm : z' p = z' (Np.argmin z') := le_antisymm (hp.1 _) ((Np.argmin_spec z').1 _)
  simp only [sigma_one, hpm] at hall hb11 hb21 hb31 hb41
  have hle : ∀ x y w : ℝ, (w - x) / u2 ≤ (w - y) / u2 → y ≤ x := by
    intro x y w h
    rw [div_le_div_iff_of_pos_right hu'] at h
    linarith
  have hge : ∀ x y w : ℝ, (x - w) / u2 ≤ (y - w) / u2 → x ≤ y := by
    intro x y w h
    rw [div_le_div_iff_of_pos_right hu'] at h
    linarith
  have cst : ∀ {k : ℕ} (i j : Fin k), i ≤ j → ((i : ℕ) : ℝ) ≤ ((j : ℕ) : ℝ) := fun i j h => Nat.cast_le.2 h
  have ex1 : ((a.2 : ℕ) : ℝ) = ((b1.2 : ℕ) : ℝ) := by
    apply le_antisymm (cst _ _ (k4 b1 ((hS b1).2 hb11)).1)
    have := (hall a ((hS a).1 ha)).1
    rw [hb12] at this
    exact hle _ _ _ this
  have ex2 : ((b.2 : ℕ) : ℝ) = ((b2.2 : ℕ) : ℝ) := by
    apply le_antisymm _ (cst _ _ (k4 b2 ((hS b2).2 hb21)).2.1)
    have := (hall b ((hS b).1 hb1)).2.1
    rw [hb22] at this
    exact hge _ _ _ this
  have ex3 : ((a'.1 : ℕ) : ℝ) = ((b3.1 : ℕ) : ℝ) := by
    apply le_antisymm (cst _ _ (k4 b3 ((hS b3).2 hb31)).2.2.1)
    have := (hall a' ((hS a').1 ha')).2.2.1
    rw [hb32] at this
    exact hle _ _ _ this
  have ex4 : ((b'.1 : ℕ) : ℝ) = ((b4.1 : ℕ) : ℝ) := by
    apply le_antisymm _ (cst _ _ (k4 b4 ((hS b4).2 hb41)).2.2.2)
    have := (hall b' ((hS b').1 hb')).2.2.2
    rw [hb42] at this
    exact hge _ _ _ this
  obtain ⟨-, xd⟩ := half_sum hZ n1 n2 hA.lt_one.le p1 p2
  obtain ⟨-, yd⟩ := half_sum hZ n3 n4 hA.lt_one.le p3 p4
  refine ⟨_, _, _, _, (hres true false).trans rfl, ?_, ?_⟩
  · have e : ex = (((b.2 : ℕ) : ℝ) / u2 - ((a.2 : ℕ) : ℝ) / u2) / 2 := by
      rw [← l3, hb12, hb22, ex1, ex2]; ring
    rw [e]; exact xd
  · have e : ey = (((b'.1 : ℕ) : ℝ) / u2 - ((a'.1 : ℕ) : ℝ) / u2) / 2 := by
      rw [← l4, hb32, hb42, ex3, ex4]; ring
    rw [e]; exact yd

end two

/-- The hypotheses of `C115_map_errors` can be met with operations off by one part in a thousand: a 1 × 3 map with minimum in the middle. The
computed error bars are (up to rounding) 0 at a threshold of 1, although the map itself is off by up to a tenth. -/
example : ∃ er, chi2mapToErrorsA (Chi2Arith.biased (1 / 1000)) (ZoomArith.biased (1 / 1000)) 1 (fun i : Fin 1 × Fin 3 => if i.2 = 1 then (0 : ℝ) else 5) 1
      = .ok er ∧ 0 ≤ er.xLow ∧ er.xLow ≤ 1 / 100 := by
  obtain ⟨er, p, a, b, a', b', h1, p1, -, -, -, hp, hout, -, d, -⟩ := C115_map_errors (Chi2Arith.biased (1 / 1000)) (ZoomArith.biased (1 / 1000)) (1 / 1000)
    (Chi2Arith.biased_accurate _ (by norm_num) (by norm_num)) (ZoomArith.biased_accurate _ (by norm_num))
    (fun i : Fin 1 × Fin 3 => if i.2 = 1 then (0 : ℝ) else 5) (fun i => if i.2 = 1 then (0 : ℝ) else 5 + 1 / 10) (1 / 10)
    (fun i => by split_ifs <;> norm_num [abs_le]) 1 one_pos 1 one_pos
  refine ⟨er, h1, p1, ?_⟩
  have e1 : p.2 = 1 := by
    by_contra h
    have := hp (0, 1)
    simp only [h, if_true, if_false] at this
    norm_num at this
  have e2 : a.2 = 1 := by
    by_contra h
    have := hout a (by simp) (0, 1)
    simp only [h, if_true, if_false] at this
    norm_num at this
  rw [e1, e2, sub_self, zero_div, sub_zero] at d
  have := (abs_le.1 d).2
  norm_num at this ⊢
  linarith

/-- The hypotheses of `C115_same_errors` can be met with operations that are all off by one part in a hundred thousand: `caseImage` moved one column
to the right, `upsample_factor=1`, without scipy. -/
example (nf : ℝ) (mas : ℕ) (mns : ℝ) : ∃ ex ey dx' dy' ex' ey',
    (∃ dx dy r, chi2Shift ⟨false, false, 1⟩ none (realArr caseImage) (realArr fun p => Spec.roll2 0 1 caseImage p + 0) .none (.int 1) false nf
      false true true mas mns true = .ok [.num dx, .num dy, .num ex, .num ey, r]) ∧
    chi2ShiftA (Chi2Arith.biased (1 / 10 ^ 5)) (ZoomArith.biased (1 / 10 ^ 5)) none
      (realArr caseImage) (realArr fun p => Spec.roll2 0 1 caseImage p + 0) .none (.int 1) false nf true false mas mns
        = .ok [.num dx', .num dy', .num ex', .num ey'] ∧ |ex' - ex| ≤ 1 / 10 ^ 3 ∧ |ey' - ey| ≤ 1 / 10 ^ 3 := by
  obtain ⟨c, hc, hceq, hT, hz, -, -⟩ := case_facts ⟨false, false, 1⟩
  obtain ⟨cm, hcm, s1, s2, i1, i2, hg, u, hu, -, yv, xv, hyv, hxv, z, hzz, er, her, hres⟩ :=
    chi2Shift_ok ⟨false, false, 1⟩ none trivial (realArr caseImage) (realArr fun p => Spec.roll2 0 1 caseImage p + 0) .none (.int 1) false nf mas mns
      true (.inl rfl) (by exact Nat.one_pos)
  have ec : cm.chi2 = c := by
    have e3 : chi2nMap ⟨false, false, 1⟩ (realArr caseImage) (realArr fun p => Spec.roll2 0 1 caseImage p + 0) .none false false false true
      = .ok (.only cm.chi2) := by rw [chi2nMap_same, hcm]; rfl
    have := e3.symm.trans hc
    simpa using this
  have hg2 : (s1, s2) = (2, 3) := by
    rw [hg]; simp only [Spec.gridSize]; norm_num
  obtain ⟨rfl, rfl⟩ := Prod.mk.inj hg2
  have hu1 : u = 1 := by rw [hu]; simp [Spec.usUsed]
  subst hu1
  have hmin : Np.argmin c = ((0 : Fin 2), (0 : Fin 3)) := by
    apply Np.argmin_eq_of_unique
    intro j hj
    rw [hceq, hceq, if_pos rfl, if_neg hj]; norm_num
  rw [ec, hmin] at hyv hxv
  rw [ec] at hzz
  have hval : ∀ i, ∃ j, z i = c j := by
    intro i
    refine ⟨(Spec.wrap 2 (((i.1 : ℕ) : ℤ)), Spec.wrap 3 ((((i.2 : ℕ) : ℤ)) - 1)), ?_⟩
    have e1 : yv i + ((Spec.zeroLag 2 : ℕ) : ℝ) = (((i.1 : ℕ) : ℤ) : ℝ) := by
      rw [hyv]; simp only [Spec.gridShift, halfPix_eq]; norm_num [Spec.zeroLag]
    have e2 : xv i + ((Spec.zeroLag 3 : ℕ) : ℝ) = ((((i.2 : ℕ) : ℤ) - 1 : ℤ) : ℝ) := by
      rw [hxv]; simp only [Spec.gridShift, halfPix_eq]; norm_num [Spec.zeroLag]; ring
    rw [hzz]
    simp only []
    rw [e1, e2, interp2C_int, Complex.ofReal_re]
  have hbest : z (0, 1) = 0 := by
    have e1 : yv ((0 : Fin 2), (1 : Fin 3)) + ((Spec.zeroLag 2 : ℕ) : ℝ) = ((0 : ℤ) : ℝ) := by
      rw [hyv]; simp only [Spec.gridShift, halfPix_eq]; norm_num [Spec.zeroLag]
    have e2 : xv ((0 : Fin 2), (1 : Fin 3)) + ((Spec.zeroLag 3 : ℕ) : ℝ) = ((0 : ℤ) : ℝ) := by
      rw [hxv]; simp only [Spec.gridShift, halfPix_eq]; norm_num [Spec.zeroLag]
    rw [hzz]
    simp only []
    rw [e1, e2, interp2C_int, Complex.ofReal_re, hceq, if_pos (by decide)]
  obtain ⟨dx', dy', ex', ey', h1, h2, h3⟩ := C115_same_errors (Chi2Arith.biased (1 / 10 ^ 5)) (ZoomArith.biased (1 / 10 ^ 5)) (1 / 10 ^ 5)
    (Chi2Arith.biased_accurate _ (by norm_num) (by norm_num)) (ZoomArith.biased_accurate _ (by norm_num)) ⟨false, false, 1⟩ none trivial
    (realArr caseImage) (realArr fun p => Spec.roll2 0 1 caseImage p + 0) .none (by simp) (.int 1) 1 (.inl ⟨1, rfl, by simp⟩) false nf mas mns
    (by exact Nat.one_pos) c hc ((0 : Fin 2), (0 : Fin 3)) (fun i hi => by rw [hceq, hceq, if_pos rfl, if_neg hi]; linarith) _ _ _ _ 2 3 xv yv z
    ((hres true true).trans rfl) (0, 1)
    (fun i => by obtain ⟨j, hj⟩ := hval i; rw [hbest, hj, hceq]; split_ifs <;> norm_num)
    (fun i => by
      obtain ⟨j, hj⟩ := hval i
      rw [hbest, hj, hceq]
      simp only [Spec.oneSigma]
      have hz' := hz
      generalize Spec.zoomErr (1 / 10 ^ 5) _ _ _ _ _ _ = e at hz'
      split_ifs
      · left; norm_num at hz' ⊢; linarith
      · right; norm_num at hz' ⊢; linarith)
  refine ⟨_, _, dx', dy', ex', ey', ⟨_, _, _, (hres true true).trans rfl⟩, h1, h2.trans (by norm_num), h3.trans (by norm_num)⟩

end ImgReg
