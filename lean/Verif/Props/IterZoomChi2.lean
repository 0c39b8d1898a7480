import Verif.Props.IterZoomMore
import Verif.Props.Chi2Recover
import Verif.Props.Chi2

/-!
# C91: `chi2_shift_iterzoom` in a program that supplies the missing global `allow_huge`

At this commit every call raises NameError (C43).  A program can set `image_registration.chi2_shifts.allow_huge`; these
theorems say what the function then does.
-/

open Finset

namespace ImgReg

variable {ny nx : ℕ} [NeZero ny] [NeZero nx]

theorem floor_mid (n : ℕ) [NeZero n] : ((⌊((n : ℝ) - 1) / 2⌋ : ℤ) : ℝ) = ((n - 1) / 2 : ℕ) := by
  have hn := Nat.pos_of_neZero n
  have h1 : ((n : ℝ) - 1) = ((n - 1 : ℕ) : ℝ) := by
    rw [Nat.cast_sub (by omega)]; simp
  rw [h1]
  have h2 : ⌊((n - 1 : ℕ) : ℝ) / 2⌋ = (((n - 1) / 2 : ℕ) : ℤ) := by
    rw [Int.floor_eq_iff]
    have hm := Nat.div_add_mod (n - 1) 2
    have hl := Nat.mod_lt (n - 1) (show 0 < 2 by norm_num)
    have hm' : (2 : ℝ) * (((n - 1) / 2 : ℕ) : ℝ) + (((n - 1) % 2 : ℕ) : ℝ) = ((n - 1 : ℕ) : ℝ) := by exact_mod_cast hm
    have hl' : ((((n - 1) % 2 : ℕ)) : ℝ) ≤ 1 := by exact_mod_cast (by omega : (n - 1) % 2 ≤ 1)
    have h0 : (0 : ℝ) ≤ (((n - 1) % 2 : ℕ) : ℝ) := Nat.cast_nonneg _
    constructor
    · rw [Int.cast_natCast]; linarith
    · rw [Int.cast_natCast]; linarith
  rw [h2, Int.cast_natCast]

/-- C91: given a value for `allow_huge`, the offset reported by `chi2_shift_iterzoom` is minus the offset found by
`iterative_zoom` in the chi-squared map, x first.  The `rezoom_shape` map returned with `return_chi2array` is the Fourier
interpolant of the chi-squared map at the returned positions, which are spaced by `1/(zoom factor * rezoom_factor)` about
minus the same offset - about that plus half a pixel along axes of even size; the errors come from that map. -/
theorem C91_structure (ah : Bool) (cfg : FFTConfig) (st : Stats) (hst : Spec.validStats st) (fuel : ℕ)
    (im1 im2 : Fin ny × Fin nx → Pix) (err : ErrArg ny nx) (zm : Bool) (zs : ℕ × ℕ) (s1 s2 : ℕ) [NeZero s1] [NeZero s2]
    (rf : ℝ) (hrf : rf ≠ 0) (mindiff : ℝ) (c : Fin ny × Fin nx → ℝ)
    (hc : chi2nMap cfg im1 im2 err zm false false ah = .ok (.only c)) (v : ZoomView) (zf oy ox : ℝ) (hzf : zf ≠ 0)
    (hz : iterativeZoom cfg.hasFftw fuel (realArr c) mindiff zs 2 .min true false = some (.ok (.zoomed v zf [oy, ox]))) :
    ∃ (us : ℝ) (xv yv r : Fin s1 × Fin s2 → ℝ) (er : Errors),
      ((∃ i, v.data i ≠ 0) → us = zf * rf) ∧ ((∀ i, v.data i = 0) → us = zf) ∧
      (∀ i, xv i = -ox + (if Even nx then 1 / 2 else 0) - (((i.2 : ℕ) : ℝ) - ((s2 : ℝ) - 1) / 2) / us) ∧
      (∀ i, yv i = -oy + (if Even ny then 1 / 2 else 0) - (((i.1 : ℕ) : ℝ) - ((s1 : ℝ) - 1) / 2) / us) ∧
      (∀ i, r i = (interp2C (fun j => (c j : ℂ)) (((ny : ℝ) - 1) / 2 - yv i) (((nx : ℝ) - 1) / 2 - xv i)).re) ∧
      chi2mapToErrors st r (zf * rf) 1 2 = .ok er ∧
      ∀ re rc, chi2ShiftIterzoomBody (some ah) cfg st fuel im1 im2 err zm re rc zs (s1, s2) rf mindiff
        = some (.ok ([.num (-ox), .num (-oy)]
            ++ (if re then [.num ((er.xLow + er.xHigh) / 2), .num ((er.yLow + er.yHigh) / 2)] else [])
            ++ (if rc then [.arrays s1 s2 xv yv r] else []))) := by
  classical
  have hall : ∃ cm : Chi2Map ny nx, chi2nMap cfg im1 im2 err zm true false ah = .ok (.all cm) ∧ cm.chi2 = c := by
    rw [chi2nMap_same] at hc ⊢
    cases hb : chi2nMapBody cfg im1 im2 err zm false ah with
    | error e => rw [hb] at hc; simp [bind, Except.bind] at hc
    | ok m =>
      rw [hb] at hc
      refine ⟨m, by simp [bind, Except.bind, pure, Except.pure], ?_⟩
      simpa [bind, Except.bind, pure, Except.pure] using hc
  obtain ⟨cm, hcm, rfl⟩ := hall
  set us : ℝ := if ∀ i, v.data i = 0 then zf else zf * rf with hus
  have hus0 : us ≠ 0 := by rw [hus]; split_ifs <;> simp [hzf, hrf]
  set cy : ℝ := (⌊((ny : ℝ) - 1) / 2⌋ : ℤ) + oy with hcy
  set cx : ℝ := (⌊((nx : ℝ) - 1) / 2⌋ : ℤ) + ox with hcx
  have hz2 : (zoomnd2 ⟨cfg.hasFftw, false, 1⟩ (rArr cm.chi2) [oy, ox] (fun t => (⌊t⌋ : ℤ)) us (some (s1, s2)) true true
      >>= viewOf2) = .ok (gridView cm.chi2 s1 s2 (cy, cx) us) := by
    rw [(C14_zoomnd_centre _ _ _ _ _ _ _ _ _).1]
    exact zoomOn2_eq _ cm.chi2 s1 s2 (cy, cx) us hus0
  have hev : ∀ n : ℕ, [NeZero n] → ((n : ℝ) - 1) / 2 - (⌊((n : ℝ) - 1) / 2⌋ : ℤ) = if Even n then 1 / 2 else 0 := by
    intro n _
    rw [floor_mid, halfPix_eq]
    unfold Spec.halfPix Spec.zeroLag
    simp only [Nat.even_iff]
    ring
  obtain ⟨er, her⟩ := chi2mapToErrors_ok (m := s1) (n := s2) st (gridView cm.chi2 s1 s2 (cy, cx) us).data (zf * rf) 1 2 (sigma_pos st hst)
  refine ⟨us, fun i => ((nx : ℝ) - 1) / 2 - Spec.zoomGrid cx us s2 i.2, fun i => ((ny : ℝ) - 1) / 2 - Spec.zoomGrid cy us s1 i.1,
    (gridView cm.chi2 s1 s2 (cy, cx) us).data, er, ?_, ?_, ?_, ?_, ?_, her, ?_⟩
  · rintro ⟨i, hi⟩
    rw [hus, if_neg (fun h => hi (h i))]
  · intro h
    rw [hus, if_pos h]
  · intro i
    unfold Spec.zoomGrid
    rw [← hev nx, hcx]; ring
  · intro i
    unfold Spec.zoomGrid
    rw [← hev ny, hcy]; ring
  · intro i
    simp only [sub_sub_cancel]
    rfl
  · intro re rc
    unfold chi2ShiftIterzoomBody
    simp only [hcm, hz, Option.map_some, bind, Except.bind]
    have hz3 := hz2
    simp only [bind, Except.bind] at hz3
    rw [← hus, hz3]
    simp only [iterzoomFinish, List.reverse_cons, List.reverse_nil, List.nil_append, List.singleton_append, List.map_cons,
      List.map_nil]
    have her' := her
    simp only [gridView] at her'
    cases re <;> cases rc <;> simp [her', bind, Except.bind, pure, Except.pure, gridView]

/-- the half pixel by which the answers of `chi2_shift_iterzoom` are displaced along an axis of even size -/
noncomputable def Spec.evenHalf (n : ℕ) : ℝ := if Even n then 1 / 2 else 0

/-- C91: given a value for `allow_huge`: if `im2` is `im1` rolled by `(dy, dx)` (the lowest frequencies of `im1` present),
every nonzero entry of the chi-squared map exceeds `mindiff` and `zoom_shape` has odd sizes, then `chi2_shift_iterzoom`
returns exactly the shift modulo the image size along axes of odd size, and exactly half a pixel more along axes of even
size.  A zoom shape of less than four images wide gives the representative between `-n/2` and `n/2`. -/
theorem C91_recovers_roll (ah : Bool) (cfg : FFTConfig) (st : Stats) (hst : Spec.validStats st)
    (im1 : Fin ny × Fin nx → ℝ) (hy : 2 ≤ ny) (hx : 2 ≤ nx)
    (h10 : dft (fun p => (im1 p : ℂ)) (1, 0) ≠ 0) (h01 : dft (fun p => (im1 p : ℂ)) (0, 1) ≠ 0)
    (dy dx : ℤ) (err : ErrArg ny nx) (s : ℝ) (hs : s ≠ 0) (herr : Spec.isScalarErr err s) (zm : Bool)
    (hf : Spec.fits ah ny nx) (a b s1 s2 : ℕ) [NeZero s1] [NeZero s2] (rf : ℝ) (hrf : rf ≠ 0) (mindiff : ℝ) (hmd : 0 < mindiff)
    (hgap : ∀ c, chi2nMap cfg (realArr im1) (realArr (Spec.roll2 dy dx im1)) err zm false false ah = .ok (.only c) →
      ∀ i, c i ≠ 0 → mindiff < c i) :
    ∃ (fuel : ℕ) (dx' dy' : ℤ),
      chi2ShiftIterzoomBody (some ah) cfg st fuel (realArr im1) (realArr (Spec.roll2 dy dx im1)) err zm false false
        (2 * a + 1, 2 * b + 1) (s1, s2) rf mindiff
        = some (.ok [.num (dx' + Spec.evenHalf nx), .num (dy' + Spec.evenHalf ny)]) ∧
      dx' ≡ dx [ZMOD nx] ∧ dy' ≡ dy [ZMOD ny] ∧
      (b < 2 * nx → |2 * dx'| ≤ nx) ∧ (a < 2 * ny → |2 * dy'| ≤ ny) := by
  obtain ⟨cm, hcm, hchi0⟩ := chi2nMapBody_chi2 cfg (realArr im1) (realArr (Spec.roll2 dy dx im1)) err zm ah hf
  set c := cm.chi2 with hcdef
  have hc : chi2nMap cfg (realArr im1) (realArr (Spec.roll2 dy dx im1)) err zm false false ah = .ok (.only c) := by
    rw [chi2nMap_same, hcm]
    rfl
  set A := prep zm (realArr im1) with hA
  set B := prep zm (realArr (Spec.roll2 dy dx im1)) with hB
  have hb := prep_cshift zm im1 (Spec.roll2 dy dx im1) dy dx (Spec.roll2_eq_cshift im1 dy dx)
  have h10' : dft (fun p => (A p : ℂ)) (1, 0) ≠ 0 := by
    rw [hA, prep_real, dft_sub_const _ _ _ ?_]
    · exact h10
    · intro h
      have := congrArg (fun k => ((k.1 : Fin ny) : ℕ)) h
      simp [Nat.mod_eq_of_lt (show 1 < ny by omega)] at this
  have h01' : dft (fun p => (A p : ℂ)) (0, 1) ≠ 0 := by
    rw [hA, prep_real, dft_sub_const _ _ _ ?_]
    · exact h01
    · intro h
      have := congrArg (fun k => ((k.2 : Fin nx) : ℕ)) h
      simp [Nat.mod_eq_of_lt (show 1 < nx by omega)] at this
  have hchi : ∀ i, c i = Spec.chi2 A B (fun _ => s) (Spec.lag ny i.1) (Spec.lag nx i.2) := by
    intro i
    rw [hchi0, scalarErr_errOf herr, scalarErr_maskOf herr, scalarErr_maskOf herr]
  have hint : ∀ ty tx : ℝ, (interp2C (fun i => ((c i : ℝ) : ℂ)) ty tx).re
      = Spec.resid A B s (ty - Spec.zeroLag ny) (tx - Spec.zeroLag nx) := by
    intro ty tx
    rw [← interp2C_chi2]
    simp only [hchi]
  have hint0 : ∀ ty tx, 0 ≤ (interp2C (fun i => ((c i : ℝ) : ℂ)) ty tx).re := by
    intro ty tx; rw [hint]; exact resid_nonneg _ _ _ _ _
  have hzero : ∀ ty tx : ℝ, (interp2C (fun i => ((c i : ℝ) : ℂ)) ty tx).re = 0 ↔
      (∃ z : ℤ, ty - Spec.zeroLag ny + dy = z * ny) ∧ ∃ z : ℤ, tx - Spec.zeroLag nx + dx = z * nx := by
    intro ty tx
    rw [hint, resid_eq_zero_iff _ _ _ hs, cshift_cshift _ _ _ _ _ _ hb]
    constructor
    · exact period_of_cshift_self A hy hx h10' h01' _ _
    · rintro ⟨⟨z, hz⟩, w, hw⟩ p
      rw [hz, hw, cshift_period]
  have hpix : ∀ i : Fin ny × Fin nx, c i = (interp2C (fun i => ((c i : ℝ) : ℂ)) ((i.1 : ℕ) : ℝ) ((i.2 : ℕ) : ℝ)).re := by
    intro i
    have := interp2C_int (fun i => ((c i : ℝ) : ℂ)) ((i.1 : ℕ) : ℤ) ((i.2 : ℕ) : ℤ)
    push_cast at this
    rw [this]
    simp [Spec.wrap_val]
  -- a pixel with value 0 and one with another value
  obtain ⟨q0, hq0⟩ : ∃ q : Fin ny × Fin nx, c q = 0 := by
    refine ⟨(Spec.wrap ny (((ny - 1) / 2 : ℕ) - dy), Spec.wrap nx (((nx - 1) / 2 : ℕ) - dx)), ?_⟩
    rw [hpix, hzero]
    obtain ⟨zy, hzy⟩ := (Spec.lag_wrap ny dy).symm.dvd
    obtain ⟨zx, hzx⟩ := (Spec.lag_wrap nx dx).symm.dvd
    unfold Spec.lag at hzy hzx
    refine ⟨⟨-zy, ?_⟩, ⟨-zx, ?_⟩⟩
    · have : ((Spec.wrap ny (((ny - 1) / 2 : ℕ) - dy) : ℕ) : ℤ) - (Spec.zeroLag ny : ℤ) + dy = -zy * ny := by linarith
      exact_mod_cast this
    · have : ((Spec.wrap nx (((nx - 1) / 2 : ℕ) - dx) : ℕ) : ℤ) - (Spec.zeroLag nx : ℤ) + dx = -zx * nx := by linarith
      exact_mod_cast this
  have hne : ∃ i j, c i ≠ c j := by
    by_contra hcon
    push Not at hcon
    have h00 := hcon (0, 0) q0
    have h1 := hcon (1, 0) q0
    rw [hq0, hpix, hzero] at h00 h1
    obtain ⟨⟨z, hz⟩, -⟩ := h00
    obtain ⟨⟨w, hw⟩, -⟩ := h1
    have e1 : ((1 : Fin ny) : ℕ) = 1 := by
      obtain ⟨m, rfl⟩ : ∃ m, ny = m + 2 := ⟨ny - 2, by omega⟩
      rfl
    have e0 : ((0 : Fin ny) : ℕ) = 0 := rfl
    rw [e0] at hz
    rw [e1] at hw
    have : (1 : ℝ) = ((w - z : ℤ) : ℝ) * ny := by push_cast at *; linarith
    have h2 : (1 : ℤ) = (w - z) * ny := by exact_mod_cast this
    have := Int.eq_one_or_neg_one_of_mul_eq_one' h2.symm
    omega
  obtain ⟨fuel, res, hres⟩ := C40_iterative_zoom_returns cfg.hasFftw c hne mindiff hmd (2 * a + 1) (2 * b + 1) 2 (by norm_num)
    .min true false (by simp)
  obtain ⟨k, views, pos, hv0, hpos, hvs, hstop, hnstop, out, hout, hk0, hks⟩ :=
    C39_iterative_zoom cfg.hasFftw fuel c mindiff (2 * a + 1) (2 * b + 1) 2 .min true false res hres
  have hgap' := hgap c hc
  have hnn : ∀ i, 0 ≤ c i := fun i => by rw [hpix]; exact hint0 _ _
  -- the first view
  have base : ∀ (v : ZoomView) (p : Fin v.m × Fin v.n), v = imageView c → Spec.IsFirstExt .min v.data p →
      ∃ q : Fin ny × Fin nx, v.yax p = ((q.1 : ℕ) : ℝ) ∧ v.xax p = ((q.2 : ℕ) : ℝ) ∧ c q = 0 ∧
        ¬ Spec.ZoomStop mindiff v p := by
    rintro v p rfl hp
    have hp0 : c p = 0 := le_antisymm (hq0 ▸ hp.1 q0) (hnn p)
    refine ⟨p, rfl, rfl, hp0, ?_⟩
    rintro (h | ⟨i, hi, hd⟩)
    · obtain ⟨i, j, hij⟩ := hne
      exact hij ((h i).trans (h j).symm)
    · have hi' : c i ≠ c p := hi
      have hd' : |c i - c p| ≤ mindiff := hd
      rw [hp0] at hi' hd'
      rw [sub_zero, abs_of_nonneg (hnn i)] at hd'
      exact absurd (hgap' i hi') (not_lt.2 hd')
  -- the following views
  have step : ∀ (v : ZoomView) (p : Fin v.m × Fin v.n) (cc : ℝ × ℝ) (zf : ℝ), v = gridView c (2 * a + 1) (2 * b + 1) cc zf →
      2 ≤ zf → (interp2C (fun i => ((c i : ℝ) : ℂ)) cc.1 cc.2).re = 0 → Spec.IsFirstExt .min v.data p →
      (interp2C (fun i => ((c i : ℝ) : ℂ)) (v.yax p) (v.xax p)).re = 0 ∧
        |v.yax p - cc.1| ≤ a / 2 ∧ |v.xax p - cc.2| ≤ b / 2 := by
    rintro v p cc zf rfl hzf h0 hp
    have hmid := hp.1 ((⟨a, by omega⟩ : Fin (2 * a + 1)), (⟨b, by omega⟩ : Fin (2 * b + 1)))
    have e : (gridView c (2 * a + 1) (2 * b + 1) cc zf).data
        ((⟨a, by omega⟩ : Fin (2 * a + 1)), (⟨b, by omega⟩ : Fin (2 * b + 1))) = 0 := by
      rw [← h0]
      unfold gridView Spec.zoomGrid
      simp only
      congr 2 <;> push_cast <;> ring
    rw [e] at hmid
    refine ⟨le_antisymm hmid (hint0 _ _), ?_, ?_⟩
    · have := grid_near cc.1 zf (by linarith) (2 * a + 1) p.1
      refine this.trans ?_
      push_cast
      rw [div_le_div_iff₀ (by positivity) (by norm_num)]
      nlinarith [(Nat.cast_nonneg a : (0 : ℝ) ≤ a)]
    · have := grid_near cc.2 zf (by linarith) (2 * b + 1) p.2
      refine this.trans ?_
      push_cast
      rw [div_le_div_iff₀ (by positivity) (by norm_num)]
      nlinarith [(Nat.cast_nonneg b : (0 : ℝ) ≤ b)]
  obtain ⟨q, hqy, hqx, hcq, hns⟩ := base _ _ hv0 (hpos 0)
  have same : ∀ (n : ℕ) [NeZero n] (x y d : ℝ) (r : ℕ), r < 2 * n → |y - x| ≤ r / 2 →
      (∃ z : ℤ, x + d = z * n) → (∃ z : ℤ, y + d = z * n) → y = x := by
    rintro n _ x y d r hr hxy ⟨z, hz⟩ ⟨w, hw⟩
    have e1 : y - x = ((w - z : ℤ) : ℝ) * n := by push_cast; linarith
    have hn : (0 : ℝ) < n := by exact_mod_cast Nat.pos_of_neZero n
    have h2 : |((w - z : ℤ) : ℝ)| * n < n := by
      rw [← abs_of_pos hn, ← abs_mul, abs_of_pos hn, ← e1]
      refine lt_of_le_of_lt hxy ?_
      have : (r : ℝ) < 2 * n := by exact_mod_cast hr
      linarith
    have h3 : |((w - z : ℤ) : ℝ)| < 1 := by
      by_contra hcon
      push Not at hcon
      nlinarith
    have h4 : w - z = 0 := by
      have : |w - z| < 1 := by exact_mod_cast h3
      exact Int.abs_lt_one_iff.1 this
    rw [h4] at e1
    simp at e1
    linarith
  have inv : ∀ j, (interp2C (fun i => ((c i : ℝ) : ℂ)) ((views j).yax (pos j)) ((views j).xax (pos j))).re = 0 ∧
      (a < 2 * ny → (views j).yax (pos j) = ((q.1 : ℕ) : ℝ)) ∧ (b < 2 * nx → (views j).xax (pos j) = ((q.2 : ℕ) : ℝ)) := by
    intro j
    induction j with
    | zero =>
      refine ⟨?_, fun _ => hqy, fun _ => hqx⟩
      rw [hqy, hqx, ← hpix, hcq]
    | succ j ih =>
      obtain ⟨i1, i2, i3⟩ := ih
      have h2 : (2 : ℝ) ≤ 2 ^ (j + 1) := by
        rw [pow_succ]
        have : (1 : ℝ) ≤ 2 ^ j := one_le_pow₀ (by norm_num)
        linarith
      obtain ⟨g1, g2, g3⟩ := step _ (pos (j + 1)) _ _ (hvs j) h2 i1 (hpos (j + 1))
      obtain ⟨y1, x1⟩ := (hzero _ _).1 i1
      obtain ⟨y2, x2⟩ := (hzero _ _).1 g1
      refine ⟨g1, fun h => ?_, fun h => ?_⟩
      · rw [← i2 h]
        exact same ny _ _ (-(Spec.zeroLag ny : ℕ) + dy) a h g2
          (by obtain ⟨z, hz⟩ := y1; exact ⟨z, by rw [← hz]; ring⟩) (by obtain ⟨z, hz⟩ := y2; exact ⟨z, by rw [← hz]; ring⟩)
      · rw [← i3 h]
        exact same nx _ _ (-(Spec.zeroLag nx : ℕ) + dx) b h g3
          (by obtain ⟨z, hz⟩ := x1; exact ⟨z, by rw [← hz]; ring⟩) (by obtain ⟨z, hz⟩ := x2; exact ⟨z, by rw [← hz]; ring⟩)
  obtain ⟨j, rfl⟩ : ∃ j, k = j + 1 := by
    cases k with
    | zero => exact absurd hstop hns
    | succ j => exact ⟨j, rfl⟩
  have ho := hks j rfl
  simp only [Bool.false_eq_true, if_false] at ho
  subst hout
  obtain ⟨i1, i2, i3⟩ := inv j
  obtain ⟨⟨z, hz⟩, w, hw⟩ := (hzero _ _).1 i1
  simp only [if_true] at hres
  rw [ho] at hres
  obtain ⟨us, xv, yv, r, er, -, -, -, -, -, -, hfin⟩ := C91_structure ah cfg st hst fuel (realArr im1)
    (realArr (Spec.roll2 dy dx im1)) err zm (2 * a + 1, 2 * b + 1) s1 s2 rf hrf mindiff c hc _ _ _ _
    (pow_ne_zero _ (by norm_num)) hres
  have hlag : ∀ (n : ℕ) [NeZero n] (p : Fin n), |2 * ((Spec.zeroLag n : ℤ) - ((p : ℕ) : ℤ))| ≤ (n : ℤ) := by
    intro n _ p
    have := p.2
    unfold Spec.zeroLag
    rw [abs_le]
    constructor <;> omega
  have half : ∀ (n : ℕ) [NeZero n], ((n : ℝ) - 1) / 2 = (Spec.zeroLag n : ℕ) + Spec.evenHalf n := by
    intro n _
    rw [halfPix_eq]
    unfold Spec.halfPix Spec.evenHalf
    simp only [Nat.even_iff]
  refine ⟨fuel, dx - w * nx, dy - z * ny, ?_, ?_, ?_, ?_, ?_⟩
  · rw [hfin false false]
    simp only [Bool.false_eq_true, if_false, List.append_nil]
    congr 4
    · rw [half nx]; push_cast; linarith
    · congr 2
      rw [half ny]; push_cast; linarith
  · exact (Int.modEq_iff_dvd.2 ⟨w, by ring⟩)
  · exact (Int.modEq_iff_dvd.2 ⟨z, by ring⟩)
  · intro h
    have h3 := i3 h
    rw [h3] at hw
    have : dx - w * nx = (Spec.zeroLag nx : ℤ) - ((q.2 : ℕ) : ℤ) := by
      have : (dx : ℝ) - w * nx = (Spec.zeroLag nx : ℕ) - ((q.2 : ℕ) : ℝ) := by linarith
      exact_mod_cast this
    rw [this]; exact hlag nx q.2
  · intro h
    have h3 := i2 h
    rw [h3] at hz
    have : dy - z * ny = (Spec.zeroLag ny : ℤ) - ((q.1 : ℕ) : ℤ) := by
      have : (dy : ℝ) - z * ny = (Spec.zeroLag ny : ℕ) - ((q.1 : ℕ) : ℝ) := by linarith
      exact_mod_cast this
    rw [this]; exact hlag ny q.1

/-- a case of both theorems: a pixel of brightness 2 in a 4 × 5 image moved by one row and two columns back, `mindiff=1`,
`zoom_shape=(11, 11)`, `rezoom_shape=(100, 100)`, `rezoom_factor=5`: the x shift is right, the y shift half a pixel too large -/
example (cfg : FFTConfig) (st : Stats) (hst : Spec.validStats st) :
    ∃ (fuel : ℕ) (dx' dy' : ℤ),
      chi2ShiftIterzoomBody (some false) cfg st fuel (realArr fun p : Fin 4 × Fin 5 => if p = 0 then (2 : ℝ) else 0)
        (realArr (Spec.roll2 1 (-2) fun p : Fin 4 × Fin 5 => if p = 0 then (2 : ℝ) else 0)) .none false false false
        (11, 11) (100, 100) 5 1 = some (.ok [.num dx', .num (dy' + 1 / 2)]) ∧ dx' = -2 ∧ dy' = 1 := by
  set a : Fin 4 × Fin 5 → ℝ := fun p => if p = 0 then (2 : ℝ) else 0 with ha
  have hd : ∀ k : Fin 4 × Fin 5, dft (fun p => ((a p : ℝ) : ℂ)) k ≠ 0 := by
    intro k
    have h1 : dft (fun p => ((a p : ℝ) : ℂ)) k = 2 := by
      unfold dft
      rw [Finset.sum_eq_single 0]
      · simp [FFTIndex.e_zero, ha]
      · intro b _ hb; simp [hb, ha]
      · simp
    rw [h1]; exact two_ne_zero
  have hfits : Spec.fits false 4 5 := by unfold Spec.fits; norm_num
  obtain ⟨fuel, dx', dy', h, m1, m2, b1, b2⟩ := C91_recovers_roll false cfg st hst a (by norm_num) (by norm_num) (hd _) (hd _)
    1 (-2) .none 1 one_ne_zero rfl false hfits 5 5 100 100 5 (by norm_num) 1 one_pos (by
      intro c hc i hi
      obtain ⟨c', hc', hval⟩ := C23_scalar_error cfg false hfits (realArr a) (realArr (Spec.roll2 1 (-2) a)) .none 1 one_ne_zero rfl
      rw [hc] at hc'
      obtain rfl : c = c' := by injection hc' with h; injection h
      have hv := hval (((4 - 1) / 2 : ℕ) - ((i.1 : ℕ) : ℤ)) (((5 - 1) / 2 : ℕ) - ((i.2 : ℕ) : ℤ))
      rw [sub_sub_cancel, sub_sub_cancel, Spec.wrap_val, Spec.wrap_val] at hv
      rw [hv] at hi ⊢
      obtain ⟨p, -, hp⟩ := Finset.exists_ne_zero_of_sum_ne_zero hi
      refine lt_of_lt_of_le ?_ (Finset.single_le_sum (fun q _ => div_nonneg (sq_nonneg _) (sq_nonneg _)) (mem_univ p))
      have h2 : ∀ q, a q = 0 ∨ a q = 2 := by
        intro q; simp only [ha]; split_ifs <;> simp
      have e1 : Spec.nan0 (realArr a) p = a p := rfl
      have e2 : ∃ q, Spec.roll2 (-(((4 - 1) / 2 : ℕ) - ((i.1 : ℕ) : ℤ))) (-(((5 - 1) / 2 : ℕ) - ((i.2 : ℕ) : ℤ)))
          (Spec.nan0 (realArr (Spec.roll2 1 (-2) a))) p = a q := ⟨_, rfl⟩
      obtain ⟨q, e2⟩ := e2
      rw [e1, e2] at hp ⊢
      rcases h2 p with h3 | h3 <;> rcases h2 q with h4 | h4 <;> rw [h3, h4] at hp ⊢ <;>
        first | (norm_num; done) | norm_num at hp)
  have c1 := b1 (by norm_num)
  have c2 := b2 (by norm_num)
  have e5 : Spec.evenHalf 5 = 0 := by unfold Spec.evenHalf; rw [if_neg (by decide)]
  have e4 : Spec.evenHalf 4 = 1 / 2 := by unfold Spec.evenHalf; rw [if_pos (by decide)]
  rw [e5, e4, add_zero] at h
  refine ⟨fuel, dx', dy', h, ?_, ?_⟩
  · unfold Int.ModEq at m1; rw [abs_le] at c1; push_cast at *; omega
  · unfold Int.ModEq at m2; rw [abs_le] at c2; push_cast at *; omega

end ImgReg
