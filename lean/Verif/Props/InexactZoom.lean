import Verif.Lemmas.InexactZoom
import Verif.Props.InexactShift
import Verif.Props.InexactChi2
import Verif.Props.Chi2Shift

/-!
# `fourier_interp1d/2d`, `zoom1d`, `zoom_on_pixel` and `chi2_shift` in floating point (C114)

What is left of the exact results when every operation has a relative error of at most `δ` (`Spec.Chi2Accurate`, `Spec.ZoomAccurate`).
-/

open Complex Finset

namespace ImgReg

/-- error of `fourier_interp1d`, relative to the norm of the data: coordinates of size at most `B`, `m` roundings in the phase -/
noncomputable def Spec.interp1Err (δ : ℝ) (m : ℕ) (B : ℝ) : ℝ := (1 + δ) ^ 2 * (1 + Spec.kernelErr δ m (Real.pi * B)) - 1

/-- error of `fourier_interp2d`, relative to the norm of the data -/
noncomputable def Spec.interp2Err (δ : ℝ) (m : ℕ) (By Bx : ℝ) : ℝ :=
  (1 + δ) ^ 3 * (1 + Spec.kernelErr δ m (Real.pi * By)) * (1 + Spec.kernelErr δ m (Real.pi * Bx)) - 1

theorem Near.exact (o δ : ℝ) : Near o o ((1 + δ) ^ 0 * |o|) |o| := by rw [pow_zero, one_mul]; exact Near.refl o

theorem kernelErr_nonneg {δ : ℝ} (h0 : 0 ≤ δ) (m : ℕ) {B : ℝ} (hB : 0 ≤ B) : 0 ≤ Spec.kernelErr δ m (Real.pi * B) := by
  unfold Spec.kernelErr
  have h1 : 1 ≤ (1 + δ) ^ m := one_le_pow₀ (by linarith)
  have h2 := Real.pi_pos
  have h3 : 0 ≤ ((1 + δ) ^ m - 1) * (Real.pi * B) := mul_nonneg (by linarith) (by positivity)
  linarith

theorem zoomReach_nonneg (t us : ℝ) (s : ℕ) : 0 ≤ Spec.zoomReach t us s := by unfold Spec.zoomReach; positivity

section one
variable {n : ℕ} [NeZero n]

/-- C114: `fourier_interp1d` in floating point. For all complex data and all coordinates, the computed value at `o` is within
`((1+δ)²(1+κ) - 1)‖data‖` of the exact one, `κ = δ + ((1+δ)⁴ - 1)π|o|`. -/
theorem C114_interp1d (Z : ZoomArith) (δ : ℝ) (hZ : Spec.ZoomAccurate Z δ) (cfg : FFTConfig) (x : Fin n → ℂ) {m : ℕ} (o : Fin m → ℝ) :
    ∃ r : Fin m → ℂ, fourierInterp1d cfg (cArr x) (Arr.ofVec o) none false = .ok ⟨m, .cplx (cArr r)⟩ ∧
      fourierInterp1d cfg (cArr x) (Arr.ofVec o) none true = .ok ⟨m, .real (realArr fun i => (r i).re)⟩ ∧
      ∀ i, ‖interp1A Z x o i - r i‖ ≤ Spec.interp1Err δ 4 |o i| * Spec.norm2 x := by
  refine ⟨fun i => interpC x (o i), fourierInterp1d_vec cfg x o false, fourierInterp1d_vec cfg x o true, fun i => ?_⟩
  have h := interp1A_near hZ (c' := x) (c := x) (X' := l2 x) (X := l2 x) le_rfl le_rfl (by simp [l2]) i (Near.exact (o i) δ)
  refine h.trans (le_of_eq ?_)
  unfold Spec.interp1Err
  change _ = _ * l2 x
  ring

/-- C114: `zoom1d` in floating point. The computed coordinates are within rounding of the exact ones, and the computed values, although
taken at the computed coordinates, are within `Spec.interp1Err` (7 roundings) of the exact values. -/
theorem C114_zoom1d (Z : ZoomArith) (δ : ℝ) (hZ : Spec.ZoomAccurate Z δ) (cfg : FFTConfig) (x : Fin n → ℂ) (us : ℝ) (hus : us ≠ 0) (s : ℕ)
    (off : ℝ) :
    ∃ (g : Fin s → ℝ) (r : Fin s → ℂ),
      zoom1d cfg (cArr x) us (some s) off true false = .ok (.withX (Arr.ofVec g) ⟨s, .cplx (cArr r)⟩) ∧
      ∀ i, |(zoom1A Z x us s off).1 i - g i| ≤ ((1 + δ) ^ 3 - 1) * Spec.zoomReach (((n : ℝ) - 1) / 2 + off) us s ∧
        ‖(zoom1A Z x us s off).2 i - r i‖ ≤ Spec.interp1Err δ 7 (Spec.zoomReach (((n : ℝ) - 1) / 2 + off) us s) * Spec.norm2 x := by
  refine ⟨_, _, zoom1d_eq cfg x us hus (some s) off true false, fun i => ?_⟩
  have ht := (Near.refl (((n : ℝ) - 1) / 2 + off)).step hZ.nonneg (hZ.base.addR _ _)
  have a := zoomAxisA_near hZ hus ht s i
  refine ⟨a.dist.trans (le_of_eq (by ring)), ?_⟩
  have h := interp1A_near hZ (c' := x) (c := x) (X' := l2 x) (X := l2 x) le_rfl le_rfl (by simp [l2])
    (o' := zoomAxisA Z (Z.addR (((n : ℝ) - 1) / 2) off) us s) i a
  refine h.trans (le_of_eq ?_)
  unfold Spec.interp1Err
  change _ = _ * l2 x
  ring

end one

section two
variable {ny nx : ℕ} [NeZero ny] [NeZero nx]

/-- C114: `fourier_interp2d` in floating point, for all complex data and all coordinates. -/
theorem C114_interp2d (Z : ZoomArith) (δ : ℝ) (hZ : Spec.ZoomAccurate Z δ) (cfg : FFTConfig) (x : Fin ny × Fin nx → ℂ) {my mx : ℕ}
    (oy : Fin my → ℝ) (ox : Fin mx → ℝ) :
    ∃ r : Fin my × Fin mx → ℂ, fourierInterp2d cfg (cArr x) (.seq [⟨my, oy⟩, ⟨mx, ox⟩]) false = .ok ⟨my, mx, .cplx (cArr r)⟩ ∧
      fourierInterp2d cfg (cArr x) (.seq [⟨my, oy⟩, ⟨mx, ox⟩]) true = .ok ⟨my, mx, .real (realArr fun i => (r i).re)⟩ ∧
      ∀ i, ‖interp2A Z x oy ox i - r i‖ ≤ Spec.interp2Err δ 4 |oy i.1| |ox i.2| * Spec.norm2 x := by
  refine ⟨fun i => interp2C x (oy i.1) (ox i.2), fourierInterp2d_ok cfg x _ rfl ⟨my, oy⟩ ⟨mx, ox⟩ rfl rfl false,
    fourierInterp2d_ok cfg x _ rfl ⟨my, oy⟩ ⟨mx, ox⟩ rfl rfl true, fun i => ?_⟩
  have h := interp2A_near hZ (c' := x) (c := x) (X' := l2 x) (X := l2 x) le_rfl le_rfl (by simp [l2]) i (Near.exact (oy i.1) δ)
    (Near.exact (ox i.2) δ)
  refine h.trans (le_of_eq ?_)
  unfold Spec.interp2Err
  change _ = _ * l2 x
  ring

/-- C114: `zoom_on_pixel` on an image, in floating point: the computed coordinate axes are within rounding of the exact ones, the
computed values within `Spec.interp2Err` (7 roundings) of the exact values. -/
theorem C114_zoom_on_pixel (Z : ZoomArith) (δ : ℝ) (hZ : Spec.ZoomAccurate Z δ) (cfg : FFTConfig) (x : Fin ny × Fin nx → ℂ) (ty tx us : ℝ)
    (hus : us ≠ 0) (s1 s2 : ℕ) (h1 : 0 < s1) (h2 : 0 < s2) :
    ∃ (cube : Arr) (r : Fin s1 × Fin s2 → ℂ),
      zoomOnPixel2 cfg (cArr x) [ty, tx] us (some (s1, s2)) false true = .ok (.withX cube ⟨s1, s2, .cplx (cArr r)⟩) ∧
      ∀ i, |(zoom2A Z x ty tx us s1 s2).1 i.1 - cube.val [0, i.1, i.2]| ≤ ((1 + δ) ^ 3 - 1) * Spec.zoomReach ty us s1 ∧
        |(zoom2A Z x ty tx us s1 s2).2.1 i.2 - cube.val [1, i.1, i.2]| ≤ ((1 + δ) ^ 3 - 1) * Spec.zoomReach tx us s2 ∧
        ‖(zoom2A Z x ty tx us s1 s2).2.2 i - r i‖
          ≤ Spec.interp2Err δ 7 (Spec.zoomReach ty us s1) (Spec.zoomReach tx us s2) * Spec.norm2 x := by
  obtain ⟨cube, -, hv, hz⟩ := zoomOnPixel2_eq cfg x [ty, tx] us hus (some (s1, s2)) s1 s2 rfl h1 h2 false true
  refine ⟨cube, _, hz, fun i => ?_⟩
  have tn : ∀ t : ℝ, Near t t ((1 + δ) * |t|) |t| := fun t =>
    (Near.refl t).mono (le_mul_of_one_le_left (abs_nonneg _) (by have := hZ.nonneg; linarith))
  have ay := zoomAxisA_near hZ hus (tn ty) s1 i.1
  have ax := zoomAxisA_near hZ hus (tn tx) s2 i.2
  have e1 : zoomAxis [ty, tx][0]? us s1 = Spec.zoomGrid ty us s1 := zoomAxis_some ty us s1
  have e2 : zoomAxis [ty, tx][1]? us s2 = Spec.zoomGrid tx us s2 := zoomAxis_some tx us s2
  rw [(hv i.1 i.2).1, (hv i.1 i.2).2, e1, e2]
  refine ⟨ay.dist.trans (le_of_eq (by ring)), ax.dist.trans (le_of_eq (by ring)), ?_⟩
  have h := interp2A_near hZ (c' := x) (c := x) (X' := l2 x) (X := l2 x) le_rfl le_rfl (by simp [l2])
    (oy' := zoomAxisA Z ty us s1) (ox' := zoomAxisA Z tx us s2) i ay ax
  refine h.trans (le_of_eq ?_)
  unfold Spec.interp2Err
  change _ = _ * l2 x
  ring

/-! ## `chi2_shift` -/

/-- the extent of a region of pixels: the larger of its widths along the two axes, 1 for a single pixel -/
noncomputable def Spec.extent (R : Finset (Fin ny × Fin nx)) : ℝ :=
  if h : 1 < R.card then
    max (Np.maxOver R (card_pos.1 (Nat.lt_of_lt_of_le Nat.zero_lt_one h.le)) (fun i => ((i.2 : ℕ) : ℝ))
        - Np.minOver R (card_pos.1 (Nat.lt_of_lt_of_le Nat.zero_lt_one h.le)) (fun i => ((i.2 : ℕ) : ℝ)))
      (Np.maxOver R (card_pos.1 (Nat.lt_of_lt_of_le Nat.zero_lt_one h.le)) (fun i => ((i.1 : ℕ) : ℝ))
        - Np.minOver R (card_pos.1 (Nat.lt_of_lt_of_le Nat.zero_lt_one h.le)) (fun i => ((i.1 : ℕ) : ℝ)))
  else 1

/-- The upsampling factor used: the one given, or, for `'auto'`, `max(1, max_auto_size/2/extent)` up to rounding, with the extent of a region
that contains all displacements whose exact chi-squared is safely within the threshold `m` of the minimum, and none safely outside. -/
def Spec.nearFactor (δ T : ℝ) (c : Fin ny × Fin nx → ℝ) (m : ℝ) (mas : ℕ) : UsFactor → ℝ → Prop
  | .auto, u => ∃ R : Finset (Fin ny × Fin nx), (∀ i, (∀ j, c i + 2 * T < c j + m / (1 + δ)) → i ∈ R) ∧
      (∀ i ∈ R, ∀ j, c i < c j + m / (1 - δ) + 2 * T) ∧
      ∃ v, |v - (mas : ℝ) / 2 / Spec.extent R| ≤ δ * ((mas : ℝ) / 2 / Spec.extent R) ∧ u = max 1 v
  | .int k, u => u = k
  | .float v, u => u = v

/-- the centre of the zoom on axis `n` when the coarse minimum is at pixel `q` -/
noncomputable def Spec.zoomCentre (n : ℕ) (q : Fin n) : ℝ := ((n : ℝ) - 1) / 2 + (((q : ℕ) : ℝ) - (Spec.zeroLag n : ℕ))

/-- how far a value of the computed zoomed map can be from the exact zoom of the exact map `c`: `N` pixels, each off by `T` -/
noncomputable def Spec.zoomErr (δ T : ℝ) (c : Fin ny × Fin nx → ℝ) (q : Fin ny × Fin nx) (u : ℝ) (s1 s2 : ℕ) : ℝ :=
  (1 + Spec.interp2Err δ 7 (Spec.zoomReach (Spec.zoomCentre ny q.1) u s1) (Spec.zoomReach (Spec.zoomCentre nx q.2) u s2))
      * (Real.sqrt (∑ i, c i ^ 2) + Real.sqrt ((ny : ℝ) * nx) * T) - Real.sqrt (∑ i, c i ^ 2)

/-- rounding error of a reported shift -/
noncomputable def Spec.reportErr (δ : ℝ) (n : ℕ) (q : Fin n) (u : ℝ) (s : ℕ) : ℝ :=
  ((1 + δ) ^ 4 - 1) * (Spec.zoomReach (Spec.zoomCentre n q) u s + (Spec.zeroLag n : ℕ))

omit [NeZero ny] [NeZero nx] in
theorem extent_pos (R : Finset (Fin ny × Fin nx)) : 1 ≤ Spec.extent R := by
  unfold Spec.extent
  split_ifs with h
  · exact auto_size_pos _ h _
  · exact le_rfl

theorem chooseUpsampleA_near {A : Chi2Arith} {Z : ZoomArith} {δ : ℝ} (hA : Spec.Chi2Accurate A δ) (hZ : Spec.ZoomAccurate Z δ)
    {c' c : Fin ny × Fin nx → ℝ} {T : ℝ} (hT : ∀ i, |c' i - c i| ≤ T) (us : UsFactor) (m : ℝ) (mas : ℕ) (hus : Spec.validUs ny mas us) :
    ∃ u, chooseUpsampleA A Z c' us m mas = .ok (u, Spec.gridSize ny nx mas us) ∧ 0 < u ∧ Spec.nearFactor δ T c m mas us u := by
  cases us with
  | int k =>
    exact ⟨k, chooseUpsample_eq (nx := nx) c' (.int k) m mas false (Or.inl rfl) hus, Nat.cast_pos.2 hus, rfl⟩
  | float v =>
    exact ⟨v, chooseUpsample_eq (nx := nx) c' (.float v) m mas false (Or.inl rfl) hus, hus.1, rfl⟩
  | auto =>
    classical
    have h0 := hA.nonneg
    have h1 := hA.lt_one
    set R : Finset (Fin ny × Fin nx) := univ.filter fun i => A.sub (c' i) (c' (Np.argmin c')) < m with hR
    have hx := extent_pos R
    set v := Z.divR ((mas : ℝ) / 2) (Spec.extent R) with hv
    refine ⟨max 1 v, ?_, lt_of_lt_of_le one_pos (le_max_left _ _), R, ?_, ?_, v, ?_, rfl⟩
    · have e : chooseUpsampleA A Z c' .auto m mas = .ok (if v < 1 then 1 else v, mas, mas) := by
        rw [hv, hR]
        unfold chooseUpsampleA Spec.extent
        congr!
      rw [e]
      congr 2
      split_ifs with h
      · exact (max_eq_left h.le).symm
      · exact (max_eq_right (not_lt.1 h)).symm
    · intro i hi
      rw [hR, Finset.mem_filter]
      refine ⟨Finset.mem_univ _, ?_⟩
      have a := hA.base.sub (c' i) (c' (Np.argmin c'))
      have hd : 0 ≤ c' i - c' (Np.argmin c') := by have := (Np.argmin_spec c').1 i; linarith
      rw [abs_of_nonneg hd] at a
      have b := hi (Np.argmin c')
      have b1 := abs_le.1 (hT i)
      have b2 := abs_le.1 (hT (Np.argmin c'))
      have d : c' i - c' (Np.argmin c') < m / (1 + δ) := by linarith [b1.1, b1.2, b2.1, b2.2]
      rw [lt_div_iff₀ (by linarith)] at d
      have := (abs_le.1 a).2
      linarith
    · intro i hi j
      rw [hR, Finset.mem_filter] at hi
      have a := hA.base.sub (c' i) (c' (Np.argmin c'))
      have hd : 0 ≤ c' i - c' (Np.argmin c') := by have := (Np.argmin_spec c').1 i; linarith
      rw [abs_of_nonneg hd] at a
      have d : c' i - c' (Np.argmin c') < m / (1 - δ) := by
        rw [lt_div_iff₀ (by linarith)]
        have := (abs_le.1 a).1
        linarith [hi.2]
      have b0 := (Np.argmin_spec c').1 j
      have b1 := abs_le.1 (hT i)
      have b2 := abs_le.1 (hT j)
      linarith [b1.1, b1.2, b2.1, b2.2]
    · have h2 := hZ.divR ((mas : ℝ) / 2) (Spec.extent R) (by linarith)
      rwa [abs_of_nonneg (by positivity : 0 ≤ (mas : ℝ) / 2 / Spec.extent R)] at h2

/-- `chi2map_to_errors`: the computed region lies between two exact ones, and the error bars are its bounding box up to rounding -/
theorem chi2mapToErrorsA_near {A : Chi2Arith} {Z : ZoomArith} {δ : ℝ} (hA : Spec.Chi2Accurate A δ) (hZ : Spec.ZoomAccurate Z δ) {m n : ℕ}
    [NeZero m] [NeZero n] {c' c : Fin m × Fin n → ℝ} {E : ℝ} (hE : ∀ i, |c' i - c i| ≤ E) (thr : ℝ) (hthr : 0 < thr) (zf : ℝ) (hzf : 0 < zf) :
    ∃ (er : Errors) (S : Finset (Fin m × Fin n)) (a b a' b' : Fin m × Fin n), chi2mapToErrorsA A Z thr c' zf = .ok er ∧
      (∀ i, (∀ j, c i + 2 * E < c j + thr / (1 + δ)) → i ∈ S) ∧ (∀ i ∈ S, ∀ j, c i < c j + thr / (1 - δ) + 2 * E) ∧
      a ∈ S ∧ b ∈ S ∧ a' ∈ S ∧ b' ∈ S ∧ (∀ i ∈ S, a.2 ≤ i.2 ∧ i.2 ≤ b.2 ∧ a'.1 ≤ i.1 ∧ i.1 ≤ b'.1) ∧
      0 ≤ er.xLow ∧ 0 ≤ er.xHigh ∧ 0 ≤ er.yLow ∧ 0 ≤ er.yHigh ∧
      Near er.xLow ((((Np.argmin c').2 : ℕ) : ℝ) / zf - ((a.2 : ℕ) : ℝ) / zf) ((1 + δ) ^ 2 * (n / zf)) (n / zf) ∧
      Near er.xHigh (((b.2 : ℕ) : ℝ) / zf - (((Np.argmin c').2 : ℕ) : ℝ) / zf) ((1 + δ) ^ 2 * (n / zf)) (n / zf) ∧
      Near er.yLow ((((Np.argmin c').1 : ℕ) : ℝ) / zf - ((a'.1 : ℕ) : ℝ) / zf) ((1 + δ) ^ 2 * (m / zf)) (m / zf) ∧
      Near er.yHigh (((b'.1 : ℕ) : ℝ) / zf - (((Np.argmin c').1 : ℕ) : ℝ) / zf) ((1 + δ) ^ 2 * (m / zf)) (m / zf) := by
  classical
  have h0 := hZ.nonneg
  have h1 := hA.lt_one
  set p := Np.argmin c' with hp
  set S := univ.filter fun i => A.sub (c' i) (c' p) < thr with hS
  have hsub : ∀ i, |A.sub (c' i) (c' p) - (c' i - c' p)| ≤ δ * (c' i - c' p) := by
    intro i
    have a := hA.base.sub (c' i) (c' p)
    have hd : 0 ≤ c' i - c' p := by have := (Np.argmin_spec c').1 i; linarith
    rwa [abs_of_nonneg hd] at a
  have hpS : p ∈ S := by
    rw [hS, Finset.mem_filter]
    refine ⟨Finset.mem_univ _, ?_⟩
    have := hsub p
    rw [sub_self, mul_zero, sub_zero] at this
    rw [abs_nonpos_iff.1 this]; exact hthr
  have hne : S.Nonempty := ⟨p, hpS⟩
  -- one axis
  have axis : ∀ (k : ℕ) (f : Fin m × Fin n → Fin k), ∃ a ∈ S, ∃ b ∈ S, (∀ i ∈ S, f a ≤ f i ∧ f i ≤ f b) ∧
      0 ≤ Z.addR (Z.divR (((f p : ℕ) : ℝ) - (k : ℝ) / 2) zf) (-Np.minOver S hne fun i => Z.divR (((f i : ℕ) : ℝ) - (k : ℝ) / 2) zf) ∧
      0 ≤ Z.addR (Np.maxOver S hne fun i => Z.divR (((f i : ℕ) : ℝ) - (k : ℝ) / 2) zf) (-Z.divR (((f p : ℕ) : ℝ) - (k : ℝ) / 2) zf) ∧
      Near (Z.addR (Z.divR (((f p : ℕ) : ℝ) - (k : ℝ) / 2) zf) (-Np.minOver S hne fun i => Z.divR (((f i : ℕ) : ℝ) - (k : ℝ) / 2) zf))
        (((f p : ℕ) : ℝ) / zf - ((f a : ℕ) : ℝ) / zf) ((1 + δ) ^ 2 * (k / zf)) (k / zf) ∧
      Near (Z.addR (Np.maxOver S hne fun i => Z.divR (((f i : ℕ) : ℝ) - (k : ℝ) / 2) zf) (-Z.divR (((f p : ℕ) : ℝ) - (k : ℝ) / 2) zf))
        (((f b : ℕ) : ℝ) / zf - ((f p : ℕ) : ℝ) / zf) ((1 + δ) ^ 2 * (k / zf)) (k / zf) := by
    intro k f
    obtain ⟨a, ha, ha'⟩ := Finset.exists_min_image S f hne
    obtain ⟨b, hb, hb'⟩ := Finset.exists_max_image S f hne
    set g := fun i => Z.divR (((f i : ℕ) : ℝ) - (k : ℝ) / 2) zf with hg
    set W : ℝ := (k : ℝ) / zf / 2 with hW
    have hx : ∀ i, Near (g i) ((((f i : ℕ) : ℝ) - (k : ℝ) / 2) / zf) ((1 + δ) * W) W := by
      intro i
      have b0 : |(((f i : ℕ) : ℝ) - (k : ℝ) / 2) / zf| ≤ W := by
        rw [abs_div, abs_of_pos hzf, hW, div_div, mul_comm zf 2, ← div_div]
        apply div_le_div_of_nonneg_right _ hzf.le
        have l1 : ((f i : ℕ) : ℝ) ≤ k := Nat.cast_le.2 (f i).isLt.le
        have l2 : (0 : ℝ) ≤ ((f i : ℕ) : ℝ) := Nat.cast_nonneg _
        rw [abs_le]; constructor <;> linarith
      have d := hZ.divR (((f i : ℕ) : ℝ) - (k : ℝ) / 2) zf hzf.ne'
      have d2 := mul_le_mul_of_nonneg_left b0 h0
      refine ⟨?_, b0, by linarith⟩
      have := abs_sub_abs_le_abs_sub (g i) ((((f i : ℕ) : ℝ) - (k : ℝ) / 2) / zf)
      linarith
    obtain ⟨i0, hi0, e0⟩ := Finset.exists_mem_eq_inf' hne g
    obtain ⟨i1, hi1, e1⟩ := Finset.exists_mem_eq_sup' hne g
    have mono : ∀ i j, f i ≤ f j → (((f i : ℕ) : ℝ) - (k : ℝ) / 2) / zf ≤ (((f j : ℕ) : ℝ) - (k : ℝ) / 2) / zf := by
      intro i j h
      apply div_le_div_of_nonneg_right _ hzf.le
      have : ((f i : ℕ) : ℝ) ≤ ((f j : ℕ) : ℝ) := Nat.cast_le.2 h
      linarith
    have hmin : Near (Np.minOver S hne g) ((((f a : ℕ) : ℝ) - (k : ℝ) / 2) / zf) ((1 + δ) * W) W := by
      have e : Np.minOver S hne g = g i0 := e0
      have l1 : g i0 ≤ g a := by rw [← e]; exact Finset.inf'_le g ha
      have l2 := mono a i0 (ha' i0 hi0)
      refine ⟨by rw [e]; exact (hx i0).le', (hx a).le, ?_⟩
      have p1 := abs_le.1 (hx i0).dist
      have p2 := abs_le.1 (hx a).dist
      rw [e, abs_le]; constructor <;> linarith [p1.1, p1.2, p2.1, p2.2]
    have hmax : Near (Np.maxOver S hne g) ((((f b : ℕ) : ℝ) - (k : ℝ) / 2) / zf) ((1 + δ) * W) W := by
      have e : Np.maxOver S hne g = g i1 := e1
      have l1 : g b ≤ g i1 := by rw [← e]; exact Finset.le_sup' g hb
      have l2 := mono i1 b (hb' i1 hi1)
      refine ⟨by rw [e]; exact (hx i1).le', (hx b).le, ?_⟩
      have p1 := abs_le.1 (hx i1).dist
      have p2 := abs_le.1 (hx b).dist
      rw [e, abs_le]; constructor <;> linarith [p1.1, p1.2, p2.1, p2.2]
    have neg : ∀ {x' x B' B : ℝ}, Near x' x B' B → Near (-x') (-x) B' B := by
      intro x' x B' B h
      refine ⟨by rw [abs_neg]; exact h.le', by rw [abs_neg]; exact h.le, ?_⟩
      rw [neg_sub_neg, abs_sub_comm]; exact h.dist
    have sgn : ∀ x y : ℝ, 0 ≤ x + y → 0 ≤ Z.addR x y := by
      intro x y h
      have a := hZ.base.addR x y
      rw [abs_of_nonneg h] at a
      have := (abs_le.1 a).1
      nlinarith
    have fin : ∀ {x' x y' y z : ℝ}, Near x' x ((1 + δ) * W) W → Near y' y ((1 + δ) * W) W → x + y = z →
        Near (Z.addR x' y') z ((1 + δ) ^ 2 * (k / zf)) (k / zf) := by
      intro x' x y' y z hx hy e
      have h := (hx.add hy).step h0 (hZ.base.addR _ _)
      rw [e] at h
      have e1 : (1 + δ) * ((1 + δ) * W + (1 + δ) * W) = (1 + δ) ^ 2 * (k / zf) := by rw [hW]; ring
      have e2 : W + W = k / zf := by rw [hW]; ring
      rw [e1, e2] at h
      exact h
    refine ⟨a, ha, b, hb, fun i hi => ⟨ha' i hi, hb' i hi⟩, sgn _ _ ?_, sgn _ _ ?_, fin (hx p) (neg hmin) (by ring), fin hmax (neg (hx p)) (by ring)⟩
    · have : Np.minOver S hne g ≤ g p := Finset.inf'_le g hpS
      linarith
    · have : g p ≤ Np.maxOver S hne g := Finset.le_sup' g hpS
      linarith
  obtain ⟨a, ha, b, hb, hx1, hx2, hx3, hx4, hx5⟩ := axis n (fun i => i.2)
  obtain ⟨a', ha', b', hb', hy1, hy2, hy3, hy4, hy5⟩ := axis m (fun i => i.1)
  refine ⟨⟨Z.addR (Z.divR (((p.2 : ℕ) : ℝ) - (n : ℝ) / 2) zf) (-Np.minOver S hne fun i => Z.divR (((i.2 : ℕ) : ℝ) - (n : ℝ) / 2) zf),
    Z.addR (Np.maxOver S hne fun i => Z.divR (((i.2 : ℕ) : ℝ) - (n : ℝ) / 2) zf) (-Z.divR (((p.2 : ℕ) : ℝ) - (n : ℝ) / 2) zf),
    Z.addR (Z.divR (((p.1 : ℕ) : ℝ) - (m : ℝ) / 2) zf) (-Np.minOver S hne fun i => Z.divR (((i.1 : ℕ) : ℝ) - (m : ℝ) / 2) zf),
    Z.addR (Np.maxOver S hne fun i => Z.divR (((i.1 : ℕ) : ℝ) - (m : ℝ) / 2) zf) (-Z.divR (((p.1 : ℕ) : ℝ) - (m : ℝ) / 2) zf)⟩,
    S, a, b, a', b', ?_, ?_, ?_, ha, hb, ha', hb', fun i hi => ⟨(hx1 i hi).1, (hx1 i hi).2, (hy1 i hi).1, (hy1 i hi).2⟩,
    hx2, hx3, hy2, hy3, hx4, hx5, hy4, hy5⟩
  · unfold chi2mapToErrorsA
    simp only []
    rw [dif_pos (show (univ.filter fun i => A.sub (c' i) (c' (Np.argmin c')) < thr).Nonempty from hne)]
  · intro i hi
    rw [hS, Finset.mem_filter]
    refine ⟨Finset.mem_univ _, ?_⟩
    have b := hi p
    have b1 := abs_le.1 (hE i)
    have b2 := abs_le.1 (hE p)
    have d : c' i - c' p < thr / (1 + δ) := by linarith [b1.1, b1.2, b2.1, b2.2]
    rw [lt_div_iff₀ (by linarith)] at d
    have := (abs_le.1 (hsub i)).2
    linarith
  · intro i hi j
    rw [hS, Finset.mem_filter] at hi
    have d : c' i - c' p < thr / (1 - δ) := by
      rw [lt_div_iff₀ (by linarith)]
      have := (abs_le.1 (hsub i)).1
      linarith [hi.2]
    have b0 := (Np.argmin_spec c').1 j
    have b1 := abs_le.1 (hE i)
    have b2 := abs_le.1 (hE j)
    linarith [b1.1, b1.2, b2.1, b2.2]

/-- with error-free operations `chi2map_to_errors` is the exact one -/
theorem chi2mapToErrorsA_exact {A : Chi2Arith} {Z : ZoomArith} (hA : Spec.Chi2Accurate A 0) (hZ : Spec.ZoomAccurate Z 0) {m n : ℕ}
    [NeZero m] [NeZero n] (st : Stats) (c : Fin m × Fin n → ℝ) (zf nsig nf : ℝ) (hzf : zf ≠ 0) :
    chi2mapToErrorsA A Z (sigmaToChi2 st nf nsig) c zf = chi2mapToErrors st c zf nsig nf := by
  have a1 : ∀ x y : ℝ, A.sub x y = x - y := by
    intro x y
    have := hA.base.sub x y
    rw [zero_mul, abs_nonpos_iff, sub_eq_zero] at this
    exact this
  have a2 : ∀ x : ℝ, Z.divR x zf = x / zf := by
    intro x
    have := hZ.divR x zf hzf
    rw [zero_mul, abs_nonpos_iff, sub_eq_zero] at this
    exact this
  have a3 : ∀ x y : ℝ, Z.addR x (-y) = x - y := by
    intro x y
    have := hZ.base.addR x (-y)
    rw [zero_mul, abs_nonpos_iff, sub_eq_zero] at this
    rw [this]; ring
  unfold chi2mapToErrorsA chi2mapToErrors
  simp only [a1, a2, a3]

theorem zoomCentre_grid (n : ℕ) [NeZero n] (q : Fin n) (u : ℝ) (s : ℕ) (i : Fin s) :
    Spec.zoomGrid (Spec.zoomCentre n q) u s i = Spec.gridShift n q u s i + (Spec.zeroLag n : ℕ) := by
  unfold Spec.zoomGrid Spec.gridShift Spec.zoomCentre
  rw [halfPix_eq]; ring

/-- everything about a call -/
theorem chi2ShiftA_core {A : Chi2Arith} {Z : ZoomArith} {δ : ℝ} (hA : Spec.Chi2Accurate A δ) (hZ : Spec.ZoomAccurate Z δ) (stats : Stats)
    (hst : Spec.validStats stats)
    (im1 im2 : Fin ny × Fin nx → Pix) (err : ErrArg ny nx) (us : UsFactor) (zm : Bool) (nf : ℝ) (mas : ℕ) (mns : ℝ)
    (hus : Spec.validUs ny mas us) (c : Fin ny × Fin nx → ℝ) (T : ℝ) (hT : ∀ i, |chi2MapA A im1 im2 err zm i - c i| ≤ T) :
    ∃ (q : Fin ny × Fin nx) (s1 s2 : ℕ) (_ : NeZero s1) (_ : NeZero s2), q = Np.argmin (chi2MapA A im1 im2 err zm) ∧
      (s1, s2) = Spec.gridSize ny nx mas us ∧
    ∃ (u : ℝ) (xv : Fin s2 → ℝ) (yv : Fin s1 → ℝ) (ups : Fin s1 × Fin s2 → ℝ), 0 < u ∧ Spec.nearFactor δ T c (mAuto stats mns nf) mas us u ∧
      chooseUpsampleA A Z (chi2MapA A im1 im2 err zm) us (mAuto stats mns nf) mas = .ok (u, s1, s2) ∧
      (∀ i, |yv i - Spec.gridShift ny q.1 u s1 i| ≤ Spec.reportErr δ ny q.1 u s1) ∧
      (∀ i, |xv i - Spec.gridShift nx q.2 u s2 i| ≤ Spec.reportErr δ nx q.2 u s2) ∧
      (∀ i, |ups i - (interp2C (fun i => (c i : ℂ)) (Spec.gridShift ny q.1 u s1 i.1 + (Spec.zeroLag ny : ℕ))
            (Spec.gridShift nx q.2 u s2 i.2 + (Spec.zeroLag nx : ℕ))).re| ≤ Spec.zoomErr δ T c q u s1 s2) ∧
      ∃ er, chi2mapToErrorsA A Z (sigmaToChi2 stats 2 1) ups u = .ok er ∧
      ∀ re rc, chi2ShiftA A Z stats im1 im2 err us zm nf re rc mas mns
        = .ok ([.num (-xv (Np.argmin ups).2), .num (-yv (Np.argmin ups).1)]
          ++ (if re then [.num (Z.addR er.xLow er.xHigh / 2), .num (Z.addR er.yLow er.yHigh / 2)] else []) ++ if rc then [.arrays s1 s2 (fun i => xv i.2) (fun i => yv i.1) ups] else []) := by
  obtain ⟨hp1, hp2⟩ := gridSize_pos (ny := ny) (nx := nx) mas us hus
  obtain ⟨u, hch, hu, hnf⟩ := chooseUpsampleA_near hA hZ hT us (mAuto stats mns nf) mas hus
  generalize hg : Spec.gridSize ny nx mas us = g at hch hp1 hp2
  obtain ⟨s1, s2⟩ := g
  have i1 : NeZero s1 := ⟨hp1.ne'⟩
  have i2 : NeZero s2 := ⟨hp2.ne'⟩
  set c' := chi2MapA A im1 im2 err zm with hc'
  set q := Np.argmin c' with hq
  have tn : ∀ t : ℝ, Near t t ((1 + δ) * |t|) |t| := fun t =>
    (Near.refl t).mono (le_mul_of_one_le_left (abs_nonneg _) (by have := hZ.nonneg; linarith))
  have ay := fun i => zoomAxisA_near hZ hu.ne' (tn (Spec.zoomCentre ny q.1)) s1 i
  have ax := fun i => zoomAxisA_near hZ hu.ne' (tn (Spec.zoomCentre nx q.2)) s2 i
  have rep : ∀ {n : ℕ} [NeZero n] (q : Fin n) (s : ℕ) (i : Fin s) (g : ℝ), Near g (Spec.zoomGrid (Spec.zoomCentre n q) u s i)
      ((1 + δ) ^ 3 * Spec.zoomReach (Spec.zoomCentre n q) u s) (Spec.zoomReach (Spec.zoomCentre n q) u s) →
      |Z.addR g (-chi2Centre n) - Spec.gridShift n q u s i| ≤ Spec.reportErr δ n q u s := by
    intro n _ q s i g hg
    rw [chi2Centre_eq]
    have h := (hg.add (Near.refl (-((Spec.zeroLag n : ℕ) : ℝ)))).step hZ.nonneg (hZ.base.addR _ _)
    rw [zoomCentre_grid] at h
    have e : Spec.gridShift n q u s i + (Spec.zeroLag n : ℕ) + -((Spec.zeroLag n : ℕ) : ℝ) = Spec.gridShift n q u s i := by ring
    rw [e, abs_neg, abs_of_nonneg (Nat.cast_nonneg _)] at h
    refine h.dist.trans ?_
    unfold Spec.reportErr
    have h3 : 1 ≤ (1 + δ) ^ 3 := one_le_pow₀ (by have := hZ.nonneg; linarith)
    have z0 : (0 : ℝ) ≤ ((Spec.zeroLag n : ℕ) : ℝ) := Nat.cast_nonneg _
    have h4 := mul_le_mul_of_nonneg_right h3 (mul_nonneg (by have := hZ.nonneg; linarith : (0 : ℝ) ≤ 1 + δ) z0)
    have e2 : ((1 + δ) ^ 4 - 1) * (Spec.zoomReach (Spec.zoomCentre n q) u s + ((Spec.zeroLag n : ℕ) : ℝ))
      = (1 + δ) * ((1 + δ) ^ 3 * Spec.zoomReach (Spec.zoomCentre n q) u s) + (1 + δ) ^ 3 * ((1 + δ) * ((Spec.zeroLag n : ℕ) : ℝ))
        - (Spec.zoomReach (Spec.zoomCentre n q) u s + ((Spec.zeroLag n : ℕ) : ℝ)) := by ring
    rw [e2]; linarith
  obtain ⟨er, -, -, -, -, -, her, -⟩ := chi2mapToErrorsA_near hA hZ (c' := fun i => (interp2A Z (fun i => (c' i : ℂ))
    (zoomAxisA Z (Spec.zoomCentre ny q.1) u s1) (zoomAxisA Z (Spec.zoomCentre nx q.2) u s2) i).re)
    (c := fun i => (interp2A Z (fun i => (c' i : ℂ))
    (zoomAxisA Z (Spec.zoomCentre ny q.1) u s1) (zoomAxisA Z (Spec.zoomCentre nx q.2) u s2) i).re) (E := 0) (by simp)
    (sigmaToChi2 stats 2 1) (sigma_pos stats hst) u hu
  refine ⟨q, s1, s2, i1, i2, rfl, rfl, u, fun i => Z.addR (zoomAxisA Z (Spec.zoomCentre nx q.2) u s2 i) (-chi2Centre nx),
    fun i => Z.addR (zoomAxisA Z (Spec.zoomCentre ny q.1) u s1 i) (-chi2Centre ny),
    fun i => (interp2A Z (fun i => (c' i : ℂ)) (zoomAxisA Z (Spec.zoomCentre ny q.1) u s1) (zoomAxisA Z (Spec.zoomCentre nx q.2) u s2) i).re,
    hu, hnf, hch, fun i => rep q.1 s1 i _ (ay i), fun i => rep q.2 s2 i _ (ax i), fun i => ?_, er, her, fun re rc => ?_⟩
  · have hT0 : 0 ≤ T := (abs_nonneg _).trans (hT q)
    have hd : l2 (fun p => (c' p : ℂ) - (c p : ℂ)) ≤ Real.sqrt ((ny : ℝ) * nx) * T := by
      have e : (fun p => (c' p : ℂ) - (c p : ℂ)) = fun p => ((c' p - c p : ℝ) : ℂ) := by funext p; push_cast; rfl
      rw [e, l2_ofReal]
      have h := r2_wmul (a := fun _ => 1) (w := fun p => c' p - c p) hT hT0
      have e2 : r2 (fun _ : Fin ny × Fin nx => (1 : ℝ)) = Real.sqrt ((ny : ℝ) * nx) := by unfold r2; simp
      rw [e2] at h
      simp only [mul_one] at h
      linarith
    have hc : l2 (fun p => (c p : ℂ)) = Real.sqrt (∑ i, c i ^ 2) := l2_ofReal c
    have h1 : l2 (fun p => (c' p : ℂ)) ≤ Real.sqrt (∑ i, c i ^ 2) + Real.sqrt ((ny : ℝ) * nx) * T := by
      have := l2_add (fun p => (c' p : ℂ) - (c p : ℂ)) (fun p => (c p : ℂ))
      simp only [sub_add_cancel] at this
      linarith
    have h := interp2A_near hZ h1 hc.le (by linarith) (oy' := zoomAxisA Z (Spec.zoomCentre ny q.1) u s1)
      (ox' := zoomAxisA Z (Spec.zoomCentre nx q.2) u s2) i (ay i.1) (ax i.2)
    rw [← zoomCentre_grid, ← zoomCentre_grid]
    have h2 := (Complex.abs_re_le_norm _).trans h
    rw [Complex.sub_re] at h2
    refine h2.trans (le_of_eq ?_)
    unfold Spec.zoomErr Spec.interp2Err
    ring
  · unfold chi2ShiftA
    simp only [← hc', ← hq, hch, bind, Except.bind, pure, Except.pure]
    rw [dif_pos ⟨hp1.ne', hp2.ne'⟩]
    have e1 : ((ny : ℝ) - 1) / 2 + (((q.1 : ℕ) : ℝ) - chi2Centre ny) = Spec.zoomCentre ny q.1 := by rw [chi2Centre_eq]; rfl
    have e2 : ((nx : ℝ) - 1) / 2 + (((q.2 : ℕ) : ℝ) - chi2Centre nx) = Spec.zoomCentre nx q.2 := by rw [chi2Centre_eq]; rfl
    simp only [e1, e2, zoom2A, her]
    cases re <;> cases rc <;> rfl

/-- C114: however the rounding errors fall, `chi2_shift` reports (minus), up to the rounding of the coordinates themselves, a point of a grid around a pixel
whose exact chi-squared is within twice the map's error bound of the smallest one, and at this point the exact zoomed map is within twice
`Spec.zoomErr` of its smallest value on the grid. This holds for all images (NaNs included), all errors, `'auto'` and every given factor. -/
theorem C114_near_optimal (A : Chi2Arith) (Z : ZoomArith) (δ : ℝ) (hA : Spec.Chi2Accurate A δ) (hZ : Spec.ZoomAccurate Z δ) (cfg : FFTConfig)
    (st : Stats) (hst : Spec.validStats st) (im1 im2 : Fin ny × Fin nx → Pix) (err : ErrArg ny nx) (hs : ∀ s, err = .scalar s → s ≠ 0) (us : UsFactor) (zm : Bool)
    (nf : ℝ) (mas : ℕ) (mns : ℝ) (hus : Spec.validUs ny mas us) :
    ∃ c : Fin ny × Fin nx → ℝ, chi2nMap cfg im1 im2 err zm false false true = .ok (.only c) ∧
    ∃ (q : Fin ny × Fin nx) (u dx dy : ℝ) (s1 s2 : ℕ) (best : Fin s1 × Fin s2) (cube : Arr) (z : Fin s1 × Fin s2 → ℝ),
      (∀ i, c q ≤ c i + 2 * Spec.chi2Err δ zm im1 im2 err) ∧
      Spec.nearFactor δ (Spec.chi2Err δ zm im1 im2 err) c (mAuto st mns nf) mas us u ∧ (s1, s2) = Spec.gridSize ny nx mas us ∧
      zoomnd2 cfg (rArr c) [((q.1 : ℕ) : ℝ) - ((ny - 1) / 2 : ℕ), ((q.2 : ℕ) : ℝ) - ((nx - 1) / 2 : ℕ)] id u (some (s1, s2)) true true
        = .ok (.withX cube ⟨s1, s2, .real (realArr z)⟩) ∧
      (∀ i, z best ≤ z i + 2 * Spec.zoomErr δ (Spec.chi2Err δ zm im1 im2 err) c q u s1 s2) ∧
      chi2ShiftA A Z st im1 im2 err us zm nf false false mas mns = .ok [.num dx, .num dy] ∧
      |dx - (((nx - 1) / 2 : ℕ) - cube.val [1, best.1, best.2])| ≤ Spec.reportErr δ nx q.2 u s2 ∧
      |dy - (((ny - 1) / 2 : ℕ) - cube.val [0, best.1, best.2])| ≤ Spec.reportErr δ ny q.1 u s1 := by
  obtain ⟨c, h1, h2⟩ := C113_map_error A δ hA cfg im1 im2 err hs zm
  obtain ⟨q, s1, s2, i1, i2, hq, hg, u, xv, yv, ups, hu, hnf, -, hy, hx, hz, er, her, hres⟩ :=
    chi2ShiftA_core hA hZ st hst im1 im2 err us zm nf mas mns hus c _ h2
  obtain ⟨cube, hv, hzm⟩ := zoomnd2_chi2 cfg c (((q.1 : ℕ) : ℝ) - ((ny - 1) / 2 : ℕ)) (((q.2 : ℕ) : ℝ) - ((nx - 1) / 2 : ℕ)) u hu.ne' s1 s2
    (Nat.pos_of_ne_zero (NeZero.ne s1)) (Nat.pos_of_ne_zero (NeZero.ne s2))
  have gy : ∀ i, Spec.zoomGrid (((ny : ℝ) - 1) / 2 + (((q.1 : ℕ) : ℝ) - ((ny - 1) / 2 : ℕ))) u s1 i
      = Spec.gridShift ny q.1 u s1 i + (Spec.zeroLag ny : ℕ) := fun i => zoomCentre_grid ny q.1 u s1 i
  have gx : ∀ i, Spec.zoomGrid (((nx : ℝ) - 1) / 2 + (((q.2 : ℕ) : ℝ) - ((nx - 1) / 2 : ℕ))) u s2 i
      = Spec.gridShift nx q.2 u s2 i + (Spec.zeroLag nx : ℕ) := fun i => zoomCentre_grid nx q.2 u s2 i
  simp only [gy, gx] at hv hzm
  refine ⟨c, h1, q, u, -xv (Np.argmin ups).2, -yv (Np.argmin ups).1, s1, s2, Np.argmin ups, cube, _, ?_, hnf, hg, hzm, argmin_near hz,
    (hres false false).trans rfl, ?_, ?_⟩
  · rw [hq]; exact argmin_near h2
  · rw [(hv _ _).2]
    have e : -xv (Np.argmin ups).2 - ((((nx - 1) / 2 : ℕ) : ℝ) - (Spec.gridShift nx q.2 u s2 (Np.argmin ups).2 + (Spec.zeroLag nx : ℕ)))
        = -(xv (Np.argmin ups).2 - Spec.gridShift nx q.2 u s2 (Np.argmin ups).2) := by
      have : (((nx - 1) / 2 : ℕ) : ℝ) = ((Spec.zeroLag nx : ℕ) : ℝ) := rfl
      rw [this]; ring
    rw [e, abs_neg]; exact hx _
  · rw [(hv _ _).1]
    have e : -yv (Np.argmin ups).1 - ((((ny - 1) / 2 : ℕ) : ℝ) - (Spec.gridShift ny q.1 u s1 (Np.argmin ups).1 + (Spec.zeroLag ny : ℕ)))
        = -(yv (Np.argmin ups).1 - Spec.gridShift ny q.1 u s1 (Np.argmin ups).1) := by
      have : (((ny - 1) / 2 : ℕ) : ℝ) = ((Spec.zeroLag ny : ℕ) : ℝ) := rfl
      rw [this]; ring
    rw [e, abs_neg]; exact hy _

/-- C114: without an error image the same in terms of the images. The reported `(dx, dy)` is within rounding of shifts `(-xs, -ys)` on the
grid such that shifting `im2` by `(xs, ys)` fits `im1` as well as shifting it to any other point of the grid, up to `2·zoomErr`. -/
theorem C114_fits_near_optimal (A : Chi2Arith) (Z : ZoomArith) (δ : ℝ) (hA : Spec.Chi2Accurate A δ) (hZ : Spec.ZoomAccurate Z δ)
    (cfg : FFTConfig) (st : Stats) (hst : Spec.validStats st) (im1 im2 : Fin ny × Fin nx → ℝ) (err : ErrArg ny nx) (s : ℝ) (hs0 : s ≠ 0) (herr : Spec.isScalarErr err s)
    (us : UsFactor) (nf : ℝ) (mas : ℕ) (mns : ℝ) (hus : Spec.validUs ny mas us) :
    ∃ c : Fin ny × Fin nx → ℝ, chi2nMap cfg (realArr im1) (realArr im2) err false false false true = .ok (.only c) ∧
    ∃ (q : Fin ny × Fin nx) (u dx dy xs ys : ℝ) (s1 s2 : ℕ), (s1, s2) = Spec.gridSize ny nx mas us ∧
      Spec.nearFactor δ (Spec.chi2Err δ false (realArr im1) (realArr im2) err) c (mAuto st mns nf) mas us u ∧
      chi2ShiftA A Z st (realArr im1) (realArr im2) err us false nf false false mas mns = .ok [.num dx, .num dy] ∧
      |dx - -xs| ≤ Spec.reportErr δ nx q.2 u s2 ∧ |dy - -ys| ≤ Spec.reportErr δ ny q.1 u s1 ∧
      ∀ i : Fin s1 × Fin s2, ∃ y0 y : Fin ny × Fin nx → ℂ, shift2d cfg (rArr im2) xs ys 0 false false = .cplx (cArr y0) ∧
        shift2d cfg (rArr im2) (Spec.gridShift nx q.2 u s2 i.2) (Spec.gridShift ny q.1 u s1 i.1) 0 false false = .cplx (cArr y) ∧
        ∑ p, ‖(im1 p : ℂ) - y0 p‖ ^ 2 / s ^ 2 ≤ ∑ p, ‖(im1 p : ℂ) - y p‖ ^ 2 / s ^ 2
          + 2 * Spec.zoomErr δ (Spec.chi2Err δ false (realArr im1) (realArr im2) err) c q u s1 s2 := by
  have hs : ∀ t, err = .scalar t → t ≠ 0 := by
    rintro t rfl
    have : s = t := herr
    rwa [← this]
  obtain ⟨c, h1, h2⟩ := C113_map_error A δ hA cfg (realArr im1) (realArr im2) err hs false
  obtain ⟨q, s1, s2, i1, i2, hq, hg, u, xv, yv, ups, hu, hnf, -, hy, hx, hz, er, her, hres⟩ :=
    chi2ShiftA_core hA hZ st hst (realArr im1) (realArr im2) err us false nf mas mns hus c _ h2
  have hc : c = fun i => Spec.chi2 im1 im2 (fun _ => s) (Spec.lag ny i.1) (Spec.lag nx i.2) := by
    obtain ⟨m, e1, e2⟩ := chi2nMapBody_chi2 cfg (realArr im1) (realArr im2) err false true (.inl rfl)
    have e3 : chi2nMap cfg (realArr im1) (realArr im2) err false false false true = .ok (.only m.chi2) := by rw [chi2nMap_same, e1]; rfl
    have e4 : c = m.chi2 := by
      have := h1.symm.trans e3
      simpa using this
    have pr : ∀ a : Fin ny × Fin nx → ℝ, prep false (realArr a) = a := by
      intro a; rw [prep_real]; funext p; simp
    funext i
    rw [e4, e2, pr, pr, scalarErr_errOf herr, scalarErr_maskOf herr, scalarErr_maskOf herr]
  have hval : ∀ i : Fin s1 × Fin s2, (interp2C (fun i => (c i : ℂ)) (Spec.gridShift ny q.1 u s1 i.1 + (Spec.zeroLag ny : ℕ))
      (Spec.gridShift nx q.2 u s2 i.2 + (Spec.zeroLag nx : ℕ))).re
      = Spec.resid im1 im2 s (Spec.gridShift ny q.1 u s1 i.1) (Spec.gridShift nx q.2 u s2 i.2) := by
    intro i
    have e : (fun i => (c i : ℂ)) = fun i => ((Spec.chi2 im1 im2 (fun _ => s) (Spec.lag ny i.1) (Spec.lag nx i.2) : ℝ) : ℂ) := by rw [hc]
    rw [e, interp2C_chi2, add_sub_cancel_right, add_sub_cancel_right]
  simp only [hval] at hz
  have hsh : ∀ dy dx : ℝ, shift2d cfg (rArr im2) dx dy 0 false false = .cplx (cArr (cshift dy dx im2)) := by
    intro dy dx
    rw [shift2d_eq, denan_rArr]
    simp only [shiftKernel_zero]
    rw [shiftReturn_cplx]; rfl
  refine ⟨c, h1, q, u, -xv (Np.argmin ups).2, -yv (Np.argmin ups).1, Spec.gridShift nx q.2 u s2 (Np.argmin ups).2,
    Spec.gridShift ny q.1 u s1 (Np.argmin ups).1, s1, s2, hg, hnf, (hres false false).trans rfl, ?_, ?_, fun i => ?_⟩
  · rw [neg_sub_neg, abs_sub_comm]; exact hx _
  · rw [neg_sub_neg, abs_sub_comm]; exact hy _
  · exact ⟨_, _, hsh _ _, hsh _ _, argmin_near hz i⟩

/-- C114: rounding changes the answer only by the rounding of the reported numbers when both minima are clear: for a given factor, if the exact map
`c` has a pixel `q` below all others by more than twice its error bound, and the exact upsampled map (as returned by `return_chi2array`) a point
below all others by more than `2·zoomErr`, then the reported shift is within `Spec.reportErr` of the one of exact arithmetic. -/
theorem C114_same_answer (A : Chi2Arith) (Z : ZoomArith) (δ : ℝ) (hA : Spec.Chi2Accurate A δ) (hZ : Spec.ZoomAccurate Z δ) (cfg : FFTConfig)
    (st : Stats) (hst : Spec.validStats st) (im1 im2 : Fin ny × Fin nx → Pix) (err : ErrArg ny nx) (hs : ∀ s, err = .scalar s → s ≠ 0)
    (us : UsFactor) (u : ℝ) (hu : (∃ k : ℕ, us = .int k ∧ u = k) ∨ us = .float u) (zm : Bool) (nf : ℝ) (mas : ℕ) (mns : ℝ)
    (hus : Spec.validUs ny mas us) (c : Fin ny × Fin nx → ℝ) (hc : chi2nMap cfg im1 im2 err zm false false true = .ok (.only c))
    (q : Fin ny × Fin nx) (hq : ∀ i, i ≠ q → c q + 2 * Spec.chi2Err δ zm im1 im2 err < c i) (dx dy : ℝ) (s1 s2 : ℕ)
    (xv yv z : Fin s1 × Fin s2 → ℝ)
    (hz : chi2Shift cfg st im1 im2 err us zm nf false false true mas mns true = .ok [.num dx, .num dy, .arrays s1 s2 xv yv z])
    (best : Fin s1 × Fin s2)
    (hb : ∀ i, i ≠ best → z best + 2 * Spec.zoomErr δ (Spec.chi2Err δ zm im1 im2 err) c q u s1 s2 < z i) :
    ∃ dx' dy', chi2ShiftA A Z st im1 im2 err us zm nf false false mas mns = .ok [.num dx', .num dy'] ∧
      |dx' - dx| ≤ Spec.reportErr δ nx q.2 u s2 ∧ |dy' - dy| ≤ Spec.reportErr δ ny q.1 u s1 := by
  obtain ⟨a1, a2⟩ := C113_same_pixel A δ hA cfg im1 im2 err hs zm c hc q hq
  have h2 : ∀ i, |chi2MapA A im1 im2 err zm i - c i| ≤ Spec.chi2Err δ zm im1 im2 err := by
    obtain ⟨c', e1, e2⟩ := C113_map_error A δ hA cfg im1 im2 err hs zm
    have e : c = c' := by
      have := hc.symm.trans e1
      simpa using this
    rw [e]; exact e2
  obtain ⟨q', t1, t2, i1, i2, hq', hg, u', xw, yw, ups, hu', hnf, -, hy, hx, hzz, er1, her1, hres⟩ :=
    chi2ShiftA_core hA hZ st hst im1 im2 err us zm nf mas mns hus c _ h2
  rw [a1] at hq'
  subst hq'
  have hu2 : u' = u := by
    rcases hu with ⟨k, rfl, rfl⟩ | rfl
    · exact hnf
    · exact hnf
  subst hu2
  obtain ⟨cm, hcm, r1, r2, j1, j2, hg', u2, hu2, -, yv', xv', hyv, hxv, z', hz', er, -, hres'⟩ :=
    chi2Shift_ok cfg st hst im1 im2 err us zm nf mas mns true (.inl rfl) hus
  have ec : cm.chi2 = c := by
    have e3 : chi2nMap cfg im1 im2 err zm false false true = .ok (.only cm.chi2) := by rw [chi2nMap_same, hcm]; rfl
    have := e3.symm.trans hc
    simpa using this
  have eu : u2 = u' := by
    rcases hu with ⟨k, rfl, rfl⟩ | rfl
    · exact hu2
    · exact hu2
  subst eu
  have es := hg.trans hg'.symm
  obtain ⟨rfl, rfl⟩ := Prod.mk.inj es
  have hl := (hres' false true).symm.trans hz
  simp only [Spec.layout, Bool.false_eq_true, if_false, if_true, List.append_nil, List.cons_append, List.nil_append, Except.ok.injEq,
    List.cons.injEq, RetVal.num.injEq, and_true] at hl
  obtain ⟨l1, l2, l3⟩ := hl
  injection l3 with k1 k2 k3 k4 k5
  subst k1 k2
  have k5 := eq_of_heq k5
  subst k5
  rw [ec, a2] at hyv hxv
  rw [ec] at hz'
  have hzz' : ∀ i, |ups i - z' i| ≤ Spec.zoomErr δ (Spec.chi2Err δ zm im1 im2 err) c q' u2 t1 t2 := by
    intro i
    rw [hz', hyv, hxv]
    exact hzz i
  have b1 : Np.argmin ups = best := by
    apply Np.argmin_eq_of_unique
    intro j hj
    have := hb j hj
    have p1 := abs_le.1 (hzz' j)
    have p2 := abs_le.1 (hzz' best)
    linarith [p1.1, p1.2, p2.1, p2.2]
  have b2 : Np.argmin z' = best := by
    apply Np.argmin_eq_of_unique
    intro j hj
    have := hb j hj
    have p1 := (abs_nonneg _).trans (hzz' best)
    linarith
  refine ⟨_, _, (hres false false).trans rfl, ?_, ?_⟩
  · rw [← l1, b1, b2, hxv, neg_sub_neg, abs_sub_comm]; exact hx _
  · rw [← l2, b1, b2, hyv, neg_sub_neg, abs_sub_comm]; exact hy _

/-- C114: with error-free operations the inexact model is the exact one. -/
theorem C114_exact_arithmetic (A : Chi2Arith) (Z : ZoomArith) (hA : Spec.Chi2Accurate A 0) (hZ : Spec.ZoomAccurate Z 0) (cfg : FFTConfig)
    (st : Stats) (hst : Spec.validStats st) (im1 im2 : Fin ny × Fin nx → Pix) (err : ErrArg ny nx) (hs : ∀ s, err = .scalar s → s ≠ 0)
    (us : UsFactor) (zm : Bool) (nf : ℝ) (re rc : Bool) (mas : ℕ) (mns : ℝ) (hus : Spec.validUs ny mas us) :
    chi2ShiftA A Z st im1 im2 err us zm nf re rc mas mns = chi2Shift cfg st im1 im2 err us zm nf false re rc mas mns true := by
  have hc := C113_exact_arithmetic A hA cfg im1 im2 err hs zm
  obtain ⟨q, s1, s2, i1, i2, hq, hg, u, xv, yv, ups, hu, hnf, hch, hy, hx, hz, er, her, hres⟩ :=
    chi2ShiftA_core hA hZ st hst im1 im2 err us zm nf mas mns hus (chi2MapA A im1 im2 err zm) 0 (by simp)
  obtain ⟨cm, hcm, r1, r2, j1, j2, hg', u2, hu2, -, yv', xv', hyv, hxv, z', hz', er', her', hres'⟩ :=
    chi2Shift_ok cfg st hst im1 im2 err us zm nf mas mns true (.inl rfl) hus
  have ec : cm.chi2 = chi2MapA A im1 im2 err zm := by
    have e3 : chi2nMap cfg im1 im2 err zm false false true = .ok (.only cm.chi2) := by rw [chi2nMap_same, hcm]; rfl
    have := e3.symm.trans hc
    simpa using this
  rw [ec] at hu2 hyv hxv hz'
  obtain ⟨rfl, rfl⟩ := Prod.mk.inj (hg.trans hg'.symm)
  have eu : u = u2 := by
    have e1 := chooseUpsample_eq (nx := nx) (chi2MapA A im1 im2 err zm) us (mAuto st mns nf) mas false (Or.inl rfl) hus
    have e2 : chooseUpsampleA A Z (chi2MapA A im1 im2 err zm) us (mAuto st mns nf) mas
        = chooseUpsample (chi2MapA A im1 im2 err zm) us (mAuto st mns nf) mas false := by
      cases us with
      | int k => rfl
      | float v => rfl
      | auto =>
        rw [e1]
        have a1 : ∀ x y : ℝ, A.sub x y = x - y := by
          intro x y
          have := hA.base.sub x y
          rw [zero_mul, abs_nonpos_iff, sub_eq_zero] at this
          exact this
        have a2 : ∀ x y : ℝ, y ≠ 0 → Z.divR x y = x / y := by
          intro x y hy
          have := hZ.divR x y hy
          rw [zero_mul, abs_nonpos_iff, sub_eq_zero] at this
          exact this
        have hr := regionSize_pos (chi2MapA A im1 im2 err zm) (mAuto st mns nf)
        unfold chooseUpsampleA
        simp only [a1]
        have e : ∀ r : ℝ, r = Spec.regionSize (chi2MapA A im1 im2 err zm) (mAuto st mns nf) →
            (Except.ok (if Z.divR ((mas : ℝ) / 2) r < 1 then 1 else Z.divR ((mas : ℝ) / 2) r, mas, mas) : Py (ℝ × ℕ × ℕ))
            = .ok (Spec.usUsed (chi2MapA A im1 im2 err zm) (mAuto st mns nf) mas .auto, Spec.gridSize ny nx mas .auto) := by
          rintro r rfl
          rw [a2 _ _ (by linarith)]
          simp only [Spec.usUsed, Spec.gridSize]
          congr 2
          split_ifs with h
          · exact (max_eq_left h.le).symm
          · exact (max_eq_right (not_lt.1 h)).symm
        apply e
        unfold Spec.regionSize
        congr!
    rw [e2, e1] at hch
    have := congrArg (fun x => match (motive := Py (ℝ × ℕ × ℕ) → ℝ) x with | .ok y => y.1 | .error _ => 0) hch
    exact this.symm.trans hu2.symm
  subst eu
  have r0 : ∀ (n : ℕ) (q : Fin n) (s : ℕ), Spec.reportErr 0 n q u s = 0 := by
    intro n q s; unfold Spec.reportErr; norm_num
  have z0 : Spec.zoomErr 0 0 (chi2MapA A im1 im2 err zm) q u s1 s2 = 0 := by
    unfold Spec.zoomErr Spec.interp2Err Spec.kernelErr; norm_num
  have hyv' : (fun i : Fin s1 × Fin s2 => yv i.1) = yv' := by
    funext i
    have := hy i.1
    rw [r0, abs_nonpos_iff, sub_eq_zero] at this
    rw [this, hyv, hq]
  have hxv' : (fun i : Fin s1 × Fin s2 => xv i.2) = xv' := by
    funext i
    have := hx i.2
    rw [r0, abs_nonpos_iff, sub_eq_zero] at this
    rw [this, hxv, hq]
  have hzv : ups = z' := by
    funext i
    have := hz i
    rw [z0, abs_nonpos_iff, sub_eq_zero] at this
    rw [this, hz', hyv, hxv, hq]
  rw [hres, hres' re rc]
  subst hzv
  have e0 : er = er' := by
    rw [chi2mapToErrorsA_exact hA hZ st ups u 1 2 hu.ne', her'] at her
    exact (Except.ok.inj her).symm
  subst e0
  have ad : ∀ x y : ℝ, Z.addR x y = x + y := by
    intro x y
    have := hZ.base.addR x y
    rw [zero_mul, abs_nonpos_iff, sub_eq_zero] at this
    exact this
  rw [ad, ad]
  rw [← hyv', ← hxv']
  cases re <;> cases rc <;> rfl

/-- C114: whole-pixel displacements survive rounding and noise all the way to the reported numbers. Let `im2` be `im1` rolled by
`(dy, dx)`, `-n ≤ 2d < n`, plus any disturbance `noise`, and let `σ` be the errors (one nonzero number, or an error image without zero
or NaN pixels). If `im1` rolled by `(dy, dx)` differs from every other roll of `im1` by more than four times the noise plus four times
`Spec.zoomErr`, then `chi2_shift` with `upsample_factor=1` reports `(dx, dy)` up to `Spec.reportErr`. -/
theorem C114_recovers_roll (A : Chi2Arith) (Z : ZoomArith) (δ : ℝ) (hA : Spec.Chi2Accurate A δ) (hZ : Spec.ZoomAccurate Z δ) (st : Stats)
    (hst : Spec.validStats st)
    (im1 noise : Fin ny × Fin nx → ℝ) (dy dx : ℤ) (hny : 2 ≤ ny) (ly : -(ny : ℤ) ≤ 2 * dy) (uy : 2 * dy < ny) (lx : -(nx : ℤ) ≤ 2 * dx)
    (ux : 2 * dx < nx) (err : ErrArg ny nx) (σ : Fin ny × Fin nx → ℝ) (hσ : ∀ p, σ p ≠ 0)
    (he : (∃ s, Spec.isScalarErr err s ∧ ∀ p, σ p = s) ∨ err = .image (realArr σ)) (cfg : FFTConfig) (c : Fin ny × Fin nx → ℝ)
    (hc : chi2nMap cfg (realArr im1) (realArr fun p => Spec.roll2 dy dx im1 p + noise p) err false false false true = .ok (.only c))
    (q : Fin ny × Fin nx) (hq : q = (Spec.wrap ny (((ny - 1) / 2 : ℕ) - dy), Spec.wrap nx (((nx - 1) / 2 : ℕ) - dx)))
    (hnoise : ∀ ey ex : ℤ, ¬ (ey ≡ dy [ZMOD ny] ∧ ex ≡ dx [ZMOD nx]) →
      4 * ∑ p, noise p ^ 2 / σ p ^ 2 + 4 * Spec.zoomErr δ (Spec.chi2Err δ false (realArr im1)
          (realArr fun p => Spec.roll2 dy dx im1 p + noise p) err) c q 1 ny nx
        < ∑ p, (Spec.roll2 ey ex im1 p - Spec.roll2 dy dx im1 p) ^ 2 / σ p ^ 2) (nf : ℝ) (mas : ℕ) (mns : ℝ) :
    ∃ x y, chi2ShiftA A Z st (realArr im1) (realArr fun p => Spec.roll2 dy dx im1 p + noise p) err (.int 1) false nf false false mas mns
        = .ok [.num x, .num y] ∧
      |x - dx| ≤ Spec.reportErr δ nx q.2 1 nx ∧ |y - dy| ≤ Spec.reportErr δ ny q.1 1 ny := by
  set im2 := realArr fun p => Spec.roll2 dy dx im1 p + noise p with him2
  set T := Spec.chi2Err δ false (realArr im1) im2 err with hT
  have hs : ∀ s, err = .scalar s → s ≠ 0 := by
    rintro s rfl
    rcases he with ⟨t, ht, ht'⟩ | h
    · have h1 : t = s := ht
      rw [← h1, ← ht' ((0 : Fin ny), (0 : Fin nx))]
      exact hσ _
    · cases h
  have h2 : ∀ i, |chi2MapA A (realArr im1) im2 err false i - c i| ≤ T := by
    obtain ⟨c', e1, e2⟩ := C113_map_error A δ hA cfg (realArr im1) im2 err hs false
    have e : c = c' := by
      have := hc.symm.trans e1
      simpa using this
    rw [e]; exact e2
  have hT0 : 0 ≤ T := (abs_nonneg _).trans (h2 q)
  have hTz : T ≤ Spec.zoomErr δ T c q 1 ny nx := by
    have h0 := hZ.nonneg
    have k1 := kernelErr_nonneg h0 7 (zoomReach_nonneg (Spec.zoomCentre ny q.1) 1 ny)
    have k2 := kernelErr_nonneg h0 7 (zoomReach_nonneg (Spec.zoomCentre nx q.2) 1 nx)
    have k3 : 1 ≤ (1 + δ) ^ 3 := one_le_pow₀ (by linarith)
    have k4 : 0 ≤ Spec.interp2Err δ 7 (Spec.zoomReach (Spec.zoomCentre ny q.1) 1 ny) (Spec.zoomReach (Spec.zoomCentre nx q.2) 1 nx) := by
      unfold Spec.interp2Err
      have := one_le_mul_of_one_le_of_one_le (one_le_mul_of_one_le_of_one_le k3 (by linarith : (1 : ℝ) ≤ 1 + Spec.kernelErr δ 7 (Real.pi *
        Spec.zoomReach (Spec.zoomCentre ny q.1) 1 ny))) (by linarith : (1 : ℝ) ≤ 1 + Spec.kernelErr δ 7 (Real.pi *
        Spec.zoomReach (Spec.zoomCentre nx q.2) 1 nx))
      linarith
    have k5 : 1 ≤ Real.sqrt ((ny : ℝ) * nx) := by
      rw [Real.one_le_sqrt]
      exact_mod_cast Nat.succ_le_of_lt (Nat.mul_pos (Nat.pos_of_ne_zero (NeZero.ne ny)) (Nat.pos_of_ne_zero (NeZero.ne nx)))
    have k6 : T ≤ Real.sqrt ((ny : ℝ) * nx) * T := le_mul_of_one_le_left hT0 k5
    have k7 : 0 ≤ Real.sqrt (∑ i, c i ^ 2) := Real.sqrt_nonneg _
    have k8 := mul_nonneg k4 (by linarith : 0 ≤ Real.sqrt (∑ i, c i ^ 2) + Real.sqrt ((ny : ℝ) * nx) * T)
    unfold Spec.zoomErr
    linarith
  -- the exact map
  obtain ⟨cm, hcm, hchi⟩ := chi2nMapBody_chi2 cfg (realArr im1) im2 err false true (.inl rfl)
  have ec : cm.chi2 = c := by
    have e3 : chi2nMap cfg (realArr im1) im2 err false false false true = .ok (.only cm.chi2) := by rw [chi2nMap_same, hcm]; rfl
    have := e3.symm.trans hc
    simpa using this
  have hchi' : ∀ i, c i = ∑ p, (Spec.roll2 (Spec.lag ny i.1) (Spec.lag nx i.2) im1 p
      - (Spec.roll2 dy dx im1 p + noise p)) ^ 2 / σ p ^ 2 := by
    intro i
    rw [← ec, hchi, chi2_eq_roll, him2]
    have pr : ∀ a : Fin ny × Fin nx → ℝ, prep false (realArr a) = a := by
      intro a; rw [prep_real]; funext p; simp
    rw [pr, pr]
    rcases he with ⟨s, hs, hs'⟩ | rfl
    · rw [scalarErr_errOf hs, scalarErr_maskOf hs, scalarErr_maskOf hs]
      simp only [hs']
    · have e1 : Spec.errOf (.image (realArr σ)) = σ := by
        funext p; simp [Spec.errOf, realArr, Spec.nan0, hσ p]
      have e2 : ∀ a : Fin ny × Fin nx → ℝ, Spec.maskOf (.image (realArr σ)) a = a := by
        intro a; funext p; simp [Spec.maskOf, realArr, Spec.nan0, hσ p]
      rw [e1, e2, e2]
  have l1 : Spec.lag ny q.1 ≡ dy [ZMOD ny] := by rw [hq]; exact Spec.lag_wrap ny dy
  have l2 : Spec.lag nx q.2 ≡ dx [ZMOD nx] := by rw [hq]; exact Spec.lag_wrap nx dx
  have h0 : c q = ∑ p, noise p ^ 2 / σ p ^ 2 := by
    rw [hchi']
    refine Finset.sum_congr rfl fun p _ => ?_
    rw [roll2_congr l1 l2]
    ring
  have hgap : ∀ i, i ≠ q → c q + 2 * Spec.zoomErr δ T c q 1 ny nx < c i := by
    intro i hi
    have hne : ¬ (Spec.lag ny i.1 ≡ dy [ZMOD ny] ∧ Spec.lag nx i.2 ≡ dx [ZMOD nx]) := by
      rintro ⟨c1, c2⟩
      apply hi
      have back : ∀ (n : ℕ) [NeZero n] (i q : Fin n) (d : ℤ), Spec.lag n i ≡ d [ZMOD n] → Spec.lag n q ≡ d [ZMOD n] → i = q := by
        intro n _ i q d h1 h2
        have h3 := (Int.ModEq.refl (Spec.zeroLag n : ℤ)).sub (h1.trans h2.symm)
        unfold Spec.lag at h3
        rw [sub_sub_cancel, sub_sub_cancel] at h3
        exact Fin.eq_of_modEq h3
      exact Prod.ext (back ny i.1 _ dy c1 l1) (back nx i.2 _ dx c2 l2)
    have hn := hnoise _ _ hne
    rw [h0, hchi' i]
    have hb : ∑ p, (Spec.roll2 (Spec.lag ny i.1) (Spec.lag nx i.2) im1 p - Spec.roll2 dy dx im1 p) ^ 2 / σ p ^ 2
        ≤ 2 * (∑ p, (Spec.roll2 (Spec.lag ny i.1) (Spec.lag nx i.2) im1 p
          - (Spec.roll2 dy dx im1 p + noise p)) ^ 2 / σ p ^ 2) + 2 * ∑ p, noise p ^ 2 / σ p ^ 2 := by
      rw [Finset.mul_sum, Finset.mul_sum, ← Finset.sum_add_distrib]
      refine Finset.sum_le_sum fun p _ => ?_
      have hp : 0 < σ p ^ 2 := by have := hσ p; positivity
      rw [← mul_div_assoc, ← mul_div_assoc, ← add_div]
      apply div_le_div_of_nonneg_right _ hp.le
      nlinarith [sq_nonneg (Spec.roll2 (Spec.lag ny i.1) (Spec.lag nx i.2) im1 p
          - (Spec.roll2 dy dx im1 p + noise p) - noise p)]
    linarith
  obtain ⟨a1, a2⟩ := C113_same_pixel A δ hA cfg (realArr im1) im2 err hs false c hc q (fun i hi => by have := hgap i hi; linarith)
  obtain ⟨q', s1, s2, i1, i2, hq', hg, u, xv, yv, ups, hu, hnf, -, hy, hx, hz, er, her, hres⟩ :=
    chi2ShiftA_core hA hZ st hst (realArr im1) im2 err (.int 1) false nf mas mns (by exact Nat.one_pos) c _ h2
  rw [a1] at hq'
  subst hq'
  have hg2 : Spec.gridSize ny nx mas (.int 1) = (ny, nx) := by
    simp only [Spec.gridSize]
    rw [if_neg (by omega)]
  rw [hg2] at hg
  obtain ⟨rfl, rfl⟩ := Prod.mk.inj hg
  have hu1 : u = 1 := by have : u = ((1 : ℕ) : ℝ) := hnf; rw [this, Nat.cast_one]
  subst hu1
  have hzg : ∀ (n : ℕ) [NeZero n] (a i : Fin n), Spec.gridShift n a 1 n i
      = (((((a : ℕ) : ℤ) + ((i : ℕ) : ℤ) - 2 * (Spec.zeroLag n : ℤ) : ℤ)) : ℝ) := by
    intro n _ a i
    unfold Spec.gridShift
    rw [halfPix_eq]; push_cast; ring
  have hval : ∀ i : Fin s1 × Fin s2, (interp2C (fun i => (c i : ℂ)) (Spec.gridShift s1 q'.1 1 s1 i.1 + (Spec.zeroLag s1 : ℕ))
      (Spec.gridShift s2 q'.2 1 s2 i.2 + (Spec.zeroLag s2 : ℕ))).re
      = c (Spec.wrap s1 (((q'.1 : ℕ) : ℤ) + ((i.1 : ℕ) : ℤ) - (Spec.zeroLag s1 : ℤ)),
      Spec.wrap s2 (((q'.2 : ℕ) : ℤ) + ((i.2 : ℕ) : ℤ) - (Spec.zeroLag s2 : ℤ))) := by
    intro i
    have e : ∀ (n : ℕ) (a i : Fin n), (((((a : ℕ) : ℤ) + ((i : ℕ) : ℤ) - 2 * (Spec.zeroLag n : ℤ) : ℤ)) : ℝ) + ((Spec.zeroLag n : ℕ) : ℝ)
        = ((((a : ℕ) : ℤ) + ((i : ℕ) : ℤ) - (Spec.zeroLag n : ℤ) : ℤ) : ℝ) := by
      intro n a i; push_cast; ring
    rw [hzg, hzg, e, e, interp2C_int, Complex.ofReal_re]
  simp only [hval] at hz
  have zl : ∀ n : ℕ, [NeZero n] → Spec.zeroLag n < n := by
    intro n _
    have := Nat.pos_of_ne_zero (NeZero.ne n)
    unfold Spec.zeroLag; omega
  have hcm' : Np.argmin ups = (⟨Spec.zeroLag s1, zl s1⟩, ⟨Spec.zeroLag s2, zl s2⟩) := by
    apply Np.argmin_eq_of_unique
    intro j hj
    have p1 := abs_le.1 (hz j)
    have p2 := abs_le.1 (hz (⟨Spec.zeroLag s1, zl s1⟩, ⟨Spec.zeroLag s2, zl s2⟩))
    simp only [add_sub_cancel_right, Spec.wrap_val] at p2
    have := hgap _ (show (Spec.wrap s1 (((q'.1 : ℕ) : ℤ) + ((j.1 : ℕ) : ℤ) - (Spec.zeroLag s1 : ℤ)),
      Spec.wrap s2 (((q'.2 : ℕ) : ℤ) + ((j.2 : ℕ) : ℤ) - (Spec.zeroLag s2 : ℤ))) ≠ q' by
      intro hw
      apply hj
      have back : ∀ (n : ℕ) [NeZero n] (a i : Fin n), Spec.wrap n (((a : ℕ) : ℤ) + ((i : ℕ) : ℤ) - (Spec.zeroLag n : ℤ)) = a →
          i = ⟨Spec.zeroLag n, zl n⟩ := by
        intro n _ a i hwr
        rw [Spec.wrap_eq_iff] at hwr
        have h2 := (hwr.sub (Int.ModEq.refl ((a : ℕ) : ℤ))).add (Int.ModEq.refl (Spec.zeroLag n : ℤ))
        have e1 : ((a : ℕ) : ℤ) + ((i : ℕ) : ℤ) - (Spec.zeroLag n : ℤ) - ((a : ℕ) : ℤ) + (Spec.zeroLag n : ℤ) = ((i : ℕ) : ℤ) := by ring
        have e2 : ((a : ℕ) : ℤ) - ((a : ℕ) : ℤ) + (Spec.zeroLag n : ℤ) = (((⟨Spec.zeroLag n, zl n⟩ : Fin n) : ℕ) : ℤ) := by simp
        rw [e1, e2] at h2
        exact Fin.eq_of_modEq h2
      exact Prod.ext (back s1 q'.1 j.1 (congrArg Prod.fst hw)) (back s2 q'.2 j.2 (congrArg Prod.snd hw)))
    linarith [p1.1, p1.2, p2.1, p2.2]
  have fin : ∀ (n : ℕ) [NeZero n] (d : ℤ) (a : Fin n), a = Spec.wrap n (((n - 1) / 2 : ℕ) - d) → -(n : ℤ) ≤ 2 * d → 2 * d < n →
      -Spec.gridShift n a 1 n ⟨Spec.zeroLag n, zl n⟩ = d := by
    intro n _ d a ha l u
    have hp := Nat.pos_of_ne_zero (NeZero.ne n)
    have h3 : ((a : ℕ) : ℤ) = (((n - 1) / 2 : ℕ) : ℤ) - d := by
      have h4 : ((a : ℕ) : ℤ) ≡ (((n - 1) / 2 : ℕ) : ℤ) - d [ZMOD n] := by rw [ha]; exact Spec.wrap_modEq n _
      have h5 := a.isLt
      have h6 := h4.eq
      rw [Int.emod_eq_of_lt (by omega) (by omega), Int.emod_eq_of_lt (by omega) (by omega)] at h6
      exact h6
    rw [hzg, h3]
    have : (((⟨Spec.zeroLag n, zl n⟩ : Fin n) : ℕ) : ℤ) = (((n - 1) / 2 : ℕ) : ℤ) := rfl
    rw [this]
    show -((((((n - 1) / 2 : ℕ) : ℤ) - d + (((n - 1) / 2 : ℕ) : ℤ) - 2 * (((n - 1) / 2 : ℕ) : ℤ) : ℤ)) : ℝ) = d
    rw [show (((n - 1) / 2 : ℕ) : ℤ) - d + (((n - 1) / 2 : ℕ) : ℤ) - 2 * (((n - 1) / 2 : ℕ) : ℤ) = -d by ring]
    push_cast; ring
  refine ⟨_, _, (hres false false).trans rfl, ?_, ?_⟩
  · rw [hcm', ← fin s2 dx q'.2 (congrArg Prod.snd hq) lx ux, neg_sub_neg, abs_sub_comm]; exact hx _
  · rw [hcm', ← fin s1 dy q'.1 (congrArg Prod.fst hq) ly uy, neg_sub_neg, abs_sub_comm]; exact hy _

end two

end ImgReg
