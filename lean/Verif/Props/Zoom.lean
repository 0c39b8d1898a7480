import Verif.Lemmas.Zoom
import Verif.Props.Scale

/-!
# Properties C14–C17: zooming

`Spec.zoomGrid c u o` are `o` coordinates spaced by `1/u`, centred on `c` (see `grid_step`,
`grid_symm`, which say exactly that).
-/

open Complex Finset

namespace ImgReg

theorem grid_step (c u : ℝ) (o : ℕ) (i : Fin o) (h : (i : ℕ) + 1 < o) :
    Spec.zoomGrid c u o ⟨i + 1, h⟩ - Spec.zoomGrid c u o i = 1 / u := by
  unfold Spec.zoomGrid; push_cast; ring

theorem grid_symm (c u : ℝ) (o : ℕ) (i : Fin o) :
    Spec.zoomGrid c u o i + Spec.zoomGrid c u o i.rev = 2 * c := by
  unfold Spec.zoomGrid
  have : ((i.rev : Fin o) : ℕ) = o - (i + 1) := rfl
  rw [this, Nat.cast_sub (by have := i.isLt; omega)]
  push_cast; ring

section one
variable {n : ℕ} [NeZero n]

/-! ## C14 -/

/-- C14 for `zoom1d`: the coordinates returned with `return_xouts` have the requested length, are
spaced by `1/usfac`, are symmetric about `(n-1)/2 + offset`, and the values are the Fourier
interpolant at exactly those coordinates. -/
theorem C14_zoom1d (cfg : FFTConfig) (x : Fin n → ℂ) (us : ℝ) (hus : us ≠ 0) (outsize : Option ℕ)
    (o : ℕ) (ho : outsize.getD n = o) (off : ℝ) (rr : Bool) :
    ∃ (xs : Fin o → ℝ) (r : Out1),
      zoom1d cfg (cArr x) us outsize off true rr = .ok (.withX (Arr.ofVec xs) r) ∧
      zoom1d cfg (cArr x) us outsize off false rr = .ok (.plain r) ∧
      fourierInterp1d cfg (cArr x) (Arr.ofVec xs) none rr = .ok r ∧
      (∀ (i : Fin o) (h : (i : ℕ) + 1 < o), xs ⟨i + 1, h⟩ - xs i = 1 / us) ∧
      (∀ i, xs i + xs i.rev = 2 * (((n : ℝ) - 1) / 2 + off)) := by
  subst ho
  refine ⟨Spec.zoomGrid (((n : ℝ) - 1) / 2 + off) us (outsize.getD n),
    ⟨outsize.getD n, retReal rr fun i =>
      interpC x (Spec.zoomGrid (((n : ℝ) - 1) / 2 + off) us (outsize.getD n) i)⟩, ?_, ?_, ?_, ?_, ?_⟩
  · rw [zoom1d_eq cfg x us hus]; rfl
  · rw [zoom1d_eq cfg x us hus]; rfl
  · rw [fourierInterp1d_vec]
  · exact fun i h => grid_step _ _ _ i h
  · exact fun i => grid_symm _ _ _ i

/-- C14 for 1-D `zoom_on_pixel` / `zoomnd`: centred on the target pixel. -/
theorem C14_zoom_on_pixel_1d (cfg : FFTConfig) (x : Fin n → ℂ) (t us : ℝ) (hus : us ≠ 0)
    (outshape : Option ℕ) (o : ℕ) (ho : outshape.getD n = o) (h1 : o ≠ 1) (rr : Bool) :
    ∃ (xs : Fin o → ℝ) (cube : Arr) (r : Out1), cube.shape = [1, o] ∧
      (∀ i : Fin o, cube.val [0, i] = xs i) ∧
      zoomOnPixel1 cfg (cArr x) [t] us outshape rr true = .ok (.withX cube r) ∧
      zoomOnPixel1 cfg (cArr x) [t] us outshape rr false = .ok (.plain r) ∧
      fourierInterp1d cfg (cArr x) (Arr.ofVec xs) none rr = .ok r ∧
      (∀ (i : Fin o) (h : (i : ℕ) + 1 < o), xs ⟨i + 1, h⟩ - xs i = 1 / us) ∧
      (∀ i, xs i + xs i.rev = 2 * t) := by
  subst ho
  obtain ⟨cube, hs, hv, he⟩ := zoomOnPixel1_eq cfg x [t] us hus outshape h1 rr true
  obtain ⟨cube', _, _, he'⟩ := zoomOnPixel1_eq cfg x [t] us hus outshape h1 rr false
  refine ⟨Spec.zoomGrid t us (outshape.getD n), cube, _, hs, ?_, he, he', ?_, ?_, ?_⟩
  · intro i; rw [hv]; exact congrFun (zoomAxis_some t us _) i
  · rw [fourierInterp1d_vec]
    simp only [List.getElem?_cons_zero, zoomAxis_some]
  · exact fun i h => grid_step _ _ _ i h
  · exact fun i => grid_symm _ _ _ i

end one

section two
variable {ny nx : ℕ} [NeZero ny] [NeZero nx]

/-- C14 for 2-D `zoom_on_pixel`: on each axis the grid has the requested length, spacing
`1/usfac`, and is symmetric about the target; the values are the Fourier interpolant there. -/
theorem C14_zoom_on_pixel_2d (cfg : FFTConfig) (x : Fin ny × Fin nx → ℂ) (ty tx us : ℝ)
    (hus : us ≠ 0) (outshape : Option (ℕ × ℕ)) (m l : ℕ) (ho : outshape.getD (ny, nx) = (m, l))
    (hm : 0 < m) (hl : 0 < l) (rr : Bool) :
    ∃ (ys : Fin m → ℝ) (xs : Fin l → ℝ) (cube : Arr) (r : Out2), cube.shape = [2, m, l] ∧
      (∀ (i : Fin m) (j : Fin l), cube.val [0, i, j] = ys i ∧ cube.val [1, i, j] = xs j) ∧
      zoomOnPixel2 cfg (cArr x) [ty, tx] us outshape rr true = .ok (.withX cube r) ∧
      zoomOnPixel2 cfg (cArr x) [ty, tx] us outshape rr false = .ok (.plain r) ∧
      fourierInterp2d cfg (cArr x) (pairInds ys xs) rr = .ok r ∧
      (∀ (i : Fin m) (h : (i : ℕ) + 1 < m), ys ⟨i + 1, h⟩ - ys i = 1 / us) ∧
      (∀ i, ys i + ys i.rev = 2 * ty) ∧
      (∀ (i : Fin l) (h : (i : ℕ) + 1 < l), xs ⟨i + 1, h⟩ - xs i = 1 / us) ∧
      (∀ i, xs i + xs i.rev = 2 * tx) := by
  obtain ⟨cube, hs, hv, he⟩ := zoomOnPixel2_eq cfg x [ty, tx] us hus outshape m l ho hm hl rr true
  obtain ⟨cube', _, _, he'⟩ := zoomOnPixel2_eq cfg x [ty, tx] us hus outshape m l ho hm hl rr false
  refine ⟨Spec.zoomGrid ty us m, Spec.zoomGrid tx us l, cube, _, hs, ?_, he, he', ?_,
    fun i h => grid_step _ _ _ i h, fun i => grid_symm _ _ _ i,
    fun i h => grid_step _ _ _ i h, fun i => grid_symm _ _ _ i⟩
  · intro i j
    have := hv i j
    simpa [zoomAxis_some] using this
  · rw [fourierInterp2d_ok cfg x (pairInds _ _) rfl ⟨m, _⟩ ⟨l, _⟩ rfl rfl]
    simp [zoomAxis_some]

/-- C14 for `zoomnd` on an image: it is `zoom_on_pixel` at
`middle_convention((n-1)/2) + offset` on each axis; without offsets at the middle itself. -/
theorem C14_zoomnd_centre (cfg : FFTConfig) (x : Fin ny × Fin nx → CPix) (oy ox us : ℝ)
    (mc : ℝ → ℝ) (outshape : Option (ℕ × ℕ)) (rr rx : Bool) :
    zoomnd2 cfg x [oy, ox] mc us outshape rr rx
      = zoomOnPixel2 cfg x [mc (((ny : ℝ) - 1) / 2) + oy, mc (((nx : ℝ) - 1) / 2) + ox] us outshape
          rr rx ∧
    zoomnd2 cfg x [] mc us outshape rr rx = zoomnd2 cfg x [0, 0] mc us outshape rr rx := by
  constructor
  · simp [zoomnd2, zoomMiddle, bind, Except.bind]
  · simp [zoomnd2, zoomMiddle, bind, Except.bind, List.replicate]

theorem C14_zoomnd_centre_1d {n : ℕ} [NeZero n] (cfg : FFTConfig) (x : Fin n → CPix) (off us : ℝ)
    (mc : ℝ → ℝ) (outshape : Option ℕ) (rr rx : Bool) :
    zoomnd1 cfg x [off] mc us outshape rr rx
      = zoomOnPixel1 cfg x [mc (((n : ℝ) - 1) / 2) + off] us outshape rr rx ∧
    zoomnd1 cfg x [] mc us outshape rr rx = zoomnd1 cfg x [0] mc us outshape rr rx := by
  constructor
  · simp [zoomnd1, zoomMiddle, bind, Except.bind]
  · simp [zoomnd1, zoomMiddle, bind, Except.bind]

end two

/-! ## C15 -/

theorem grid_one (n : ℕ) (i : Fin n) :
    Spec.zoomGrid (((n : ℝ) - 1) / 2 + 0) 1 n i = (((i : ℕ) : ℤ) : ℝ) := by
  unfold Spec.zoomGrid; push_cast; ring

/-- C15: `zoom1d` with default arguments is the identity, with the pixel indices as coordinates. -/
theorem C15_zoom1d_default {n : ℕ} [NeZero n] (cfg : FFTConfig) (x : Fin n → ℝ) :
    zoom1d cfg (rArr x) 1 none 0 true true
      = .ok (.withX (Arr.ofVec fun i : Fin n => ((i : ℕ) : ℝ)) ⟨n, .real (realArr x)⟩) ∧
    zoom1d cfg (rArr x) 1 none 0 false true = .ok (.plain ⟨n, .real (realArr x)⟩) := by
  have hg : Spec.zoomGrid (((n : ℝ) - 1) / 2 + 0) 1 n = fun i : Fin n => (((i : ℕ) : ℤ) : ℝ) := by
    funext i; exact grid_one n i
  constructor <;>
  · rw [rArr_eq_cArr, zoom1d_eq cfg _ 1 one_ne_zero]
    simp only [Option.getD_none, hg, interpC_int, Spec.wrap_val, retReal_true, Complex.ofReal_re]
    simp [zoomReturn]

/-- C15: `zoomnd` of an image with default arguments is the identity, with `np.indices` as
coordinates. -/
theorem C15_zoomnd_default {ny nx : ℕ} [NeZero ny] [NeZero nx] (cfg : FFTConfig)
    (x : Fin ny × Fin nx → ℝ) :
    ∃ cube : Arr, cube.shape = [2, ny, nx] ∧
      (∀ (i : Fin ny) (j : Fin nx), cube.val [0, i, j] = ((i : ℕ) : ℝ) ∧
        cube.val [1, i, j] = ((j : ℕ) : ℝ)) ∧
      zoomnd2 cfg (rArr x) [] id 1 none true true
        = .ok (.withX cube ⟨ny, nx, .real (realArr x)⟩) ∧
      zoomnd2 cfg (rArr x) [] id 1 none true false = .ok (.plain ⟨ny, nx, .real (realArr x)⟩) := by
  have hy : 0 < ny := Nat.pos_of_ne_zero (NeZero.ne ny)
  have hx : 0 < nx := Nat.pos_of_ne_zero (NeZero.ne nx)
  have hgy : Spec.zoomGrid (((ny : ℝ) - 1) / 2 + 0) 1 ny = fun i : Fin ny => (((i : ℕ) : ℤ) : ℝ) := by
    funext i; exact grid_one ny i
  have hgx : Spec.zoomGrid (((nx : ℝ) - 1) / 2 + 0) 1 nx = fun i : Fin nx => (((i : ℕ) : ℤ) : ℝ) := by
    funext i; exact grid_one nx i
  obtain ⟨cube, hs, hv, he⟩ := zoomOnPixel2_eq cfg (fun i => (x i : ℂ))
    [((ny : ℝ) - 1) / 2 + 0, ((nx : ℝ) - 1) / 2 + 0] 1 one_ne_zero none ny nx rfl hy hx true true
  obtain ⟨cube', hs', hv', he'⟩ := zoomOnPixel2_eq cfg (fun i => (x i : ℂ))
    [((ny : ℝ) - 1) / 2 + 0, ((nx : ℝ) - 1) / 2 + 0] 1 one_ne_zero none ny nx rfl hy hx true false
  simp only [List.getElem?_cons_zero, List.getElem?_cons_succ, zoomAxis_some, hgy, hgx,
    interp2C_int, Spec.wrap_val, retReal_true, Complex.ofReal_re] at hv hv' he he'
  refine ⟨cube, hs, ?_, ?_, ?_⟩
  · intro i j
    have := hv i j
    simpa using this
  · rw [(C14_zoomnd_centre cfg (rArr x) 0 0 1 id none true true).2,
      (C14_zoomnd_centre cfg (rArr x) 0 0 1 id none true true).1, rArr_eq_cArr]
    exact he
  · rw [(C14_zoomnd_centre cfg (rArr x) 0 0 1 id none true false).2,
      (C14_zoomnd_centre cfg (rArr x) 0 0 1 id none true false).1, rArr_eq_cArr]
    exact he'

/-! ## C16 -/

theorem grid_full (n us : ℕ) (hus : 0 < us) (i : Fin (n * us)) :
    Spec.zoomGrid (((n : ℝ) - 1) / 2 + 0) us (n * us) i
      = (2 * ((i : ℕ) : ℝ) + 1 - us) / (2 * us) := by
  unfold Spec.zoomGrid
  have : (us : ℝ) ≠ 0 := by exact_mod_cast hus.ne'
  push_cast
  field_simp
  ring

/-- C16: the full-size zoom grid runs from `-1/2 + 1/(2 usfac)` to `n - 1/2 - 1/(2 usfac)`. -/
theorem C16_grid_range {n : ℕ} [NeZero n] (cfg : FFTConfig) (x : Fin n → ℂ) (us : ℕ) (hus : 0 < us)
    (rr : Bool) :
    ∃ (xs : Fin (n * us) → ℝ) (r : Out1),
      zoom1d cfg (cArr x) us (some (n * us)) 0 true rr = .ok (.withX (Arr.ofVec xs) r) ∧
      (∀ i : Fin (n * us), (i : ℕ) = 0 → xs i = -1 / 2 + 1 / (2 * us)) ∧
      (∀ i : Fin (n * us), (i : ℕ) + 1 = n * us → xs i = n - 1 / 2 - 1 / (2 * us)) ∧
      (∀ i, -1 / 2 < xs i ∧ xs i < n - 1 / 2) := by
  have h0 : (us : ℝ) ≠ 0 := by exact_mod_cast hus.ne'
  have h0' : (0 : ℝ) < us := by exact_mod_cast hus
  refine ⟨Spec.zoomGrid (((n : ℝ) - 1) / 2 + 0) us (n * us),
    ⟨n * us, retReal rr fun i => interpC x (Spec.zoomGrid (((n : ℝ) - 1) / 2 + 0) us (n * us) i)⟩,
    ?_, ?_, ?_, ?_⟩
  · rw [zoom1d_eq cfg x us h0]; rfl
  · intro i hi
    rw [grid_full n us hus, hi]; field_simp; push_cast; ring
  · intro i hi
    rw [grid_full n us hus]
    have : ((i : ℕ) : ℝ) = n * us - 1 := by
      have : (((i : ℕ) + 1 : ℕ) : ℝ) = ((n * us : ℕ) : ℝ) := by rw [hi]
      push_cast at this; linarith
    rw [this]; field_simp; ring
  · intro i
    rw [grid_full n us hus]
    have hi : ((i : ℕ) : ℝ) + 1 ≤ n * us := by
      have := i.isLt
      have h : (i : ℕ) + 1 ≤ n * us := this
      exact_mod_cast h
    constructor
    · rw [lt_div_iff₀ (by positivity)]; nlinarith [Nat.cast_nonneg (α := ℝ) (i : ℕ)]
    · rw [div_lt_iff₀ (by positivity)]; nlinarith

/-- C16: for odd `usfac = 2h+1` the samples `h, h+usfac, h+2 usfac, …` reproduce the input. -/
theorem C16_odd_reproduces {n : ℕ} [NeZero n] (cfg : FFTConfig) (x : Fin n → ℝ) (h : ℕ) :
    ∃ y : Fin (n * (2 * h + 1)) → ℝ,
      zoom1d cfg (rArr x) ((2 * h + 1 : ℕ) : ℝ) (some (n * (2 * h + 1))) 0 false true
        = .ok (.plain ⟨n * (2 * h + 1), .real (realArr y)⟩) ∧
      ∀ (j : Fin n) (i : Fin (n * (2 * h + 1))), (i : ℕ) = h + (2 * h + 1) * j → y i = x j := by
  have h0 : ((2 * h + 1 : ℕ) : ℝ) ≠ 0 := by positivity
  refine ⟨fun i => (interpC (fun i => (x i : ℂ)) (Spec.zoomGrid (((n : ℝ) - 1) / 2 + 0)
    ((2 * h + 1 : ℕ) : ℝ) (n * (2 * h + 1)) i)).re, ?_, ?_⟩
  · rw [rArr_eq_cArr, zoom1d_eq cfg _ _ h0]; rfl
  · intro j i hi
    have hg : Spec.zoomGrid (((n : ℝ) - 1) / 2 + 0) ((2 * h + 1 : ℕ) : ℝ) (n * (2 * h + 1)) i
        = (((j : ℕ) : ℤ) : ℝ) := by
      rw [grid_full n (2 * h + 1) (by omega), hi]
      push_cast
      have : (2 * (h : ℝ) + 1) ≠ 0 := by positivity
      field_simp
      ring
    simp only [hg, interpC_int, Spec.wrap_val, Complex.ofReal_re]

/-- C16: the 2-D analogue for `zoomnd`. -/
theorem C16_odd_reproduces_2d {ny nx : ℕ} [NeZero ny] [NeZero nx] (cfg : FFTConfig)
    (x : Fin ny × Fin nx → ℝ) (h : ℕ) :
    ∃ y : Fin (ny * (2 * h + 1)) × Fin (nx * (2 * h + 1)) → ℝ,
      zoomnd2 cfg (rArr x) [] id ((2 * h + 1 : ℕ) : ℝ) (some (ny * (2 * h + 1), nx * (2 * h + 1)))
          true false
        = .ok (.plain ⟨ny * (2 * h + 1), nx * (2 * h + 1), .real (realArr y)⟩) ∧
      ∀ (j : Fin ny × Fin nx) (i : Fin (ny * (2 * h + 1)) × Fin (nx * (2 * h + 1))),
        (i.1 : ℕ) = h + (2 * h + 1) * j.1 → (i.2 : ℕ) = h + (2 * h + 1) * j.2 → y i = x j := by
  have h0 : ((2 * h + 1 : ℕ) : ℝ) ≠ 0 := by positivity
  have hy : 0 < ny := Nat.pos_of_ne_zero (NeZero.ne ny)
  have hx : 0 < nx := Nat.pos_of_ne_zero (NeZero.ne nx)
  obtain ⟨cube, hs, hv, he⟩ := zoomOnPixel2_eq cfg (fun i => (x i : ℂ))
    [((ny : ℝ) - 1) / 2 + 0, ((nx : ℝ) - 1) / 2 + 0] ((2 * h + 1 : ℕ) : ℝ) h0
    (some (ny * (2 * h + 1), nx * (2 * h + 1))) (ny * (2 * h + 1)) (nx * (2 * h + 1)) rfl
    (by positivity) (by positivity) true false
  refine ⟨fun i => (interp2C (fun i => (x i : ℂ))
    (zoomAxis [((ny : ℝ) - 1) / 2 + 0, ((nx : ℝ) - 1) / 2 + 0][0]? ((2 * h + 1 : ℕ) : ℝ)
      (ny * (2 * h + 1)) i.1)
    (zoomAxis [((ny : ℝ) - 1) / 2 + 0, ((nx : ℝ) - 1) / 2 + 0][1]? ((2 * h + 1 : ℕ) : ℝ)
      (nx * (2 * h + 1)) i.2)).re, ?_, ?_⟩
  · rw [(C14_zoomnd_centre cfg (rArr x) 0 0 _ id _ true false).2,
      (C14_zoomnd_centre cfg (rArr x) 0 0 _ id _ true false).1, rArr_eq_cArr]
    exact he
  · intro j i h1 h2
    have hg : ∀ (n : ℕ) [NeZero n] (j : Fin n) (i : Fin (n * (2 * h + 1))),
        (i : ℕ) = h + (2 * h + 1) * j →
        Spec.zoomGrid (((n : ℝ) - 1) / 2 + 0) ((2 * h + 1 : ℕ) : ℝ) (n * (2 * h + 1)) i
        = (((j : ℕ) : ℤ) : ℝ) := by
      intro n _ j i hi
      rw [grid_full n (2 * h + 1) (by omega), hi]
      push_cast
      have : (2 * (h : ℝ) + 1) ≠ 0 := by positivity
      field_simp
      ring
    simp only [List.getElem?_cons_zero, List.getElem?_cons_succ, zoomAxis_some, hg ny j.1 i.1 h1,
      hg nx j.2 i.2 h2, interp2C_int, Spec.wrap_val, Complex.ofReal_re]

/-- C16: for even `usfac` no output coordinate is an integer, so no sample coincides with an input
pixel. -/
theorem C16_even_never_on_pixel {n : ℕ} [NeZero n] (cfg : FFTConfig) (x : Fin n → ℂ) (us : ℕ)
    (hus : 0 < us) (heven : Even us) (rr : Bool) :
    ∃ (xs : Fin (n * us) → ℝ) (r : Out1),
      zoom1d cfg (cArr x) us (some (n * us)) 0 true rr = .ok (.withX (Arr.ofVec xs) r) ∧
      ∀ i (z : ℤ), xs i ≠ z := by
  have h0 : (us : ℝ) ≠ 0 := by exact_mod_cast hus.ne'
  refine ⟨Spec.zoomGrid (((n : ℝ) - 1) / 2 + 0) us (n * us), _,
    by rw [zoom1d_eq cfg x us h0]; rfl, ?_⟩
  intro i z hz
  rw [grid_full n us hus, div_eq_iff (by positivity)] at hz
  have hz' : (2 * ((i : ℕ) : ℤ) + 1 - us) = z * (2 * us) := by exact_mod_cast hz
  obtain ⟨k, hk⟩ := heven
  have h3 : z * (2 * (us : ℤ)) = 2 * (z * us) := by ring
  have h4 : (us : ℤ) = 2 * k := by rw [hk]; push_cast; ring
  omega

/-! ## C17 -/

section C17
variable {ny nx : ℕ} [NeZero ny] [NeZero nx]

/-- C17: `zoomnd` raises ValueError when a nonempty offsets tuple has the wrong length; for an
image of positive output size and `usfac ≠ 0` in every other case it returns normally. -/
theorem C17_zoomnd_offsets (cfg : FFTConfig) (x : Fin ny × Fin nx → ℂ) (offs : List ℝ)
    (mc : ℝ → ℝ) (us : ℝ) (hus : us ≠ 0) (outshape : Option (ℕ × ℕ))
    (ho : 0 < (outshape.getD (ny, nx)).1 ∧ 0 < (outshape.getD (ny, nx)).2) (rr rx : Bool) :
    (zoomnd2 cfg (cArr x) offs mc us outshape rr rx = .error .valueError ↔
      offs ≠ [] ∧ offs.length ≠ 2) ∧
    (¬ (offs ≠ [] ∧ offs.length ≠ 2) → ∃ r, zoomnd2 cfg (cArr x) offs mc us outshape rr rx = .ok r) := by
  have hok : ¬ (offs ≠ [] ∧ offs.length ≠ 2) →
      ∃ r, zoomnd2 cfg (cArr x) offs mc us outshape rr rx = .ok r := by
    intro h
    have : ∃ l, zoomMiddle [ny, nx] offs mc = .ok l := by
      unfold zoomMiddle
      rw [if_neg (by
        rintro ⟨h1, h2⟩
        exact h ⟨by rintro rfl; simp at h1, by simpa using h2⟩)]
      exact ⟨_, rfl⟩
    obtain ⟨l, hl⟩ := this
    obtain ⟨cube, _, _, he⟩ := zoomOnPixel2_eq cfg x l us hus outshape _ _ rfl ho.1 ho.2 rr rx
    exact ⟨_, by simp only [zoomnd2, hl, bind, Except.bind]; exact he⟩
  refine ⟨⟨?_, ?_⟩, hok⟩
  · intro he
    by_contra h
    obtain ⟨r, hr⟩ := hok h
    rw [hr] at he; simp at he
  · rintro ⟨h1, h2⟩
    have : 0 < offs.length := List.length_pos_iff.2 h1
    have h2' : ¬ offs.length = 2 := h2
    simp [zoomnd2, zoomMiddle, this, h2', bind, Except.bind]

/-- C17: three or more dimensions: NotImplementedError (unless the offsets are already wrong). -/
theorem C17_three_dims {D : ℕ} {s : Fin D → ℕ} (inp : (∀ d, Fin (s d)) → CPix) (offs : List ℝ)
    (mc : ℝ → ℝ) (us : ℝ) (hus : us ≠ 0) :
    zoomndN inp offs mc us
      = if offs ≠ [] ∧ offs.length ≠ D then .error .valueError else .error .notImplementedError := by
  unfold zoomndN zoomMiddle zoomOnPixelN
  by_cases h : offs = []
  · simp [h, hus, bind, Except.bind]
  · have : 0 < offs.length := List.length_pos_iff.2 h
    by_cases h2 : offs.length = D <;> simp [this, hus, bind, Except.bind, h, h2]

/-- C17: a 1-D zoom to a single output pixel raises ValueError, whatever the data. -/
theorem C17_single_pixel {n : ℕ} [NeZero n] (cfg : FFTConfig) (x : Fin n → CPix) (cs : List ℝ)
    (us : ℝ) (hus : us ≠ 0) (outshape : Option ℕ) (h1 : outshape.getD n = 1) (rr rx : Bool) :
    zoomOnPixel1 cfg x cs us outshape rr rx = .error .valueError := by
  unfold zoomOnPixel1
  simp only [h1, hus, false_and, if_false, if_true]
  rw [(C13_interp1d_errors cfg x _ none rr).1]
  · rfl
  · left; simp [Arr.ndim]

/-- C15: `zoomnd` of a 1-D array of length ≥ 2 with default arguments is the identity; with
`return_xouts` the coordinates are the pixel indices, as an array of shape `(1, n)`.  An array of one
element raises ValueError. -/
theorem C15_zoomnd_default_1d {n : ℕ} [NeZero n] (cfg : FFTConfig) (x : Fin n → ℝ) :
    (n ≠ 1 → zoomnd1 cfg (rArr x) [] id 1 none true false = .ok (.plain ⟨n, .real (realArr x)⟩) ∧
      ∃ cube : Arr, cube.shape = [1, n] ∧ (∀ i : Fin n, cube.val [0, i] = ((i : ℕ) : ℝ)) ∧
        zoomnd1 cfg (rArr x) [] id 1 none true true = .ok (.withX cube ⟨n, .real (realArr x)⟩)) ∧
    (n = 1 → ∀ rx, zoomnd1 cfg (rArr x) [] id 1 none true rx = .error .valueError) := by
  constructor
  · intro hn
    have hg : Spec.zoomGrid (((n : ℝ) - 1) / 2 + 0) 1 n = fun i : Fin n => (((i : ℕ) : ℤ) : ℝ) := by
      funext i; exact grid_one n i
    constructor
    · rw [(C14_zoomnd_centre_1d cfg (rArr x) 0 1 id none true false).2,
        (C14_zoomnd_centre_1d cfg (rArr x) 0 1 id none true false).1, rArr_eq_cArr]
      obtain ⟨cube, hs, hv, he⟩ := zoomOnPixel1_eq cfg (fun i => (x i : ℂ)) [((n : ℝ) - 1) / 2 + 0] 1
        one_ne_zero none hn true false
      simp only [List.getElem?_cons_zero, zoomAxis_some, Option.getD_none, hg,
        interpC_int, Spec.wrap_val, retReal_true, Complex.ofReal_re] at he
      exact he
    · obtain ⟨cube, hs, hv, he⟩ := zoomOnPixel1_eq cfg (fun i => (x i : ℂ)) [((n : ℝ) - 1) / 2 + 0] 1
        one_ne_zero none hn true true
      simp only [List.getElem?_cons_zero, zoomAxis_some, Option.getD_none, hg,
        interpC_int, Spec.wrap_val, retReal_true, Complex.ofReal_re] at he hv hs
      refine ⟨cube, hs, fun i => ?_, ?_⟩
      · rw [hv i]; simp
      · rw [(C14_zoomnd_centre_1d cfg (rArr x) 0 1 id none true true).2,
          (C14_zoomnd_centre_1d cfg (rArr x) 0 1 id none true true).1, rArr_eq_cArr]
        exact he
  · intro hn rx
    rw [(C14_zoomnd_centre_1d cfg (rArr x) 0 1 id none true rx).2,
      (C14_zoomnd_centre_1d cfg (rArr x) 0 1 id none true rx).1]
    exact C17_single_pixel cfg _ _ 1 one_ne_zero none hn true rx

/-- C17: a coordinate missing from a short tuple is silently pixel 0 — every output column samples
column coordinate 0. -/
theorem C17_short_coordinates (cfg : FFTConfig) (x : Fin ny × Fin nx → ℂ) (ty us : ℝ)
    (hus : us ≠ 0) (outshape : Option (ℕ × ℕ)) (m l : ℕ) (ho : outshape.getD (ny, nx) = (m, l))
    (hm : 0 < m) (hl : 0 < l) (rr : Bool) :
    ∃ r, zoomOnPixel2 cfg (cArr x) [ty] us outshape rr false = .ok (.plain r) ∧
      fourierInterp2d cfg (cArr x) (pairInds (Spec.zoomGrid ty us m) (fun _ : Fin l => 0)) rr
        = .ok r := by
  obtain ⟨cube, hs, hv, he⟩ := zoomOnPixel2_eq cfg x [ty] us hus outshape m l ho hm hl rr false
  refine ⟨_, he, ?_⟩
  rw [fourierInterp2d_ok cfg x (pairInds _ _) rfl ⟨m, _⟩ ⟨l, _⟩ rfl rfl]
  simp only [List.getElem?_cons_zero, List.getElem?_cons_succ, List.getElem?_nil, zoomAxis_some]
  rfl

/-- concrete arguments meeting the hypotheses above -/
example : (some (6, 9) : Option (ℕ × ℕ)).getD (2, 3) = (6, 9) ∧ (3 : ℝ) ≠ 0 := ⟨rfl, by norm_num⟩

end C17

end ImgReg
