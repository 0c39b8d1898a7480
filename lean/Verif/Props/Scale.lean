import Verif.Lemmas.Scale
import Verif.Props.Shift

/-!
# Properties C09–C13, C74: Fourier interpolation
-/

open Complex Finset
open scoped ComplexConjugate

namespace ImgReg

section one
variable {n : ℕ} [NeZero n]

theorem retReal_true {ι : Type} (c : ι → ℂ) :
    retReal true c = .real (realArr fun i => (c i).re) := rfl

theorem retReal_false {ι : Type} (c : ι → ℂ) : retReal false c = .cplx (cArr c) := rfl

/-! ## C09 -/

/-- C09: at integer coordinates (inside or outside the array) the interpolant of real data is
exactly the pixel, periodically continued. -/
theorem C09_samples (cfg : FFTConfig) (x : Fin n → ℝ) {m : ℕ} (z : Fin m → ℤ) :
    fourierInterp1d cfg (rArr x) (Arr.ofVec fun i => (z i : ℝ)) none true
      = .ok ⟨m, .real (realArr fun i => x (Spec.wrap n (z i)))⟩ := by
  rw [rArr_eq_cArr, fourierInterp1d_vec, retReal_true]
  simp only [interpC_int, Complex.ofReal_re]

/-- C09, complex mode and complex data. -/
theorem C09_samples_complex (cfg : FFTConfig) (x : Fin n → ℂ) {m : ℕ} (z : Fin m → ℤ) :
    fourierInterp1d cfg (cArr x) (Arr.ofVec fun i => (z i : ℝ)) none false
      = .ok ⟨m, .cplx (cArr fun i => x (Spec.wrap n (z i)))⟩ := by
  rw [fourierInterp1d_vec, retReal_false]
  simp only [interpC_int]

/-- C09: the interpolant is periodic in the coordinate (either mode, any real coordinate). -/
theorem C09_periodic (cfg : FFTConfig) (x : Fin n → ℂ) {m : ℕ} (t : Fin m → ℝ) (c : Fin m → ℤ)
    (rr : Bool) :
    fourierInterp1d cfg (cArr x) (Arr.ofVec fun i => t i + c i * (n : ℝ)) none rr
      = fourierInterp1d cfg (cArr x) (Arr.ofVec t) none rr := by
  rw [fourierInterp1d_vec, fourierInterp1d_vec]
  simp only [interpC_add_period]

/-- C09: it never raises for a 1-D vector of coordinates, wherever they lie, and returns one finite
value per coordinate. -/
theorem C09_total (cfg : FFTConfig) (x : Fin n → ℝ) {m : ℕ} (t : Fin m → ℝ) :
    ∃ y, fourierInterp1d cfg (rArr x) (Arr.ofVec t) none true = .ok ⟨m, .real (realArr y)⟩ := by
  rw [rArr_eq_cArr, fourierInterp1d_vec, retReal_true]
  exact ⟨_, rfl⟩

/-! ## C10 -/

/-- C10: exact for every trigonometric polynomial below the Nyquist frequency: if
`data[j] = Σ_a c_a exp(2πi m_a j/n)` with `|m_a| < n/2`, the value at every real coordinate `t` is
`Σ_a c_a exp(2πi m_a t/n)`. -/
theorem C10_bandlimited (cfg : FFTConfig) {M m : ℕ} (c : Fin M → ℂ) (fr : Fin M → ℤ)
    (hfr : ∀ a, 2 * |fr a| < n) (t : Fin m → ℝ) :
    fourierInterp1d cfg
        (cArr fun j : Fin n => ∑ a, c a * Complex.exp (2 * Real.pi * I * (fr a * ((j : ℕ) : ℝ) / n : ℝ)))
        (Arr.ofVec t) none false
      = .ok ⟨m, .cplx (cArr fun i => ∑ a, c a * Complex.exp (2 * Real.pi * I * (fr a * t i / n : ℝ)))⟩ := by
  rw [fourierInterp1d_vec, retReal_false]
  congr 4
  funext i
  rw [interpC_sum]
  refine Finset.sum_congr rfl fun a _ => ?_
  rw [interpC_smul]
  congr 1
  exact interpC_exp (fr a) (hfr a) (t i)

/-- C10, real form: real data `Σ_a (p_a cos + q_a sin)(2π m_a j/n)` in the default mode. -/
theorem C10_bandlimited_real (cfg : FFTConfig) {M m : ℕ} (p q : Fin M → ℝ) (fr : Fin M → ℤ)
    (hfr : ∀ a, 2 * |fr a| < n) (t : Fin m → ℝ) :
    fourierInterp1d cfg
        (rArr fun j : Fin n => ∑ a, (p a * Real.cos (2 * Real.pi * (fr a * ((j : ℕ) : ℝ) / n)) +
            q a * Real.sin (2 * Real.pi * (fr a * ((j : ℕ) : ℝ) / n))))
        (Arr.ofVec t) none true
      = .ok ⟨m, .real (realArr fun i => ∑ a, (p a * Real.cos (2 * Real.pi * (fr a * t i / n)) +
            q a * Real.sin (2 * Real.pi * (fr a * t i / n))))⟩ := by
  have key : ∀ u v s : ℝ, (((u * Real.cos (2 * Real.pi * s) + v * Real.sin (2 * Real.pi * s) : ℝ)) : ℂ)
      = ((u - v * I) / 2) * ex s + ((u + v * I) / 2) * ex (-s) := by
    intro u v s
    have h1 : ex s = (Real.cos (2 * Real.pi * s) : ℂ) + (Real.sin (2 * Real.pi * s) : ℂ) * I := by
      apply Complex.ext
      · rw [ex_re]
        simp only [Complex.add_re, Complex.mul_re, Complex.ofReal_re, Complex.ofReal_im,
          Complex.I_re, Complex.I_im]
        ring
      · rw [ex_im]
        simp only [Complex.add_im, Complex.mul_im, Complex.ofReal_re, Complex.ofReal_im,
          Complex.I_re, Complex.I_im]
        ring
    have h2 : ex (-s) = (Real.cos (2 * Real.pi * s) : ℂ) - (Real.sin (2 * Real.pi * s) : ℂ) * I := by
      rw [← conj_ex, h1]
      simp only [map_add, map_mul, Complex.conj_ofReal, Complex.conj_I]
      ring
    rw [h1, h2]
    push_cast
    have hI : I * I = -1 := Complex.I_mul_I
    linear_combination (v * Complex.sin (2 * Real.pi * s)) * hI
  rw [rArr_eq_cArr, fourierInterp1d_vec, retReal_true]
  congr 4
  funext i
  push_cast [key]
  rw [interpC_sum]
  have : ∀ a, interpC (fun j : Fin n => ((p a - q a * I) / 2) * ex (fr a * ((j : ℕ) : ℝ) / n)
      + ((p a + q a * I) / 2) * ex (-(fr a * ((j : ℕ) : ℝ) / n))) (t i)
      = ((p a * Real.cos (2 * Real.pi * (fr a * t i / n)) +
            q a * Real.sin (2 * Real.pi * (fr a * t i / n)) : ℝ) : ℂ) := by
    intro a
    rw [interpC_add, interpC_smul, interpC_smul, interpC_exp (fr a) (hfr a), key]
    have h3 := interpC_exp (n := n) (-(fr a)) (by rw [abs_neg]; exact hfr a) (t i)
    congr 2
    rw [show -(fr a * t i / (n:ℝ)) = ((-(fr a) : ℤ) : ℝ) * t i / n by push_cast; ring, ← h3]
    congr 1
    funext j
    congr 1; push_cast; ring
  have h4 := Finset.sum_congr (rfl : (Finset.univ : Finset (Fin M)) = Finset.univ) fun a _ => this a
  push_cast at h4
  rw [h4]
  have h5 : (∑ a, ((p a : ℂ) * Complex.cos (2 * Real.pi * (fr a * t i / n)) +
      q a * Complex.sin (2 * Real.pi * (fr a * t i / n))))
      = ((∑ a, (p a * Real.cos (2 * Real.pi * (fr a * t i / n)) +
            q a * Real.sin (2 * Real.pi * (fr a * t i / n))) : ℝ) : ℂ) := by push_cast; rfl
  rw [h5, Complex.ofReal_re]

example : ∀ a : Fin 2, 2 * |(![1, -2] : Fin 2 → ℤ) a| < ((5 : ℕ) : ℤ) := by decide

/-! ## C74 -/

/-- C74: with an increasing `data_x`, interpolating at a tabulated abscissa returns the tabulated
value. -/
theorem C74_data_x_samples (cfg : FFTConfig) (x dx : Fin n → ℝ) (hdx : StrictMono dx) {m : ℕ}
    (j : Fin m → Fin n) :
    fourierInterp1d cfg (rArr x) (Arr.ofVec fun i => dx (j i)) (some (Arr.ofVec dx)) true
      = .ok ⟨m, .real (realArr fun i => x (j i))⟩ := by
  rw [rArr_eq_cArr, fourierInterp1d_vec_some, retReal_true]
  have h : ∀ i, Np.interp (dx (j i)) dx (fun j : Fin n => ((j : ℕ) : ℝ)) = (((j i : ℕ) : ℤ) : ℝ) := by
    intro i; rw [Np.interp_at hdx]; simp
  have h2 : ∀ i, interpC (fun i => (x i : ℂ)) (Np.interp (dx (j i)) dx (fun j : Fin n => ((j : ℕ) : ℝ)))
      = x (j i) := by
    intro i; rw [h, interpC_int, Spec.wrap_val]
  congr 4
  funext i
  rw [h2]
  simp

/-- C74: for a uniform grid `data_x[j] = a + b·j` and abscissae inside the table this is the plain
interpolation at the pixel coordinate `(t-a)/b`. -/
theorem C74_data_x_uniform (cfg : FFTConfig) (x : Fin n → ℂ) (a b : ℝ) (hb : 0 < b) {m : ℕ}
    (t : Fin m → ℝ) (h0 : ∀ i, a ≤ t i) (h1 : ∀ i, t i ≤ a + b * (n - 1)) (rr : Bool) :
    fourierInterp1d cfg (cArr x) (Arr.ofVec t) (some (Arr.ofVec fun j : Fin n => a + b * ((j : ℕ) : ℝ))) rr
      = fourierInterp1d cfg (cArr x) (Arr.ofVec fun i => (t i - a) / b) none rr := by
  rw [fourierInterp1d_vec_some, fourierInterp1d_vec]
  have hmono : StrictMono fun j : Fin n => a + b * ((j : ℕ) : ℝ) := by
    intro i j hij
    have : ((i : ℕ) : ℝ) < ((j : ℕ) : ℝ) := by exact_mod_cast hij
    simp only; nlinarith
  have h : ∀ i, Np.interp (t i) (fun j : Fin n => a + b * ((j : ℕ) : ℝ)) (fun j : Fin n => ((j : ℕ) : ℝ))
      = (t i - a) / b := by
    intro i
    set s := (t i - a) / b with hs
    have hts : t i = a + b * s := by rw [hs]; field_simp; ring
    have hs0 : 0 ≤ s := by rw [hs]; apply div_nonneg <;> linarith [h0 i]
    have hs1 : s ≤ n - 1 := by
      have := h1 i; rw [hts] at this; nlinarith
    have hfl : ⌊s⌋₊ < n := by
      have := Nat.floor_le hs0
      have hn : (0:ℝ) < n := by exact_mod_cast Nat.pos_of_ne_zero (NeZero.ne n)
      have : (⌊s⌋₊ : ℝ) < n := by linarith
      exact_mod_cast this
    have hle := Nat.floor_le hs0
    have hlt := Nat.lt_floor_add_one s
    unfold Np.interp
    rw [Np.lastLE_eq hmono ⟨⌊s⌋₊, hfl⟩ (t i) (by simp only; rw [hts]; nlinarith)
      (by intro _; simp only; rw [hts]; push_cast; nlinarith)]
    simp only
    split_ifs with hlast
    · rw [hts]
      push_cast
      have : b ≠ 0 := hb.ne'
      rw [show a + b * ((⌊s⌋₊ : ℝ) + 1) - (a + b * (⌊s⌋₊ : ℝ)) = b by ring,
        show a + b * s - (a + b * (⌊s⌋₊ : ℝ)) = b * (s - (⌊s⌋₊ : ℝ)) by ring]
      field_simp
      ring
    · have : (n : ℝ) - 1 ≤ (⌊s⌋₊ : ℝ) := by
        have : n - 1 ≤ ⌊s⌋₊ := by omega
        have h2 : ((n - 1 : ℕ) : ℝ) ≤ (⌊s⌋₊ : ℝ) := by exact_mod_cast this
        rw [Nat.cast_sub (Nat.one_le_iff_ne_zero.2 (NeZero.ne n))] at h2
        simpa using h2
      linarith
  congr 3
  funext i
  congr 1
  exact h i

/-- C74: abscissae left / right of the table are clamped to the first / last pixel — unlike the
periodic extrapolation without `data_x`. -/
theorem C74_data_x_clamped (cfg : FFTConfig) (x dx : Fin n → ℝ) (hdx : StrictMono dx) {m : ℕ}
    (t : Fin m → ℝ) (side : Fin m → Bool)
    (hl : ∀ i, side i = false → t i < dx 0)
    (hr : ∀ i, side i = true → ∀ j, dx j ≤ t i) :
    fourierInterp1d cfg (rArr x) (Arr.ofVec t) (some (Arr.ofVec dx)) true
      = .ok ⟨m, .real (realArr fun i => if side i then x (Spec.wrap n (-1)) else x 0)⟩ := by
  rw [rArr_eq_cArr, fourierInterp1d_vec_some, retReal_true]
  have hn : 0 < n := Nat.pos_of_ne_zero (NeZero.ne n)
  have hi : ∀ i, Np.interp (t i) dx (fun j : Fin n => ((j : ℕ) : ℝ))
      = ((if side i then ((n - 1 : ℕ) : ℤ) else 0 : ℤ) : ℝ) := by
    intro i
    cases hs : side i with
    | false =>
      have hnone : Np.lastLE dx (t i) = none := by
        unfold Np.lastLE
        rw [dif_neg]
        rintro ⟨j, hj⟩
        have hj' : dx j ≤ t i := by simpa using hj
        have : dx 0 ≤ dx j := hdx.monotone (by show ((0 : Fin n) : ℕ) ≤ j; simp)
        linarith [hl i hs]
      unfold Np.interp
      rw [hnone]
      simp
    | true =>
      unfold Np.interp
      rw [Np.lastLE_eq hdx ⟨n - 1, by omega⟩ (t i) (hr i hs _) (by intro h; simp at h; omega)]
      simp
      intro h
      omega
  congr 4
  funext i
  rw [hi, interpC_int]
  cases side i with
  | false => 
    simp only [Bool.false_eq_true, if_false, Complex.ofReal_re]
    congr 1
  | true =>
    simp only [if_true, Complex.ofReal_re]
    congr 1
    apply Spec.wrap_congr
    rw [Nat.cast_sub hn]
    have := (Int.ModEq.refl (-1 : ℤ)).add (show (n : ℤ) ≡ 0 [ZMOD n] by simp [Int.ModEq])
    have h2 : (n : ℤ) - ((1 : ℕ) : ℤ) = -1 + n := by push_cast; ring
    rw [h2]; simp

end one

/-! ## C11 -/

section two
variable {ny nx : ℕ} [NeZero ny] [NeZero nx]

/-- the coordinates given as a pair of vectors `([y…], [x…])` -/
def pairInds {m l : ℕ} (vy : Fin m → ℝ) (vx : Fin l → ℝ) : OutInds := .seq [⟨m, vy⟩, ⟨l, vx⟩]

/-- C11: at integer coordinates the pixel is returned (periodically), default mode. -/
theorem C11_samples (cfg : FFTConfig) (x : Fin ny × Fin nx → ℝ) {m l : ℕ} (zy : Fin m → ℤ)
    (zx : Fin l → ℤ) :
    fourierInterp2d cfg (rArr x) (pairInds (fun i => (zy i : ℝ)) (fun i => (zx i : ℝ))) true
      = .ok ⟨m, l, .real (realArr fun i => x (Spec.wrap ny (zy i.1), Spec.wrap nx (zx i.2)))⟩ := by
  rw [rArr_eq_cArr, fourierInterp2d_ok cfg _ _ rfl ⟨m, _⟩ ⟨l, _⟩ rfl rfl, retReal_true]
  simp only [interp2C_int]
  rfl

/-- C11: `fourier_interpnd` on 2-D data is `fourier_interp2d`, for every form of `outinds`
(exceptions included). -/
theorem C11_interpnd_eq_interp2d (cfg : FFTConfig) (x : Fin ny × Fin nx → ℂ) (o : OutInds)
    (rr : Bool) : fourierInterpnd2 cfg (cArr x) o rr = fourierInterp2d cfg (cArr x) o rr := by
  cases hc : checkOutInds o with
  | error err =>
    simp [fourierInterpnd2, fourierInterp2d, hc, bind, Except.bind]
  | ok u =>
    cases hy : coordY o with
    | error err => simp [fourierInterpnd2, fourierInterp2d, hc, hy, bind, Except.bind]
    | ok vy =>
      cases hx : coordX o with
      | error err => simp [fourierInterpnd2, fourierInterp2d, hc, hy, hx, bind, Except.bind]
      | ok vx =>
        rw [fourierInterpnd2_ok cfg x o hc vy vx hy hx, fourierInterp2d_ok cfg x o hc vy vx hy hx]

/-- C11: an index cube (like `np.indices`) whose coordinates vary along their own axis only gives
the same result as the two vectors. -/
theorem C11_cube_eq_vectors (cfg : FFTConfig) (x : Fin ny × Fin nx → ℂ) (a : Arr) {m l : ℕ}
    (hm : 0 < m) (hl : 0 < l) (hshape : a.shape = [2, m, l]) (vy : Fin m → ℝ) (vx : Fin l → ℝ)
    (hy : ∀ (i : Fin m) (j : Fin l), a.val [0, i, j] = vy i)
    (hx : ∀ (i : Fin m) (j : Fin l), a.val [1, i, j] = vx j) (rr : Bool) :
    fourierInterp2d cfg (cArr x) (.nd a) rr = fourierInterp2d cfg (cArr x) (pairInds vy vx) rr := by
  rw [fourierInterp2d_ok cfg x (pairInds vy vx) rfl ⟨m, vy⟩ ⟨l, vx⟩ rfl rfl]
  have hnd : a.ndim = 3 := by simp [Arr.ndim, hshape]
  have hd0 : a.dim 0 = 2 := by simp [Arr.dim, hshape]
  have hd1 : a.dim 1 = m := by simp [Arr.dim, hshape]
  have hd2 : a.dim 2 = l := by simp [Arr.dim, hshape]
  apply fourierInterp2d_ok cfg x (.nd a) (by simp [checkOutInds, hnd, hd0]) ⟨m, vy⟩ ⟨l, vx⟩
  · simp only [coordY, hnd, if_true, hd2, hl.ne', if_false]
    congr 1
    subst hd1
    congr 1
    funext i
    exact hy i ⟨0, hl⟩
  · simp only [coordX, hnd, if_true, hd1, hm.ne', if_false]
    congr 1
    subst hd2
    congr 1
    funext i
    exact hx ⟨0, hm⟩ i

/-- C11: the plain 2 × m array form (two rows of coordinates) equals the pair of vectors. -/
theorem C11_rows_eq_vectors (cfg : FFTConfig) (x : Fin ny × Fin nx → ℂ) (a : Arr) {m : ℕ}
    (hshape : a.shape = [2, m]) (vy vx : Fin m → ℝ)
    (hy : ∀ i : Fin m, a.val [0, i] = vy i) (hx : ∀ i : Fin m, a.val [1, i] = vx i) (rr : Bool) :
    fourierInterp2d cfg (cArr x) (.nd a) rr = fourierInterp2d cfg (cArr x) (pairInds vy vx) rr := by
  rw [fourierInterp2d_ok cfg x (pairInds vy vx) rfl ⟨m, vy⟩ ⟨m, vx⟩ rfl rfl]
  have hnd : a.ndim = 2 := by simp [Arr.ndim, hshape]
  have hd0 : a.dim 0 = 2 := by simp [Arr.dim, hshape]
  have hd1 : a.dim 1 = m := by simp [Arr.dim, hshape]
  apply fourierInterp2d_ok cfg x (.nd a) (by simp [checkOutInds, hnd, hd0]) ⟨m, vy⟩ ⟨m, vx⟩
  · simp only [coordY, hnd]
    rw [if_neg (by norm_num)]
    congr 1
    subst hd1
    congr 1
    funext i
    exact hy i
  · simp only [coordX, hnd]
    rw [if_neg (by norm_num)]
    congr 1
    subst hd1
    congr 1
    funext i
    exact hx i

/-- C11: the 2-D result (complex mode) is 1-D interpolation along x of 1-D interpolation along y. -/
theorem C11_separable (cfg : FFTConfig) (x : Fin ny × Fin nx → ℂ) {m l : ℕ} (vy : Fin m → ℝ)
    (vx : Fin l → ℝ) :
    ∃ (u : Fin nx → Fin m → ℂ) (v : Fin m → Fin l → ℂ),
      (∀ j, fourierInterp1d cfg (cArr fun i => x (i, j)) (Arr.ofVec vy) none false
          = .ok ⟨m, .cplx (cArr (u j))⟩) ∧
      (∀ a, fourierInterp1d cfg (cArr fun j => u j a) (Arr.ofVec vx) none false
          = .ok ⟨l, .cplx (cArr (v a))⟩) ∧
      fourierInterp2d cfg (cArr x) (pairInds vy vx) false
          = .ok ⟨m, l, .cplx (cArr fun i => v i.1 i.2)⟩ := by
  refine ⟨fun j i => interpC (fun i' => x (i', j)) (vy i),
    fun i k => interpC (fun j => interpC (fun i' => x (i', j)) (vy i)) (vx k), ?_, ?_, ?_⟩
  · intro j
    rw [fourierInterp1d_vec, retReal_false]
  · intro a
    rw [fourierInterp1d_vec, retReal_false]
  · rw [fourierInterp2d_ok cfg x (pairInds vy vx) rfl ⟨m, vy⟩ ⟨l, vx⟩ rfl rfl, retReal_false]
    simp only [interp2C_sep]

/-- a concrete index cube meeting the hypotheses of `C11_cube_eq_vectors` -/
example : ∃ a : Arr, a.shape = [2, 2, 3] ∧
    (∀ (i : Fin 2) (j : Fin 3), a.val [0, i, j] = (fun i : Fin 2 => ((i : ℕ) : ℝ)) i) ∧
    (∀ (i : Fin 2) (j : Fin 3), a.val [1, i, j] = (fun j : Fin 3 => ((j : ℕ) : ℝ)) j) :=
  ⟨⟨[2, 2, 3], fun l => if l.getD 0 0 = 0 then l.getD 1 0 else l.getD 2 0⟩, rfl,
    fun _ _ => rfl, fun _ _ => rfl⟩

/-! ## C12 -/

/-- C12: interpolating an image at coordinates displaced by `(-dy, -dx)` is shifting it by
`(dx, dy)` — default mode, real data, every axis length. -/
theorem C12_interp_eq_shift_2d (cfg : FFTConfig) (x : Fin ny × Fin nx → ℝ) (dx dy : ℝ) (ra : Bool) :
    ∃ y, shift2d cfg (rArr x) dx dy 0 ra true = .real (realArr y) ∧
      fourierInterp2d cfg (rArr x) (pairInds (fun i : Fin ny => ((i : ℕ) : ℝ) - dy)
        (fun i : Fin nx => ((i : ℕ) : ℝ) - dx)) true = .ok ⟨ny, nx, .real (realArr y)⟩ := by
  refine ⟨_, by rw [shift2d_eq, shiftReturn_real], ?_⟩
  rw [rArr_eq_cArr, fourierInterp2d_ok cfg _ _ rfl ⟨ny, _⟩ ⟨nx, _⟩ rfl rfl, retReal_true]
  congr 3
  funext i
  simp only [realArr]
  congr 1
  rw [interp2C_displaced]
  rw [Complex.conj_re]
  simp_rw [shiftKernel_zero]
  rfl

/-- C12 in one dimension. -/
theorem C12_interp_eq_shift_1d {n : ℕ} [NeZero n] (cfg : FFTConfig) (x : Fin n → ℝ) (d : ℝ)
    (ra : Bool) :
    ∃ y, shiftnd (D := 1) (s := fun _ => n) cfg (rArr fun i => x (i 0)) [d] 0 ra true
        = .real (realArr fun i => y (i 0)) ∧
      fourierInterp1d cfg (rArr x) (Arr.ofVec fun i : Fin n => ((i : ℕ) : ℝ) - d) none true
        = .ok ⟨n, .real (realArr y)⟩ := by
  refine ⟨fun i => (filt (fun k => ex (-(d * Np.fftfreq n k))) (fun i => (x i : ℂ)) i).re, ?_, ?_⟩
  · rw [shiftnd_eq, shiftReturn_real]
    let φ : (∀ _ : Fin 1, Fin n) ≃ Fin n := Equiv.funUnique (Fin 1) (Fin n)
    have he : ∀ k j : (∀ _ : Fin 1, Fin n), e (φ k) (φ j) = e k j := by
      intro k j
      rw [e_pi, Fin.prod_univ_one]; rfl
    have := filt_reindex φ he (fun k => ex (-(d * Np.fftfreq n k))) (fun i => (x i : ℂ))
    congr 1
    funext i
    simp only [realArr]
    congr 1
    have h2 := congrFun this i
    rw [show (filt (fun k => ex (-(d * Np.fftfreq n k))) (fun i => (x i : ℂ)) (i 0))
      = (filt (fun k => ex (-(d * Np.fftfreq n k))) (fun i => (x i : ℂ)) (φ i)) from rfl, ← h2]
    congr 3
    funext k
    rw [shiftKernel_zero, freqND_eq_sum, Fin.sum_univ_one]
    rfl
  · rw [rArr_eq_cArr, fourierInterp1d_vec, retReal_true]
    congr 3
    funext i
    simp only [realArr]
    congr 1
    rw [interpC_displaced, Complex.conj_re]

/-! ## C13 -/

/-- C13: `fourier_interp1d` raises ValueError exactly when `out_x` is not 1-D or `data_x` has a
different shape from `data`, and otherwise returns normally (NaN data included). -/
theorem C13_interp1d_errors {n : ℕ} [NeZero n] (cfg : FFTConfig) (data : Fin n → CPix)
    (outX : Arr) (dataX : Option Arr) (rr : Bool) :
    ((outX.ndim ≠ 1 ∨ ∃ dx, dataX = some dx ∧ dx.shape ≠ [n]) →
      fourierInterp1d cfg data outX dataX rr = .error .valueError) ∧
    (¬ (outX.ndim ≠ 1 ∨ ∃ dx, dataX = some dx ∧ dx.shape ≠ [n]) →
      ∃ r, fourierInterp1d cfg data outX dataX rr = .ok r ∧ r.size = outX.dim 0) := by
  constructor
  · rintro (h | ⟨dx, rfl, h⟩)
    · simp [fourierInterp1d, h]
    · by_cases h1 : outX.ndim = 1 <;> simp [fourierInterp1d, h, h1]
  · intro h
    push Not at h
    obtain ⟨h1, h2⟩ := h
    cases dataX with
    | none => cases rr <;> simp [fourierInterp1d, h1]
    | some dx =>
      have := h2 dx rfl
      cases rr <;> simp [fourierInterp1d, h1, this]

/-- C13: `fourier_interp2d` raises ValueError exactly when the index array is neither 2-D nor 3-D
or does not have exactly two coordinate sets. -/
theorem C13_interp2d_errors (cfg : FFTConfig) (data : Fin ny × Fin nx → CPix) (o : OutInds)
    (rr : Bool) :
    fourierInterp2d cfg data o rr = .error .valueError ↔
      match o with
      | .nd a => (a.ndim ≠ 2 ∧ a.ndim ≠ 3) ∨ a.dim 0 ≠ 2
      | .seq xs => xs.length ≠ 2 := by
  cases o with
  | nd a =>
    simp only
    by_cases h1 : a.ndim ≠ 3 ∧ a.ndim ≠ 2
    · simp [fourierInterp2d, checkOutInds, h1, bind, Except.bind]
    · by_cases h2 : a.dim 0 = 2
      · have hc : checkOutInds (.nd a) = .ok () := by
          rw [checkOutInds, if_neg h1, if_neg (by simp [h2])]
        constructor
        · intro h
          exfalso
          simp only [fourierInterp2d, hc, bind, Except.bind, coordY, coordX] at h
          by_cases h3 : a.ndim = 3 <;> by_cases h4 : a.dim 2 = 0 <;> by_cases h5 : a.dim 1 = 0 <;>
            cases rr <;> simp [h3, h4, h5, pure, Except.pure] at h
        · rintro (⟨h3, h4⟩ | h3)
          · exact absurd ⟨h4, h3⟩ h1
          · exact absurd h2 h3
      · have hc : checkOutInds (.nd a) = .error .valueError := by
          rw [checkOutInds, if_neg h1, if_pos h2]
        simp [fourierInterp2d, hc, h2, bind, Except.bind]
  | seq xs =>
    simp only
    by_cases h : xs.length = 2
    · obtain ⟨a, b, rfl⟩ := List.length_eq_two.1 h
      cases rr <;> simp [fourierInterp2d, checkOutInds, coordY, coordX, bind, Except.bind, pure,
        Except.pure]
    · simp [fourierInterp2d, checkOutInds, h, bind, Except.bind]

end two

end ImgReg
