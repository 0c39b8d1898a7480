import Verif.Props.Again
import Verif.Props.Zoom
import Verif.Props.Upsample
import Verif.Props.Transpose
import Verif.Lemmas.IterZoomBound

/-!
# Resampling (C151): what `fourier_interp1d/2d`, the zooms and `upsample_image` keep

Linearity, moves, transposition, stability, conservation of flux and energy on the full fine grid, and resampling twice.
-/

open Complex Finset
open scoped ComplexConjugate

namespace ImgReg

section one
variable {n : ℕ} [NeZero n]

/-- the coefficients of the interpolant displaced by `τ` -/
noncomputable def coefAt (x : Fin n → ℂ) (τ : ℝ) (k : Fin n) : ℂ := idft x k * ex (-(Np.fftfreq n k * τ))

theorem fine_eq (x : Fin n → ℂ) (N : ℕ) [NeZero N] (τ : ℝ) (a : Fin N) :
    interpC x (τ + ((a : ℕ) : ℝ) * ((n : ℝ) / N)) = ∑ k : Fin n, coefAt x τ k * conj (e (Spec.wrap N (Np.fftfreqInt n k)) a) := by
  unfold interpC coefAt
  refine Finset.sum_congr rfl fun k _ => ?_
  rw [e_wrap_fin, conj_ex, mul_assoc, ← ex_add, Np.fftfreq_eq]
  have hn : (n : ℝ) ≠ 0 := nR_ne_zero
  have hN : (N : ℝ) ≠ 0 := nR_ne_zero
  congr 2
  field_simp
  ring

theorem fine_idft (x : Fin n → ℂ) (N : ℕ) [NeZero N] (τ : ℝ) (j : Fin N) :
    idft (fun a : Fin N => interpC x (τ + ((a : ℕ) : ℝ) * ((n : ℝ) / N))) j
      = ∑ k : Fin n, if j = Spec.wrap N (Np.fftfreqInt n k) then coefAt x τ k else 0 := by
  simp only [fine_eq]
  rw [idft_sum]
  refine Finset.sum_congr rfl fun k _ => ?_
  rw [idft_smul]
  show coefAt x τ k * idft (fun a : Fin N => conj (e (Spec.wrap N (Np.fftfreqInt n k)) a)) j = _
  rw [idft_char]
  simp

omit [NeZero n] in
theorem fine_freq (N : ℕ) [NeZero N] (h : n ≤ N) (k : Fin n) :
    Np.fftfreqInt N (Spec.wrap N (Np.fftfreqInt n k)) = Np.fftfreqInt n k := by
  have h1 : Np.fftfreqInt N (Spec.wrap N (Np.fftfreqInt n k)) ≡ Np.fftfreqInt n k [ZMOD N] :=
    (Np.fftfreqInt_modEq _ _ (Spec.wrap N _).isLt).trans (Spec.wrap_modEq N _)
  have h2 := Np.two_fftfreqInt_lt N _ (Spec.wrap N (Np.fftfreqInt n k)).isLt
  have h3 := Np.neg_le_two_fftfreqInt N _ (Spec.wrap N (Np.fftfreqInt n k)).isLt
  have h4 := Np.two_fftfreqInt_lt n _ k.isLt
  have h5 := Np.neg_le_two_fftfreqInt n _ k.isLt
  generalize Np.fftfreqInt N (Spec.wrap N (Np.fftfreqInt n k)) = p at *
  generalize Np.fftfreqInt n k = q at *
  obtain ⟨c, hc⟩ := h1.dvd
  have hN : (0 : ℤ) < N := by have := NeZero.pos N; omega
  have hc1 : c < 1 := by
    by_contra hcon
    have : (N : ℤ) * 1 ≤ N * c := mul_le_mul_of_nonneg_left (by omega) hN.le
    omega
  have hc2 : -1 < c := by
    by_contra hcon
    have : (N : ℤ) * c ≤ N * (-1) := mul_le_mul_of_nonneg_left (by omega) hN.le
    omega
  have : c = 0 := by omega
  rw [this] at hc
  omega

omit [NeZero n] in
theorem fine_inj (N : ℕ) [NeZero N] (h : n ≤ N) :
    Function.Injective fun k : Fin n => Spec.wrap N (Np.fftfreqInt n k) := by
  intro k l hkl
  have := congrArg (fun j : Fin N => Np.fftfreqInt N j) hkl
  simp only [fine_freq N h] at this
  have a1 := Np.fftfreqInt_modEq n k k.isLt
  have a2 := Np.fftfreqInt_modEq n l l.isLt
  rw [this] at a1
  have h3 := a1.symm.trans a2
  have h4 : (k : ℕ) ≡ l [MOD n] := by exact_mod_cast h3
  exact Fin.ext (Nat.ModEq.eq_of_lt_of_lt h4 k.isLt l.isLt)

/-- the interpolant of a finer sampling is the interpolant -/
theorem interpC_fine (x : Fin n → ℂ) (N : ℕ) [NeZero N] (h : n ≤ N) (τ t : ℝ) :
    interpC (fun a : Fin N => interpC x (τ + ((a : ℕ) : ℝ) * ((n : ℝ) / N))) t = interpC x (τ + t * ((n : ℝ) / N)) := by
  rw [interpC]
  simp only [fine_idft, Finset.sum_mul]
  rw [Finset.sum_comm, interpC]
  refine Finset.sum_congr rfl fun k _ => ?_
  simp only [ite_mul, zero_mul, Finset.sum_ite_eq', Finset.mem_univ, if_true]
  unfold coefAt
  rw [mul_assoc, ← ex_add, Np.fftfreq_eq, Np.fftfreq_eq, fine_freq N h]
  have hn : (n : ℝ) ≠ 0 := nR_ne_zero
  have hN : (N : ℝ) ≠ 0 := nR_ne_zero
  congr 2
  field_simp
  ring

/-- the sum over a full period of a finer sampling -/
theorem sum_interpC_fine (x : Fin n → ℂ) (N : ℕ) [NeZero N] (h : n ≤ N) (τ : ℝ) :
    ∑ a : Fin N, interpC x (τ + ((a : ℕ) : ℝ) * ((n : ℝ) / N)) = ((N : ℝ) / n : ℝ) * ∑ i, x i := by
  have h0 := fine_idft x N τ 0
  have e0 : (0 : Fin N) = Spec.wrap N (Np.fftfreqInt n (0 : Fin n)) := by
    rw [Fin.val_zero, Np.fftfreqInt_zero]
    have := Spec.wrap_val N (0 : Fin N)
    simpa using this.symm
  have h1 : (∑ k : Fin n, if (0 : Fin N) = Spec.wrap N (Np.fftfreqInt n k) then coefAt x τ k else 0) = coefAt x τ 0 := by
    rw [Finset.sum_eq_single (0 : Fin n)]
    · rw [if_pos e0]
    · intro k _ hk
      rw [if_neg]
      intro hcon
      exact hk ((fine_inj N h) (hcon.symm.trans e0))
    · simp
  rw [h1] at h0
  unfold coefAt idft at h0
  simp only [Np.fftfreq_zero, zero_mul, neg_zero, FFTIndex.e_zero, mul_one, Fintype.card_fin] at h0
  have hn : (n : ℂ) ≠ 0 := by exact_mod_cast NeZero.ne n
  have hN : (N : ℂ) ≠ 0 := by exact_mod_cast NeZero.ne N
  have he : ex 0 = 1 := by simp [ex]
  rw [he, mul_one] at h0
  push_cast
  generalize (fun a : Fin N => interpC x (τ + ((a : ℕ) : ℝ) * ((n : ℝ) / N))) = y at h0 ⊢
  field_simp at h0 ⊢
  linear_combination h0

/-- the energy over a full period of a finer sampling -/
theorem energy_interpC_fine (x : Fin n → ℂ) (N : ℕ) [NeZero N] (h : n ≤ N) (τ : ℝ) :
    ∑ a : Fin N, ‖interpC x (τ + ((a : ℕ) : ℝ) * ((n : ℝ) / N))‖ ^ 2 = ((N : ℝ) / n) * ∑ i, ‖x i‖ ^ 2 := by
  set y : Fin N → ℂ := fun a => interpC x (τ + ((a : ℕ) : ℝ) * ((n : ℝ) / N)) with hy
  have p1 := parseval_normSq (idft y)
  have p2 := parseval_normSq (idft x)
  rw [dft_idft] at p1 p2
  have h1 : ∑ k, ‖idft x k‖ ^ 2 = ∑ j, ‖idft y j‖ ^ 2 := by
    refine Finset.sum_of_injOn (fun k : Fin n => Spec.wrap N (Np.fftfreqInt n k)) ((fine_inj N h).injOn) (fun _ _ => Finset.mem_coe.2 (Finset.mem_univ _)) ?_ ?_
    · intro j _ hj
      rw [hy, fine_idft, Finset.sum_eq_zero, norm_zero, zero_pow two_ne_zero]
      intro k _
      rw [if_neg]
      intro hcon
      exact hj ⟨k, by simp, hcon.symm⟩
    · intro k _
      rw [hy, fine_idft, Finset.sum_eq_single k]
      · rw [if_pos rfl]
        unfold coefAt
        rw [norm_mul, norm_ex, mul_one]
      · intro l _ hl
        rw [if_neg]
        intro hcon
        exact hl ((fine_inj N h) hcon.symm)
      · simp
  rw [h1, p1] at p2
  simp only [Fintype.card_fin] at p2
  have hn : (n : ℝ) ≠ 0 := nR_ne_zero
  have hN : (N : ℝ) ≠ 0 := nR_ne_zero
  show ∑ a, ‖y a‖ ^ 2 = _
  clear_value y
  field_simp at p2 ⊢
  linear_combination p2

end one

section two
variable {ny nx : ℕ} [NeZero ny] [NeZero nx]

theorem interp2C_fine (x : Fin ny × Fin nx → ℂ) (M L : ℕ) [NeZero M] [NeZero L] (hM : ny ≤ M) (hL : nx ≤ L) (τ σ t u : ℝ) :
    interp2C (fun p : Fin M × Fin L => interp2C x (τ + ((p.1 : ℕ) : ℝ) * ((ny : ℝ) / M)) (σ + ((p.2 : ℕ) : ℝ) * ((nx : ℝ) / L))) t u
      = interp2C x (τ + t * ((ny : ℝ) / M)) (σ + u * ((nx : ℝ) / L)) := by
  rw [interp2C_sep, interp2C_sep]
  have h1 : ∀ b : Fin L, interpC (fun i : Fin M => interp2C x (τ + ((i : ℕ) : ℝ) * ((ny : ℝ) / M)) (σ + ((b : ℕ) : ℝ) * ((nx : ℝ) / L))) t
      = interpC (fun j => interpC (fun i => x (i, j)) (τ + t * ((ny : ℝ) / M))) (σ + ((b : ℕ) : ℝ) * ((nx : ℝ) / L)) := by
    intro b
    have h2 : ∀ i : Fin M, interp2C x (τ + ((i : ℕ) : ℝ) * ((ny : ℝ) / M)) (σ + ((b : ℕ) : ℝ) * ((nx : ℝ) / L))
        = interpC (fun i' => interpC (fun j => x (i', j)) (σ + ((b : ℕ) : ℝ) * ((nx : ℝ) / L))) (τ + ((i : ℕ) : ℝ) * ((ny : ℝ) / M)) := by
      intro i
      rw [← interp2C_transpose, interp2C_sep]
      rfl
    simp only [h2]
    rw [interpC_fine _ M hM]
    have h3 := interp2C_transpose x (τ + t * ((ny : ℝ) / M)) (σ + ((b : ℕ) : ℝ) * ((nx : ℝ) / L))
    rw [interp2C_sep, interp2C_sep x] at h3
    exact h3
  simp only [h1]
  rw [interpC_fine _ L hL]

theorem sum_interp2C_fine (x : Fin ny × Fin nx → ℂ) (M L : ℕ) [NeZero M] [NeZero L] (hM : ny ≤ M) (hL : nx ≤ L) (τ σ : ℝ) :
    ∑ p : Fin M × Fin L, interp2C x (τ + ((p.1 : ℕ) : ℝ) * ((ny : ℝ) / M)) (σ + ((p.2 : ℕ) : ℝ) * ((nx : ℝ) / L))
      = (((M : ℝ) / ny) * ((L : ℝ) / nx) : ℝ) * ∑ i, x i := by
  rw [Fintype.sum_prod_type, Fintype.sum_prod_type_right]
  simp only [interp2C_sep]
  simp only [sum_interpC_fine _ L hL]
  rw [← Finset.mul_sum, Finset.sum_comm]
  simp only [sum_interpC_fine _ M hM]
  rw [← Finset.mul_sum]
  push_cast
  ring

theorem energy_interp2C_fine (x : Fin ny × Fin nx → ℂ) (M L : ℕ) [NeZero M] [NeZero L] (hM : ny ≤ M) (hL : nx ≤ L) (τ σ : ℝ) :
    ∑ p : Fin M × Fin L, ‖interp2C x (τ + ((p.1 : ℕ) : ℝ) * ((ny : ℝ) / M)) (σ + ((p.2 : ℕ) : ℝ) * ((nx : ℝ) / L))‖ ^ 2
      = (((M : ℝ) / ny) * ((L : ℝ) / nx)) * ∑ i, ‖x i‖ ^ 2 := by
  rw [Fintype.sum_prod_type, Fintype.sum_prod_type_right]
  simp only [interp2C_sep]
  simp only [energy_interpC_fine _ L hL]
  rw [← Finset.mul_sum, Finset.sum_comm]
  simp only [energy_interpC_fine _ M hM]
  rw [← Finset.mul_sum]
  ring


/-! ## the theorems -/

/-- C151: `fourier_interp2d` is linear: in complex mode with complex coefficients, in the default real mode with real ones. -/
theorem C151_linear (cfg : FFTConfig) (x y : Fin ny × Fin nx → ℂ) {m l : ℕ} (vy : Fin m → ℝ) (vx : Fin l → ℝ) :
    (∃ X Y : Fin m × Fin l → ℂ,
      fourierInterp2d cfg (cArr x) (pairInds vy vx) false = .ok ⟨m, l, .cplx (cArr X)⟩ ∧
      fourierInterp2d cfg (cArr y) (pairInds vy vx) false = .ok ⟨m, l, .cplx (cArr Y)⟩ ∧
      ∀ a b : ℂ, fourierInterp2d cfg (cArr fun p => a * x p + b * y p) (pairInds vy vx) false
        = .ok ⟨m, l, .cplx (cArr fun q => a * X q + b * Y q)⟩) ∧
    ∃ X Y : Fin m × Fin l → ℝ,
      fourierInterp2d cfg (cArr x) (pairInds vy vx) true = .ok ⟨m, l, .real (realArr X)⟩ ∧
      fourierInterp2d cfg (cArr y) (pairInds vy vx) true = .ok ⟨m, l, .real (realArr Y)⟩ ∧
      ∀ a b : ℝ, fourierInterp2d cfg (cArr fun p => (a : ℂ) * x p + (b : ℂ) * y p) (pairInds vy vx) true
        = .ok ⟨m, l, .real (realArr fun q => a * X q + b * Y q)⟩ := by
  have key : ∀ (z : Fin ny × Fin nx → ℂ) (rr : Bool), fourierInterp2d cfg (cArr z) (pairInds vy vx) rr
      = .ok ⟨m, l, retReal rr fun i => interp2C z (vy i.1) (vx i.2)⟩ := fun z rr =>
    fourierInterp2d_ok cfg z (pairInds vy vx) rfl ⟨m, vy⟩ ⟨l, vx⟩ rfl rfl rr
  have lin : ∀ (a b : ℂ) (t u : ℝ), interp2C (fun p => a * x p + b * y p) t u = a * interp2C x t u + b * interp2C y t u := by
    intro a b t u
    have := interp2C_add (fun p => a * x p) (fun p => b * y p) t u
    rw [this, interp2C_smul, interp2C_smul]
  refine ⟨⟨_, _, key x false, key y false, ?_⟩, ⟨_, _, key x true, key y true, ?_⟩⟩
  · intro a b
    rw [key, retReal_false]
    simp only [lin]
  · intro a b
    rw [key, retReal_true]
    simp only [lin, Complex.add_re, Complex.re_ofReal_mul]

/-- C151: interpolating a rolled image is interpolating the image at positions rolled back (any data, both modes); the same for
`upsample_image`, where the roll is absorbed by `xshift`, `yshift`. -/
theorem C151_roll (cfg : FFTConfig) (x : Fin ny × Fin nx → ℂ) (dy dx : ℤ) :
    (∀ {m l : ℕ} (vy : Fin m → ℝ) (vx : Fin l → ℝ) (rr : Bool),
      fourierInterp2d cfg (cArr (Spec.roll2 dy dx x)) (pairInds vy vx) rr
        = fourierInterp2d cfg (cArr x) (pairInds (fun i => vy i - dy) fun i => vx i - dx) rr) ∧
    ∀ (us : ℕ) (_ : 0 < us) (o : OutSize) (xs ys : ℝ),
      upsampleImage cfg (cArr (Spec.roll2 dy dx x)) us o xs ys = upsampleImage cfg (cArr x) us o (xs + us * dx) (ys + us * dy) := by
  have key : ∀ t u : ℝ, interp2C (Spec.roll2 dy dx x) t u = interp2C x (t - dy) (u - dx) := by
    intro t u
    have h1 : Spec.roll2 dy dx x = fun p : Fin ny × Fin nx =>
        interp2C x (-(dy : ℝ) + ((p.1 : ℕ) : ℝ) * ((ny : ℝ) / ny)) (-(dx : ℝ) + ((p.2 : ℕ) : ℝ) * ((nx : ℝ) / nx)) := by
      funext p
      rw [div_self nR_ne_zero, div_self nR_ne_zero]
      have := interp2C_int x (((p.1 : ℕ) : ℤ) - dy) (((p.2 : ℕ) : ℤ) - dx)
      push_cast at this
      rw [show -(dy : ℝ) + ((p.1 : ℕ) : ℝ) * 1 = ((p.1 : ℕ) : ℝ) - dy by ring, show -(dx : ℝ) + ((p.2 : ℕ) : ℝ) * 1 = ((p.2 : ℕ) : ℝ) - dx by ring,
        this]
      rfl
    rw [h1, interp2C_fine x ny nx le_rfl le_rfl, div_self nR_ne_zero, div_self nR_ne_zero]
    congr 1 <;> ring
  constructor
  · intro m l vy vx rr
    rw [fourierInterp2d_ok cfg _ (pairInds vy vx) rfl ⟨m, vy⟩ ⟨l, vx⟩ rfl rfl rr,
      fourierInterp2d_ok cfg _ (pairInds _ _) rfl ⟨m, fun i => vy i - dy⟩ ⟨l, fun i => vx i - dx⟩ rfl rfl rr]
    simp only [key]
  · intro us hus o xs ys
    have h0 : (us : ℝ) ≠ 0 := by exact_mod_cast hus.ne'
    rw [upsampleImage_eq _ _ _ hus, upsampleImage_eq _ _ _ hus]
    simp only [key]
    have e1 : ∀ (a s : ℝ) (d : ℤ), (a - s) / us - d = (a - (s + us * d)) / us := by
      intro a s d
      field_simp
      ring
    simp only [e1]

/-- C151: the transposed image, interpolated at the exchanged coordinates, is the transposed result. -/
theorem C151_transpose (cfg : FFTConfig) (x : Fin ny × Fin nx → ℂ) {m l : ℕ} (vy : Fin m → ℝ) (vx : Fin l → ℝ) (rr : Bool) :
    ∃ X : NdOut (Fin m × Fin l), fourierInterp2d cfg (cArr x) (pairInds vy vx) rr = .ok ⟨m, l, X⟩ ∧
      fourierInterp2d cfg (cArr (Spec.transpose x)) (pairInds vx vy) rr = .ok ⟨l, m, Spec.transposeOut X⟩ := by
  refine ⟨_, fourierInterp2d_ok cfg x (pairInds vy vx) rfl ⟨m, vy⟩ ⟨l, vx⟩ rfl rfl rr, ?_⟩
  rw [fourierInterp2d_ok cfg _ (pairInds vx vy) rfl ⟨l, vx⟩ ⟨m, vy⟩ rfl rfl rr]
  simp only [interp2C_transpose]
  cases rr <;> rfl

/-- C151: no interpolated value moves by more than the square root of the energy of the change made to the image, wherever the
coordinates are. -/
theorem C151_stable (cfg : FFTConfig) (x y : Fin ny × Fin nx → ℝ) {m l : ℕ} (vy : Fin m → ℝ) (vx : Fin l → ℝ) :
    ∃ X Y : Fin m × Fin l → ℝ,
      fourierInterp2d cfg (rArr x) (pairInds vy vx) true = .ok ⟨m, l, .real (realArr X)⟩ ∧
      fourierInterp2d cfg (rArr y) (pairInds vy vx) true = .ok ⟨m, l, .real (realArr Y)⟩ ∧
      ∀ q, |X q - Y q| ≤ Real.sqrt (∑ p, (x p - y p) ^ 2) := by
  have key : ∀ (z : Fin ny × Fin nx → ℝ), fourierInterp2d cfg (rArr z) (pairInds vy vx) true
      = .ok ⟨m, l, .real (realArr fun i => (interp2C (fun p => (z p : ℂ)) (vy i.1) (vx i.2)).re)⟩ := fun z => by
    rw [rArr_eq_cArr]
    exact fourierInterp2d_ok cfg _ (pairInds vy vx) rfl ⟨m, vy⟩ ⟨l, vx⟩ rfl rfl true
  refine ⟨_, _, key x, key y, fun q => ?_⟩
  have h1 : interp2C (fun p => (x p : ℂ)) (vy q.1) (vx q.2) - interp2C (fun p => (y p : ℂ)) (vy q.1) (vx q.2)
      = interp2C (fun p => ((x p - y p : ℝ) : ℂ)) (vy q.1) (vx q.2) := by
    have := interp2C_add (fun p => ((x p - y p : ℝ) : ℂ)) (fun p => (y p : ℂ)) (vy q.1) (vx q.2)
    rw [show (fun p => ((x p - y p : ℝ) : ℂ) + (y p : ℂ)) = fun p => (x p : ℂ) by funext p; push_cast; ring] at this
    rw [this]
    ring
  rw [← Complex.sub_re, h1]
  refine (Complex.abs_re_le_norm _).trans ?_
  unfold interp2C
  refine (norm_sum_le _ _).trans ?_
  have h2 := sum_norm_idft_le fun p => ((x p - y p : ℝ) : ℂ)
  have h3 : l2 (fun p => ((x p - y p : ℝ) : ℂ)) = Real.sqrt (∑ p, (x p - y p) ^ 2) := by
    unfold l2
    congr 1
    refine Finset.sum_congr rfl fun p _ => ?_
    rw [Complex.norm_real, Real.norm_eq_abs, sq_abs]
  rw [← h3]
  refine le_trans (le_of_eq ?_) h2
  refine Finset.sum_congr rfl fun k _ => ?_
  rw [norm_mul, norm_mul, norm_ex, norm_ex, mul_one, mul_one]

/-- C151: `upsample_image` at its default output size conserves: whatever the shifts, the pixels of the upsampled image sum to
`upsample_factor²` times the sum of the image, and so do their squared moduli. -/
theorem C151_upsample_conserves (cfg : FFTConfig) (x : Fin ny × Fin nx → ℂ) (us : ℕ) (hus : 0 < us) (xs ys : ℝ) :
    ∃ y : Fin (ny * us) × Fin (nx * us) → ℂ, upsampleImage cfg (cArr x) us .none xs ys = .ok ⟨ny * us, nx * us, cArr y⟩ ∧
      ∑ q, y q = (us : ℂ) ^ 2 * ∑ p, x p ∧ ∑ q, ‖y q‖ ^ 2 = (us : ℝ) ^ 2 * ∑ p, ‖x p‖ ^ 2 := by
  have hM : NeZero (ny * us) := ⟨mul_ne_zero (NeZero.ne ny) hus.ne'⟩
  have hL : NeZero (nx * us) := ⟨mul_ne_zero (NeZero.ne nx) hus.ne'⟩
  have h0 : (us : ℝ) ≠ 0 := by exact_mod_cast hus.ne'
  have hy0 : (ny : ℝ) ≠ 0 := nR_ne_zero
  have hx0 : (nx : ℝ) ≠ 0 := nR_ne_zero
  have e : ∀ q : Fin (ny * us) × Fin (nx * us), interp2C x ((((q.1 : ℕ) : ℝ) - ys) / us) ((((q.2 : ℕ) : ℝ) - xs) / us)
      = interp2C x (-ys / us + ((q.1 : ℕ) : ℝ) * ((ny : ℝ) / (ny * us : ℕ))) (-xs / us + ((q.2 : ℕ) : ℝ) * ((nx : ℝ) / (nx * us : ℕ))) := by
    intro q
    push_cast
    congr 1 <;> · field_simp; ring
  have r1 : (((ny * us : ℕ) : ℝ) / ny) * (((nx * us : ℕ) : ℝ) / nx) = (us : ℝ) ^ 2 := by
    push_cast
    field_simp
  refine ⟨_, upsampleImage_eq cfg x us hus .none xs ys, ?_, ?_⟩
  · refine (Finset.sum_congr rfl fun q _ => e q).trans ?_
    rw [sum_interp2C_fine x _ _ (Nat.le_mul_of_pos_right _ hus) (Nat.le_mul_of_pos_right _ hus), r1]
    push_cast
    rfl
  · refine (Finset.sum_congr rfl fun q _ => congrArg (fun z => ‖z‖ ^ 2) (e q)).trans ?_
    rw [energy_interp2C_fine x _ _ (Nat.le_mul_of_pos_right _ hus) (Nat.le_mul_of_pos_right _ hus), r1]

/-- C151: upsampling in two steps is upsampling once by the product of the factors; the shifts of the first step count in the
pixels of the second. -/
theorem C151_upsample_twice (cfg : FFTConfig) (x : Fin ny × Fin nx → ℂ) (us vs : ℕ) (hus : 0 < us) (hvs : 0 < vs)
    (xs ys xs' ys' : ℝ) :
    ∃ (_ : NeZero (ny * us)) (_ : NeZero (nx * us)) (y : Fin (ny * us) × Fin (nx * us) → ℂ),
      upsampleImage cfg (cArr x) us .none xs ys = .ok ⟨ny * us, nx * us, cArr y⟩ ∧
      (∀ a b : ℕ, upsampleImage cfg (cArr y) vs (.pair a b) xs' ys'
        = upsampleImage cfg (cArr x) (us * vs) (.pair a b) (xs' + vs * xs) (ys' + vs * ys)) ∧
      upsampleImage cfg (cArr y) vs .none xs' ys' = upsampleImage cfg (cArr x) (us * vs) .none (xs' + vs * xs) (ys' + vs * ys) := by
  have hM : NeZero (ny * us) := ⟨mul_ne_zero (NeZero.ne ny) hus.ne'⟩
  have hL : NeZero (nx * us) := ⟨mul_ne_zero (NeZero.ne nx) hus.ne'⟩
  have h0 : (us : ℝ) ≠ 0 := by exact_mod_cast hus.ne'
  have h0' : (vs : ℝ) ≠ 0 := by exact_mod_cast hvs.ne'
  have hy0 : (ny : ℝ) ≠ 0 := nR_ne_zero
  have hx0 : (nx : ℝ) ≠ 0 := nR_ne_zero
  have e : (fun q : Fin (ny * us) × Fin (nx * us) => interp2C x ((((q.1 : ℕ) : ℝ) - ys) / us) ((((q.2 : ℕ) : ℝ) - xs) / us))
      = fun q => interp2C x (-ys / us + ((q.1 : ℕ) : ℝ) * ((ny : ℝ) / (ny * us : ℕ))) (-xs / us + ((q.2 : ℕ) : ℝ) * ((nx : ℝ) / (nx * us : ℕ))) := by
    funext q
    push_cast
    congr 1 <;> · field_simp; ring
  have key : ∀ a b : ℕ, upsampleImage cfg (cArr fun q : Fin (ny * us) × Fin (nx * us) =>
        interp2C x ((((q.1 : ℕ) : ℝ) - ys) / us) ((((q.2 : ℕ) : ℝ) - xs) / us)) vs (.pair a b) xs' ys'
      = upsampleImage cfg (cArr x) (us * vs) (.pair a b) (xs' + vs * xs) (ys' + vs * ys) := by
    intro a b
    rw [e, upsampleImage_eq _ _ _ hvs, upsampleImage_eq _ _ _ (Nat.mul_pos hus hvs)]
    simp only [interp2C_fine x _ _ (Nat.le_mul_of_pos_right _ hus) (Nat.le_mul_of_pos_right _ hus)]
    have e2 : ∀ (n : ℝ) (_ : n ≠ 0) (i s t : ℝ), -s / us + (i - t) / vs * (n / (n * us)) = (i - (t + vs * s)) / (us * vs) := by
      intro n hn i s t
      field_simp
      ring
    push_cast
    simp only [e2 _ hy0, e2 _ hx0]
    rfl
  have nonePair : ∀ {a b : ℕ} [NeZero a] [NeZero b] (z : Fin a × Fin b → ℂ) (w : ℕ) (s t : ℝ), 0 < w →
      upsampleImage cfg (cArr z) w .none s t = upsampleImage cfg (cArr z) w (.pair (a * w) (b * w)) s t := by
    intro a b _ _ z w s t hw
    rw [upsampleImage_eq _ _ _ hw, upsampleImage_eq _ _ _ hw]
    rfl
  refine ⟨hM, hL, _, upsampleImage_eq cfg x us hus .none xs ys, key, ?_⟩
  rw [nonePair x _ _ _ (Nat.mul_pos hus hvs), ← Nat.mul_assoc, ← Nat.mul_assoc, ← key]
  exact nonePair _ _ _ _ hvs

private theorem zoom_fine (ny' M : ℕ) [NeZero ny'] [NeZero M] (us : ℝ) (hM : (M : ℝ) = us * ny') (c : ℝ) (i : ℝ) :
    c + (i - ((M : ℝ) - 1) / 2) / us = c - ((M : ℝ) - 1) / 2 / us + i * ((ny' : ℝ) / M) := by
  have h1 : (M : ℝ) ≠ 0 := nR_ne_zero
  have h2 : (ny' : ℝ) ≠ 0 := nR_ne_zero
  have h3 : us ≠ 0 := by
    rintro rfl
    rw [zero_mul] at hM
    exact h1 hM
  have : (ny' : ℝ) / M = 1 / us := by
    rw [hM]
    field_simp
  rw [this]
  ring

private theorem le_of_zoom (ny' M : ℕ) (us : ℝ) (h1 : 1 ≤ us) (hM : (M : ℝ) = us * ny') : ny' ≤ M := by
  have : (ny' : ℝ) ≤ M := by
    rw [hM]
    have h0 : (0 : ℝ) ≤ ny' := Nat.cast_nonneg _
    nlinarith
  exact_mod_cast this

/-- C151: a zoom by any factor `usfac ≥ 1` whose output covers the whole field (`usfac` times as many pixels on each axis), on any
target: the output carries `usfac²` times the flux and energy of the image (complex mode), exactly the flux and at most the energy
(default mode, real image), and interpolating the output further is interpolating the image. -/
theorem C151_zoom_conserves (cfg : FFTConfig) (ty tx us : ℝ) (hus : 1 ≤ us) (M L : ℕ) [NeZero M] [NeZero L]
    (hM : (M : ℝ) = us * ny) (hL : (L : ℝ) = us * nx) :
    (∀ x : Fin ny × Fin nx → ℂ, ∃ y : Fin M × Fin L → ℂ,
      zoomOnPixel2 cfg (cArr x) [ty, tx] us (some (M, L)) false false = .ok (.plain ⟨M, L, .cplx (cArr y)⟩) ∧
      ∑ q, y q = (us : ℂ) ^ 2 * ∑ p, x p ∧ ∑ q, ‖y q‖ ^ 2 = us ^ 2 * ∑ p, ‖x p‖ ^ 2 ∧
      ∀ {m l : ℕ} (vy : Fin m → ℝ) (vx : Fin l → ℝ) (rr : Bool),
        fourierInterp2d cfg (cArr y) (pairInds vy vx) rr
          = fourierInterp2d cfg (cArr x) (pairInds (fun i => ty + (vy i - ((M : ℝ) - 1) / 2) / us)
              fun i => tx + (vx i - ((L : ℝ) - 1) / 2) / us) rr) ∧
    ∀ x : Fin ny × Fin nx → ℝ, ∃ y : Fin M × Fin L → ℝ,
      zoomOnPixel2 cfg (rArr x) [ty, tx] us (some (M, L)) true false = .ok (.plain ⟨M, L, .real (realArr y)⟩) ∧
      ∑ q, y q = us ^ 2 * ∑ p, x p ∧ ∑ q, y q ^ 2 ≤ us ^ 2 * ∑ p, x p ^ 2 := by
  have h0 : us ≠ 0 := by positivity
  have hy0 : (ny : ℝ) ≠ 0 := nR_ne_zero
  have hx0 : (nx : ℝ) ≠ 0 := nR_ne_zero
  have hMle := le_of_zoom ny M us hus hM
  have hLle := le_of_zoom nx L us hus hL
  have e : ∀ (x : Fin ny × Fin nx → ℂ) (i j : ℝ),
      interp2C x (ty + (i - ((M : ℝ) - 1) / 2) / us) (tx + (j - ((L : ℝ) - 1) / 2) / us)
        = interp2C x (ty - ((M : ℝ) - 1) / 2 / us + i * ((ny : ℝ) / M)) (tx - ((L : ℝ) - 1) / 2 / us + j * ((nx : ℝ) / L)) := by
    intro x i j
    rw [zoom_fine ny M us hM, zoom_fine nx L us hL]
  have run : ∀ (x : Fin ny × Fin nx → ℂ) (rr : Bool), zoomOnPixel2 cfg (cArr x) [ty, tx] us (some (M, L)) rr false
      = .ok (.plain ⟨M, L, retReal rr fun q : Fin M × Fin L =>
          interp2C x (ty - ((M : ℝ) - 1) / 2 / us + ((q.1 : ℕ) : ℝ) * ((ny : ℝ) / M))
            (tx - ((L : ℝ) - 1) / 2 / us + ((q.2 : ℕ) : ℝ) * ((nx : ℝ) / L))⟩) := by
    intro x rr
    obtain ⟨cube, _, _, hz⟩ := zoomOnPixel2_eq cfg x [ty, tx] us h0 (some (M, L)) M L rfl (NeZero.pos M) (NeZero.pos L) rr false
    rw [hz]
    simp only [zoomReturn, List.getElem?_cons_zero, List.getElem?_cons_succ, zoomAxis_some, Spec.zoomGrid, e]
    rfl
  have r1 : ((M : ℝ) / ny) * ((L : ℝ) / nx) = us ^ 2 := by
    rw [hM, hL]
    field_simp
  constructor
  · intro x
    refine ⟨_, run x false, ?_, ?_, ?_⟩
    · rw [sum_interp2C_fine x _ _ hMle hLle, r1]
      push_cast
      rfl
    · rw [energy_interp2C_fine x _ _ hMle hLle, r1]
    · intro m l vy vx rr
      rw [fourierInterp2d_ok cfg _ (pairInds vy vx) rfl ⟨m, vy⟩ ⟨l, vx⟩ rfl rfl rr,
        fourierInterp2d_ok cfg _ (pairInds _ _) rfl ⟨m, _⟩ ⟨l, _⟩ rfl rfl rr]
      simp only [interp2C_fine x _ _ hMle hLle, e]
  · intro x
    refine ⟨_, by rw [rArr_eq_cArr]; exact run _ true, ?_, ?_⟩
    · rw [← Complex.re_sum, sum_interp2C_fine _ _ _ hMle hLle, r1, Complex.re_ofReal_mul, Complex.re_sum]
      simp only [Complex.ofReal_re]
    · have h := energy_interp2C_fine (fun p => (x p : ℂ)) M L hMle hLle (ty - ((M : ℝ) - 1) / 2 / us) (tx - ((L : ℝ) - 1) / 2 / us)
      rw [r1] at h
      simp only [Complex.norm_real, Real.norm_eq_abs, sq_abs] at h
      rw [← h]
      refine Finset.sum_le_sum fun q _ => ?_
      rw [← sq_abs]
      exact pow_le_pow_left₀ (abs_nonneg _) (Complex.abs_re_le_norm _) 2

end two

/-- C151 in one dimension: `zoom1d` by any factor `usfac ≥ 1` over the whole field, at any offset. -/
theorem C151_zoom1d_conserves {n : ℕ} [NeZero n] (cfg : FFTConfig) (off us : ℝ) (hus : 1 ≤ us) (N : ℕ) [NeZero N]
    (hN : (N : ℝ) = us * n) :
    (∀ x : Fin n → ℂ, ∃ y : Fin N → ℂ,
      zoom1d cfg (cArr x) us (some N) off false false = .ok (.plain ⟨N, .cplx (cArr y)⟩) ∧
      ∑ q, y q = (us : ℂ) * ∑ p, x p ∧ ∑ q, ‖y q‖ ^ 2 = us * ∑ p, ‖x p‖ ^ 2) ∧
    ∀ x : Fin n → ℝ, ∃ y : Fin N → ℝ,
      zoom1d cfg (rArr x) us (some N) off false true = .ok (.plain ⟨N, .real (realArr y)⟩) ∧
      ∑ q, y q = us * ∑ p, x p ∧ ∑ q, y q ^ 2 ≤ us * ∑ p, x p ^ 2 := by
  have h0 : us ≠ 0 := by positivity
  have hn0 : (n : ℝ) ≠ 0 := nR_ne_zero
  have hle := le_of_zoom n N us hus hN
  have run : ∀ (x : Fin n → ℂ) (rr : Bool), zoom1d cfg (cArr x) us (some N) off false rr
      = .ok (.plain ⟨N, retReal rr fun q : Fin N =>
          interpC x (((n : ℝ) - 1) / 2 + off - ((N : ℝ) - 1) / 2 / us + ((q : ℕ) : ℝ) * ((n : ℝ) / N))⟩) := by
    intro x rr
    rw [zoom1d_eq cfg x us h0]
    simp only [zoomReturn, Option.getD_some, Spec.zoomGrid, zoom_fine n N us hN]
    rfl
  have r1 : (N : ℝ) / n = us := by
    rw [hN]
    field_simp
  constructor
  · intro x
    refine ⟨_, run x false, ?_, ?_⟩
    · rw [sum_interpC_fine x N hle, r1]
    · rw [energy_interpC_fine x N hle, r1]
  · intro x
    refine ⟨_, by rw [rArr_eq_cArr]; exact run _ true, ?_, ?_⟩
    · rw [← Complex.re_sum, sum_interpC_fine _ N hle, r1, Complex.re_ofReal_mul, Complex.re_sum]
      simp only [Complex.ofReal_re]
    · have h := energy_interpC_fine (fun p => (x p : ℂ)) N hle (((n : ℝ) - 1) / 2 + off - ((N : ℝ) - 1) / 2 / us)
      rw [r1] at h
      simp only [Complex.norm_real, Real.norm_eq_abs, sq_abs] at h
      rw [← h]
      refine Finset.sum_le_sum fun q _ => ?_
      rw [← sq_abs]
      exact pow_le_pow_left₀ (abs_nonneg _) (Complex.abs_re_le_norm _) 2

/-- a zoom as in `C151_zoom_conserves`: a 4x6 image at 1.5 on 6x9 pixels -/
example : (1 : ℝ) ≤ 3 / 2 ∧ ((6 : ℕ) : ℝ) = 3 / 2 * (4 : ℕ) ∧ ((9 : ℕ) : ℝ) = 3 / 2 * (6 : ℕ) := by norm_num

/-- and its content on an image with one bright pixel -/
example (cfg : FFTConfig) : ∃ y : Fin 6 × Fin 9 → ℝ,
    zoomOnPixel2 cfg (rArr fun p : Fin 4 × Fin 6 => if p = (1, 2) then (8 : ℝ) else 0) [1, 2] (3 / 2) (some (6, 9)) true false
      = .ok (.plain ⟨6, 9, .real (realArr y)⟩) ∧ ∑ q, y q = 18 := by
  obtain ⟨y, h, h1, _⟩ := (C151_zoom_conserves (ny := 4) (nx := 6) cfg 1 2 (3 / 2) (by norm_num) 6 9 (by norm_num) (by norm_num)).2
    fun p => if p = (1, 2) then (8 : ℝ) else 0
  refine ⟨y, h, h1.trans ?_⟩
  rw [Finset.sum_ite_eq']
  norm_num

end ImgReg
