import Verif.Props.Zoom
import Verif.Lemmas.Chi2Shift
import Mathlib.Analysis.Normed.Group.InfiniteSum
import Mathlib.Topology.Algebra.InfiniteSum.Order
import Mathlib.Analysis.Normed.Ring.InfiniteSum
import Mathlib.LinearAlgebra.Pi

/-!
# Aliasing: how far Fourier interpolation and sub-pixel shifts are from the truth for images that are not band limited (C99)
-/

open Complex Finset
open scoped ComplexConjugate

namespace ImgReg

/-- A linear functional on arrays that is exact on the waves in `B` and at most 1 in modulus on all of them is off by at most
twice the total amplitude of the waves outside `B`. -/
theorem alias_core {ι α : Type} [Fintype ι] [DecidableEq ι] (L : (ι → ℂ) → ℂ)
    (hadd : ∀ x y, L (fun i => x i + y i) = L x + L y) (hsmul : ∀ (a : ℂ) x, L (fun i => a * x i) = a * L x)
    (B : α → Prop) [DecidablePred B]
    (w : α → ι → ℂ) (g : α → ℂ) (hg : ∀ m, ‖g m‖ ≤ 1) (hL : ∀ m, ‖L (w m)‖ ≤ 1) (hB : ∀ m, B m → L (w m) = g m)
    (c : α → ℂ) (hc : Summable fun m => ‖c m‖) (x : ι → ℂ) (y : ℂ)
    (hx : ∀ i, HasSum (fun m => c m * w m i) (x i)) (hy : HasSum (fun m => c m * g m) y) :
    ‖L x - y‖ ≤ 2 * ∑' m, if B m then 0 else ‖c m‖ := by
  let L' : (ι → ℂ) →ₗ[ℂ] ℂ := { toFun := L, map_add' := hadd, map_smul' := hsmul }
  have hk : ∀ x, L x = ∑ i, x i * L (Pi.single i 1) := by
    intro x
    have := L'.pi_apply_eq_sum_univ x
    refine this.trans (Finset.sum_congr rfl fun i _ => ?_)
    rw [smul_eq_mul]
    congr 1
    show L _ = L _
    congr 1
    funext j
    rw [Pi.single_apply]
    simp only [eq_comm]
  have h1 : HasSum (fun m => ∑ i, c m * w m i * L (Pi.single i 1)) (∑ i, x i * L (Pi.single i 1)) :=
    hasSum_sum fun i _ => (hx i).mul_right _
  have h2 : HasSum (fun m => c m * (L (w m) - g m)) (L x - y) := by
    rw [hk x]
    refine (h1.sub hy).congr_fun ?_
    intro m
    rw [mul_sub, hk (w m), Finset.mul_sum]
    simp only [mul_assoc]
  have hs : Summable fun m => if B m then 0 else ‖c m‖ := by
    refine hc.of_nonneg_of_le (fun m => ?_) (fun m => ?_) <;> split_ifs <;> simp
  have h3 : ∀ m, ‖c m * (L (w m) - g m)‖ ≤ 2 * if B m then 0 else ‖c m‖ := by
    intro m
    split_ifs with h
    · rw [hB m h]; simp
    · rw [norm_mul]
      have : ‖L (w m) - g m‖ ≤ 2 := by
        refine (norm_sub_le _ _).trans ?_
        have := hL m; have := hg m; linarith
      nlinarith [norm_nonneg (c m)]
  rw [← h2.tsum_eq, ← tsum_mul_left]
  exact tsum_of_norm_bounded (hs.mul_left 2).hasSum h3

theorem abs_re_sub_le {y : ℂ} {f b : ℝ} (h : ‖y - (f : ℂ)‖ ≤ b) : |y.re - f| ≤ b := by
  refine le_trans ?_ h
  have := Complex.abs_re_le_norm (y - (f : ℂ))
  simpa using this

section one
variable {n : ℕ} [NeZero n]

/-- every sampled wave is interpolated by a wave -/
theorem interpC_wave (m : ℤ) (t : ℝ) :
    interpC (fun j : Fin n => ex ((m : ℝ) * ((j : ℕ) : ℝ) / n)) t
      = ex (-(Np.fftfreq n (Spec.wrap n (-m)) * t)) := by
  have hx : (fun j : Fin n => ex ((m : ℝ) * ((j : ℕ) : ℝ) / n))
      = fun j => conj (e (Spec.wrap n (-m)) j) := by
    funext j
    rw [e_wrap_fin, conj_ex]; congr 1; push_cast; ring
  rw [hx]
  unfold interpC
  simp_rw [idft_char]
  rw [Finset.sum_eq_single (Spec.wrap n (-m))]
  · rw [if_pos rfl, one_mul]
  · intro k _ hk; simp [hk]
  · simp

theorem interpC_alias (f : ℝ → ℂ) (c : ℤ → ℂ) (hc : Summable fun m => ‖c m‖)
    (hf : ∀ t : ℝ, HasSum (fun m : ℤ => c m * ex (m * t / n : ℝ)) (f t)) (t : ℝ) :
    ‖interpC (fun j : Fin n => f ((j : ℕ) : ℝ)) t - f t‖ ≤ 2 * ∑' m : ℤ, if 2 * |m| < n then 0 else ‖c m‖ := by
  refine alias_core (fun x => interpC x t) (fun x y => interpC_add x y t) (fun a x => interpC_smul x a t)
    (fun m : ℤ => 2 * |m| < n) (fun m (j : Fin n) => ex ((m : ℝ) * ((j : ℕ) : ℝ) / n))
    (fun m => ex ((m : ℝ) * t / n)) (fun m => (norm_ex _).le) (fun m => ?_) (fun m hm => ?_)
    c hc _ _ (fun j => hf _) (hf _)
  · rw [interpC_wave, norm_ex]
  · exact interpC_exp m hm t

/-- C99: Fourier interpolation of samples of a function that is not band limited.  Let `f` be the sum of an absolutely
convergent Fourier series of period `n`, `f(t) = Σ_m c_m exp(2πi m t/n)`.  Interpolating its samples `f(0), …, f(n-1)` at any real
coordinate `t` gives `f(t)` up to twice the total amplitude at and above the Nyquist frequency (`|m| ≥ n/2`). -/
theorem C99_interp1d (cfg : FFTConfig) (f : ℝ → ℂ) (c : ℤ → ℂ) (hc : Summable fun m => ‖c m‖)
    (hf : ∀ t : ℝ, HasSum (fun m : ℤ => c m * Complex.exp (2 * Real.pi * I * (m * t / n : ℝ))) (f t))
    {M : ℕ} (t : Fin M → ℝ) :
    ∃ y : Fin M → ℂ,
      fourierInterp1d cfg (cArr fun j : Fin n => f ((j : ℕ) : ℝ)) (Arr.ofVec t) none false = .ok ⟨M, .cplx (cArr y)⟩ ∧
      ∀ i, ‖y i - f (t i)‖ ≤ 2 * ∑' m : ℤ, if 2 * |m| < n then 0 else ‖c m‖ :=
  ⟨fun i => interpC (fun j : Fin n => f ((j : ℕ) : ℝ)) (t i), by rw [fourierInterp1d_vec, retReal_false],
    fun i => interpC_alias f c hc hf (t i)⟩

/-- C99, default mode and real data. -/
theorem C99_interp1d_real (cfg : FFTConfig) (f : ℝ → ℝ) (c : ℤ → ℂ) (hc : Summable fun m => ‖c m‖)
    (hf : ∀ t : ℝ, HasSum (fun m : ℤ => c m * Complex.exp (2 * Real.pi * I * (m * t / n : ℝ))) (f t : ℂ))
    {M : ℕ} (t : Fin M → ℝ) :
    ∃ y : Fin M → ℝ,
      fourierInterp1d cfg (rArr fun j : Fin n => f ((j : ℕ) : ℝ)) (Arr.ofVec t) none true = .ok ⟨M, .real (realArr y)⟩ ∧
      ∀ i, |y i - f (t i)| ≤ 2 * ∑' m : ℤ, if 2 * |m| < n then 0 else ‖c m‖ :=
  ⟨fun i => (interpC (fun j : Fin n => (f ((j : ℕ) : ℝ) : ℂ)) (t i)).re,
    by rw [rArr_eq_cArr, fourierInterp1d_vec, retReal_true],
    fun i => abs_re_sub_le (interpC_alias (fun t => (f t : ℂ)) c hc hf (t i))⟩

end one

section two
variable {ny nx : ℕ} [NeZero ny] [NeZero nx]

theorem interp2C_alias (f : ℝ → ℝ → ℂ) (c : ℤ × ℤ → ℂ) (hc : Summable fun m => ‖c m‖)
    (hf : ∀ t u : ℝ, HasSum (fun m : ℤ × ℤ => c m * ex (m.1 * t / ny + m.2 * u / nx : ℝ)) (f t u)) (t u : ℝ) :
    ‖interp2C (fun p : Fin ny × Fin nx => f ((p.1 : ℕ) : ℝ) ((p.2 : ℕ) : ℝ)) t u - f t u‖
      ≤ 2 * ∑' m : ℤ × ℤ, if 2 * |m.1| < ny ∧ 2 * |m.2| < nx then 0 else ‖c m‖ := by
  have hw : ∀ m : ℤ × ℤ, interp2C (fun p : Fin ny × Fin nx =>
      ex ((m.1 : ℝ) * ((p.1 : ℕ) : ℝ) / ny + (m.2 : ℝ) * ((p.2 : ℕ) : ℝ) / nx)) t u
      = interpC (fun j : Fin nx => ex ((m.2 : ℝ) * ((j : ℕ) : ℝ) / nx)) u
        * interpC (fun j : Fin ny => ex ((m.1 : ℝ) * ((j : ℕ) : ℝ) / ny)) t := by
    intro m
    rw [interp2C_sep, mul_comm, ← interpC_smul]
    congr 1
    funext j
    rw [mul_comm, ← interpC_smul]
    congr 1
    funext i
    rw [← ex_add, add_comm]
  refine alias_core (fun x => interp2C x t u) (fun x y => interp2C_add x y t u) (fun a x => interp2C_smul a x t u)
    (fun m : ℤ × ℤ => 2 * |m.1| < ny ∧ 2 * |m.2| < nx)
    (fun m (p : Fin ny × Fin nx) => ex ((m.1 : ℝ) * ((p.1 : ℕ) : ℝ) / ny + (m.2 : ℝ) * ((p.2 : ℕ) : ℝ) / nx))
    (fun m => ex ((m.1 : ℝ) * t / ny + (m.2 : ℝ) * u / nx)) (fun m => (norm_ex _).le) (fun m => ?_) (fun m hm => ?_)
    c hc _ _ (fun j => hf _ _) (hf _ _)
  · rw [hw, norm_mul, interpC_wave, interpC_wave, norm_ex, norm_ex, one_mul]
  · rw [hw, interpC_exp _ hm.1, interpC_exp _ hm.2, ← ex_add, add_comm]

/-- C99 for `fourier_interp2d`: the samples of a function with an absolutely convergent Fourier series of periods `ny`, `nx` are
interpolated up to twice the total amplitude outside the band `|m_y| < ny/2`, `|m_x| < nx/2`. -/
theorem C99_interp2d (cfg : FFTConfig) (f : ℝ → ℝ → ℂ) (c : ℤ × ℤ → ℂ) (hc : Summable fun m => ‖c m‖)
    (hf : ∀ t u : ℝ, HasSum (fun m : ℤ × ℤ => c m * Complex.exp (2 * Real.pi * I * (m.1 * t / ny + m.2 * u / nx : ℝ))) (f t u))
    {M L : ℕ} (ys : Fin M → ℝ) (xs : Fin L → ℝ) :
    ∃ y : Fin M × Fin L → ℂ,
      fourierInterp2d cfg (cArr fun p : Fin ny × Fin nx => f ((p.1 : ℕ) : ℝ) ((p.2 : ℕ) : ℝ)) (pairInds ys xs) false
        = .ok ⟨M, L, .cplx (cArr y)⟩ ∧
      ∀ i, ‖y i - f (ys i.1) (xs i.2)‖
        ≤ 2 * ∑' m : ℤ × ℤ, if 2 * |m.1| < ny ∧ 2 * |m.2| < nx then 0 else ‖c m‖ :=
  ⟨fun i => interp2C (fun p : Fin ny × Fin nx => f ((p.1 : ℕ) : ℝ) ((p.2 : ℕ) : ℝ)) (ys i.1) (xs i.2),
    by rw [fourierInterp2d_ok cfg _ _ rfl ⟨M, ys⟩ ⟨L, xs⟩ rfl rfl, retReal_false],
    fun i => interp2C_alias f c hc hf _ _⟩

/-- C99 for `fourier_interp2d`, default mode and real data. -/
theorem C99_interp2d_real (cfg : FFTConfig) (f : ℝ → ℝ → ℝ) (c : ℤ × ℤ → ℂ) (hc : Summable fun m => ‖c m‖)
    (hf : ∀ t u : ℝ,
      HasSum (fun m : ℤ × ℤ => c m * Complex.exp (2 * Real.pi * I * (m.1 * t / ny + m.2 * u / nx : ℝ))) (f t u : ℂ))
    {M L : ℕ} (ys : Fin M → ℝ) (xs : Fin L → ℝ) :
    ∃ y : Fin M × Fin L → ℝ,
      fourierInterp2d cfg (rArr fun p : Fin ny × Fin nx => f ((p.1 : ℕ) : ℝ) ((p.2 : ℕ) : ℝ)) (pairInds ys xs) true
        = .ok ⟨M, L, .real (realArr y)⟩ ∧
      ∀ i, |y i - f (ys i.1) (xs i.2)|
        ≤ 2 * ∑' m : ℤ × ℤ, if 2 * |m.1| < ny ∧ 2 * |m.2| < nx then 0 else ‖c m‖ :=
  ⟨fun i => (interp2C (fun p : Fin ny × Fin nx => (f ((p.1 : ℕ) : ℝ) ((p.2 : ℕ) : ℝ) : ℂ)) (ys i.1) (xs i.2)).re,
    by rw [rArr_eq_cArr, fourierInterp2d_ok cfg _ _ rfl ⟨M, ys⟩ ⟨L, xs⟩ rfl rfl, retReal_true],
    fun i => abs_re_sub_le (interp2C_alias (fun t u => (f t u : ℂ)) c hc hf _ _)⟩

/-- C99 for `zoom_on_pixel`: zooming into a sampled scene shows the scene itself on the documented grid (spacing `1/usfac`,
centred on the target), up to twice the total amplitude outside the band. -/
theorem C99_zoom_on_pixel (cfg : FFTConfig) (f : ℝ → ℝ → ℝ) (c : ℤ × ℤ → ℂ) (hc : Summable fun m => ‖c m‖)
    (hf : ∀ t u : ℝ,
      HasSum (fun m : ℤ × ℤ => c m * Complex.exp (2 * Real.pi * I * (m.1 * t / ny + m.2 * u / nx : ℝ))) (f t u : ℂ))
    (ty tx us : ℝ) (hus : us ≠ 0) (outshape : Option (ℕ × ℕ)) (M L : ℕ) (ho : outshape.getD (ny, nx) = (M, L))
    (hM : 0 < M) (hL : 0 < L) :
    ∃ y : Fin M × Fin L → ℝ,
      zoomOnPixel2 cfg (rArr fun p : Fin ny × Fin nx => f ((p.1 : ℕ) : ℝ) ((p.2 : ℕ) : ℝ)) [ty, tx] us outshape true false
        = .ok (.plain ⟨M, L, .real (realArr y)⟩) ∧
      ∀ i, |y i - f (ty + (((i.1 : ℕ) : ℝ) - ((M : ℝ) - 1) / 2) / us) (tx + (((i.2 : ℕ) : ℝ) - ((L : ℝ) - 1) / 2) / us)|
        ≤ 2 * ∑' m : ℤ × ℤ, if 2 * |m.1| < ny ∧ 2 * |m.2| < nx then 0 else ‖c m‖ := by
  obtain ⟨ys, xs, cube, r, -, -, -, h2, h3, h4, h5, h6, h7⟩ :=
    C14_zoom_on_pixel_2d cfg (fun p : Fin ny × Fin nx => (f ((p.1 : ℕ) : ℝ) ((p.2 : ℕ) : ℝ) : ℂ)) ty tx us hus outshape M L ho hM hL true
  obtain ⟨y, hy, hb⟩ := C99_interp2d_real (ny := ny) (nx := nx) cfg f c hc hf ys xs
  rw [rArr_eq_cArr] at hy ⊢
  refine ⟨y, by rw [h2]; congr 2; exact Except.ok.inj (h3.symm.trans hy), fun i => ?_⟩
  have grid : ∀ {K : ℕ} (zs : Fin K → ℝ) (c : ℝ), (∀ (i : Fin K) (h : (i : ℕ) + 1 < K), zs ⟨i + 1, h⟩ - zs i = 1 / us) →
      (∀ i, zs i + zs i.rev = 2 * c) → ∀ i : Fin K, zs i = c + (((i : ℕ) : ℝ) - ((K : ℝ) - 1) / 2) / us := by
    intro K zs c hs hc i
    have hK : 0 < K := i.pos
    have h0 : ∀ k (hk : k < K), zs ⟨k, hk⟩ = zs ⟨0, hK⟩ + k / us := by
      intro k
      induction k with
      | zero => intro _; simp
      | succ k ih =>
        intro hk
        have := hs ⟨k, by omega⟩ hk
        have h1 := ih (by omega)
        push_cast
        rw [add_div]
        simp only at this
        linarith
    have h1 := hc ⟨0, hK⟩
    have h2 : (⟨0, hK⟩ : Fin K).rev = ⟨K - 1, by omega⟩ := by ext; simp
    rw [h2, h0 (K - 1)] at h1
    have h3 : ((K - 1 : ℕ) : ℝ) = (K : ℝ) - 1 := by rw [Nat.cast_sub hK]; simp
    rw [h3] at h1
    rw [show i = ⟨(i : ℕ), i.isLt⟩ from rfl, h0 i i.isLt]
    simp only
    rw [sub_div]
    have : ((K : ℝ) - 1) / 2 / us = ((K : ℝ) - 1) / us / 2 := by ring
    rw [this]
    linarith
  rw [← grid ys ty h4 h5, ← grid xs tx h6 h7]
  exact hb i

end two

section nd
variable {D : ℕ} {s : Fin D → ℕ} [∀ d, NeZero (s d)]

theorem filt_alias (f : (Fin D → ℝ) → ℂ) (c : (Fin D → ℤ) → ℂ) (hc : Summable fun m => ‖c m‖)
    (hf : ∀ t : Fin D → ℝ,
      HasSum (fun m : Fin D → ℤ => c m * Complex.exp (2 * Real.pi * I * ∑ d, (m d : ℂ) * (t d : ℂ) / (s d : ℂ))) (f t))
    (a : Fin D → ℝ) (i : ∀ d, Fin (s d)) :
    ‖filt (fun k => shiftKernel (freqND (List.ofFn a) k) 0) (fun i : (∀ d, Fin (s d)) => f fun d => ((i d : ℕ) : ℝ)) i
        - f (fun d => ((i d : ℕ) : ℝ) - a d)‖
      ≤ 2 * ∑' m : Fin D → ℤ, if ∀ d, 2 * |m d| < s d then 0 else ‖c m‖ := by
  have hwave : ∀ (m : Fin D → ℤ) (t : Fin D → ℝ),
      Complex.exp (2 * Real.pi * I * ∑ d, (m d : ℂ) * (t d : ℂ) / (s d : ℂ))
        = ex (∑ d, (m d : ℝ) * t d / s d) := by
    intro m t; unfold ex; congr 1; push_cast; rfl
  refine alias_core (fun x => filt (fun k => shiftKernel (freqND (List.ofFn a) k) 0) x i)
    (fun x y => congrFun (filt_add _ x y) i) (fun b x => congrFun (filt_smul _ x b) i)
    (fun m : Fin D → ℤ => ∀ d, 2 * |m d| < s d)
    (fun m (i : ∀ d, Fin (s d)) => Complex.exp (2 * Real.pi * I * ∑ d, (m d : ℂ) * ((i d : ℕ) : ℂ) / (s d : ℂ)))
    (fun m => Complex.exp (2 * Real.pi * I * ∑ d, (m d : ℂ) * (((i d : ℕ) : ℂ) - a d) / (s d : ℂ)))
    (fun m => ?_) (fun m => ?_) (fun m hm => ?_) c hc _ _ (fun j => ?_) ?_
  · have := hwave m fun d => ((i d : ℕ) : ℝ) - a d
    push_cast at this
    rw [this, norm_ex]
  · have hx : (fun i : (∀ d, Fin (s d)) =>
        Complex.exp (2 * Real.pi * I * ∑ d, (m d : ℂ) * ((i d : ℕ) : ℂ) / (s d : ℂ)))
        = fun i => e (fun d => Spec.wrap (s d) (m d)) i := by
      funext i
      have := hwave m (fun d => ((i d : ℕ) : ℝ))
      push_cast at this
      rw [this, ex_sum, e_pi]
      refine Finset.prod_congr rfl fun d _ => ?_
      rw [e_fin]
      have := ex_div_congr ((Spec.wrap_modEq (s d) (m d)).mul_right (((i d : ℕ) : ℤ)))
      push_cast at this
      exact this.symm
    rw [hx, filt_char, norm_mul, norm_e, norm_shiftKernel, one_mul]
  · have := C73_bandlimited_exact (s := s) ⟨false, false, 1⟩ m hm a
    rw [shiftnd_eq, shiftReturn_cplx, denan_cArr] at this
    injection this with this
    exact Option.some.inj (congrFun this i)
  · have := hf fun d => ((j d : ℕ) : ℝ)
    push_cast at this
    exact this
  · have := hf fun d => ((i d : ℕ) : ℝ) - a d
    push_cast at this
    exact this

/-- C99 for `shiftnd` in any number of dimensions: shifting the samples of a scene `f` (an absolutely convergent Fourier series with
the periods of the array) by any real offsets gives the samples of the displaced scene, up to twice the total amplitude outside
the band `|m_d| < n_d/2`.  Complex mode. -/
theorem C99_shiftnd (cfg : FFTConfig) (f : (Fin D → ℝ) → ℂ) (c : (Fin D → ℤ) → ℂ) (hc : Summable fun m => ‖c m‖)
    (hf : ∀ t : Fin D → ℝ,
      HasSum (fun m : Fin D → ℤ => c m * Complex.exp (2 * Real.pi * I * ∑ d, (m d : ℂ) * (t d : ℂ) / (s d : ℂ))) (f t))
    (a : Fin D → ℝ) :
    ∃ y : (∀ d, Fin (s d)) → ℂ,
      shiftnd cfg (cArr fun i : (∀ d, Fin (s d)) => f fun d => ((i d : ℕ) : ℝ)) (List.ofFn a) 0 false false = .cplx (cArr y) ∧
      ∀ i, ‖y i - f (fun d => ((i d : ℕ) : ℝ) - a d)‖
        ≤ 2 * ∑' m : Fin D → ℤ, if ∀ d, 2 * |m d| < s d then 0 else ‖c m‖ :=
  ⟨_, by rw [shiftnd_eq, shiftReturn_cplx, denan_cArr], fun i => filt_alias f c hc hf a i⟩

/-- C99 for `shiftnd`, default mode and real data. -/
theorem C99_shiftnd_real (cfg : FFTConfig) (f : (Fin D → ℝ) → ℝ) (c : (Fin D → ℤ) → ℂ) (hc : Summable fun m => ‖c m‖)
    (hf : ∀ t : Fin D → ℝ,
      HasSum (fun m : Fin D → ℤ => c m * Complex.exp (2 * Real.pi * I * ∑ d, (m d : ℂ) * (t d : ℂ) / (s d : ℂ))) (f t : ℂ))
    (a : Fin D → ℝ) (ra : Bool) :
    ∃ y : (∀ d, Fin (s d)) → ℝ,
      shiftnd cfg (rArr fun i : (∀ d, Fin (s d)) => f fun d => ((i d : ℕ) : ℝ)) (List.ofFn a) 0 ra true = .real (realArr y) ∧
      ∀ i, |y i - f (fun d => ((i d : ℕ) : ℝ) - a d)|
        ≤ 2 * ∑' m : Fin D → ℤ, if ∀ d, 2 * |m d| < s d then 0 else ‖c m‖ :=
  ⟨_, by rw [shiftnd_eq, shiftReturn_real, denan_rArr],
    fun i => abs_re_sub_le (filt_alias (fun t => (f t : ℂ)) c hc hf a i)⟩

end nd

section shift2
variable {ny nx : ℕ} [NeZero ny] [NeZero nx]

/-- C99 for `shift2d`, default mode and real data. -/
theorem C99_shift2d_real (cfg : FFTConfig) (f : ℝ → ℝ → ℝ) (c : ℤ × ℤ → ℂ) (hc : Summable fun m => ‖c m‖)
    (hf : ∀ t u : ℝ,
      HasSum (fun m : ℤ × ℤ => c m * Complex.exp (2 * Real.pi * I * (m.1 * t / ny + m.2 * u / nx : ℝ))) (f t u : ℂ))
    (dx dy : ℝ) (ra : Bool) :
    ∃ y : Fin ny × Fin nx → ℝ,
      shift2d cfg (rArr fun p : Fin ny × Fin nx => f ((p.1 : ℕ) : ℝ) ((p.2 : ℕ) : ℝ)) dx dy 0 ra true = .real (realArr y) ∧
      ∀ p, |y p - f (((p.1 : ℕ) : ℝ) - dy) (((p.2 : ℕ) : ℝ) - dx)|
        ≤ 2 * ∑' m : ℤ × ℤ, if 2 * |m.1| < ny ∧ 2 * |m.2| < nx then 0 else ‖c m‖ := by
  obtain ⟨y, h1, h2⟩ := C12_interp_eq_shift_2d cfg (fun p : Fin ny × Fin nx => f ((p.1 : ℕ) : ℝ) ((p.2 : ℕ) : ℝ)) dx dy ra
  refine ⟨y, h1, fun p => ?_⟩
  obtain ⟨z, h3, h4⟩ := C99_interp2d_real (ny := ny) (nx := nx) cfg f c hc hf (fun i : Fin ny => ((i : ℕ) : ℝ) - dy)
        (fun i : Fin nx => ((i : ℕ) : ℝ) - dx)
  have h5 := Except.ok.inj (h2.symm.trans h3)
  injection h5 with _ _ h5
  injection h5 with h6
  have h7 : y p = z p := Option.some.inj (congrFun h6 p)
  rw [h7]
  exact h4 p

end shift2

section converge

/-- Fourier interpolation converges: for a real scene `f` of period 1 with an absolutely convergent Fourier series, the
interpolant of `n` equally spaced samples comes uniformly close to `f` as `n` grows. -/
theorem C99_converges (f : ℝ → ℝ) (c : ℤ → ℂ) (hc : Summable fun m => ‖c m‖)
    (hf : ∀ t : ℝ, HasSum (fun m : ℤ => c m * Complex.exp (2 * Real.pi * I * (m * t : ℝ))) (f t : ℂ)) (ε : ℝ) (hε : 0 < ε) :
    ∃ N : ℕ, ∀ (n : ℕ) [NeZero n], N ≤ n → ∀ (cfg : FFTConfig) {M : ℕ} (t : Fin M → ℝ), ∃ y : Fin M → ℝ,
      fourierInterp1d cfg (rArr fun j : Fin n => f (((j : ℕ) : ℝ) / n)) (Arr.ofVec fun i => n * t i) none true
        = .ok ⟨M, .real (realArr y)⟩ ∧
      ∀ i, |y i - f (t i)| < ε := by
  have htail := tendsto_tsum_compl_atTop_zero (fun m : ℤ => ‖c m‖)
  obtain ⟨s, hs⟩ := (Metric.tendsto_atTop.1 htail) (ε / 2) (by linarith)
  have hs := hs s le_rfl
  refine ⟨2 * (s.sup Int.natAbs) + 1, fun n _ hn cfg M t => ?_⟩
  have hn0 : (n : ℝ) ≠ 0 := Nat.cast_ne_zero.2 (NeZero.ne n)
  obtain ⟨y, h1, h2⟩ := C99_interp1d_real (n := n) cfg (fun u => f (u / n)) c hc (fun u => by
    have := hf (u / n)
    simpa only [mul_div_assoc] using this) (fun i => n * t i)
  refine ⟨y, h1, fun i => ?_⟩
  have h3 := h2 i
  rw [mul_div_cancel_left₀ _ hn0] at h3
  refine lt_of_le_of_lt h3 ?_
  have h4 : (∑' m : ℤ, if 2 * |m| < n then 0 else ‖c m‖) ≤ ∑' m : {x // x ∉ s}, ‖c m‖ := by
    have h5 : (∑' m : {x // x ∉ s}, ‖c m‖) = ∑' m : ℤ, Set.indicator {x | x ∉ s} (fun m => ‖c m‖) m :=
      tsum_subtype {x | x ∉ s} (fun m => ‖c m‖)
    rw [h5]
    refine Summable.tsum_le_tsum (fun m => ?_) ?_ ?_
    · by_cases hm : m ∈ s
      · have : m.natAbs ≤ s.sup Int.natAbs := Finset.le_sup (f := Int.natAbs) hm
        have h6 : 2 * |m| < n := by rw [Int.abs_eq_natAbs]; omega
        rw [if_pos h6]
        exact Set.indicator_nonneg (fun _ _ => norm_nonneg _) _
      · rw [Set.indicator_of_mem (by exact hm)]
        split_ifs
        · exact norm_nonneg _
        · exact le_rfl
    · refine hc.of_nonneg_of_le (fun m => ?_) (fun m => ?_) <;> split_ifs <;> simp
    · exact hc.indicator _
  rw [Real.dist_eq, sub_zero] at hs
  have := lt_of_le_of_lt (h4.trans (le_abs_self _)) hs
  linarith

/-- The hypotheses of C99 are met by a real scene with infinitely many harmonics: `f(t) = Σ_m 2^{-|m|} exp(2πi m t/n)`, which is
not band limited at any resolution. -/
example (n : ℕ) : ∃ (c : ℤ → ℂ) (f : ℝ → ℝ), (∀ m, c m ≠ 0) ∧ (Summable fun m => ‖c m‖) ∧
    ∀ t : ℝ, HasSum (fun m : ℤ => c m * Complex.exp (2 * Real.pi * I * (m * t / n : ℝ))) (f t : ℂ) := by
  have hs : Summable fun m : ℤ => ‖((1 / 2 : ℂ) ^ m.natAbs)‖ := by
    have h : Summable fun k : ℕ => ((1 : ℝ) / 2) ^ k := summable_geometric_two
    refine Summable.of_nat_of_neg ?_ ?_ <;> simpa using h
  have hsum : ∀ t : ℝ, Summable fun m : ℤ => (1 / 2 : ℂ) ^ m.natAbs * Complex.exp (2 * Real.pi * I * (m * t / n : ℝ)) := by
    intro t
    refine Summable.of_norm (hs.congr fun m => ?_)
    rw [norm_mul]
    have : ‖Complex.exp (2 * Real.pi * I * (m * t / n : ℝ))‖ = 1 := norm_ex _
    rw [this, mul_one]
  refine ⟨fun m => (1 / 2 : ℂ) ^ m.natAbs, fun t => (∑' m : ℤ, (1 / 2 : ℂ) ^ m.natAbs *
    Complex.exp (2 * Real.pi * I * (m * t / n : ℝ))).re, fun m => pow_ne_zero _ (by norm_num), hs, fun t => ?_⟩
  have h1 := (hsum t).hasSum
  have h2 := (Equiv.neg ℤ).hasSum_iff.2 h1
  have h3 := Complex.hasSum_conj'.2 h1
  have h4 : (fun m : ℤ => conj ((1 / 2 : ℂ) ^ m.natAbs * Complex.exp (2 * Real.pi * I * (m * t / n : ℝ))))
      = (fun m : ℤ => (1 / 2 : ℂ) ^ m.natAbs * Complex.exp (2 * Real.pi * I * (m * t / n : ℝ))) ∘ Equiv.neg ℤ := by
    funext m
    have := conj_ex (m * t / n)
    unfold ex at this
    rw [map_mul, this, map_pow]
    have h5 : conj (1 / 2 : ℂ) = 1 / 2 := by rw [map_div₀, map_one, Complex.conj_ofNat]
    rw [h5]
    simp only [Function.comp, Equiv.neg_apply, Int.natAbs_neg]
    congr 4
    push_cast
    ring
  rw [h4] at h3
  rw [Complex.conj_eq_iff_re.1 (h3.unique h2)]
  exact h1

end converge
end ImgReg
