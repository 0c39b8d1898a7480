import Verif.Model.InexactZoom
import Verif.Lemmas.InexactChi2
import Verif.Lemmas.Zoom

/-! # Error bounds for Fourier interpolation and zooming in inexact arithmetic -/

open Complex Finset

namespace ImgReg

/-- Every operation has relative error at most `δ`: sums of products relative to the sum of the moduli, `np.linspace` relative to the larger
end point. -/
structure Spec.ZoomAccurate (Z : ZoomArith) (δ : ℝ) : Prop where
  base : Spec.ShiftAccurate Z.toShiftArith δ
  divR : ∀ x y : ℝ, y ≠ 0 → |Z.divR x y - x / y| ≤ δ * |x / y|
  dot : ∀ {m k n : ℕ} (a : Fin m × Fin k → ℂ) (b : Fin k × Fin n → ℂ) (i : Fin m × Fin n),
    ‖Z.dot a b i - ∑ l, a (i.1, l) * b (l, i.2)‖ ≤ δ * ∑ l, ‖a (i.1, l)‖ * ‖b (l, i.2)‖
  linspace : ∀ (a b : ℝ) (n : ℕ) (i : Fin n), |Z.linspace a b n i - Np.linspace a b n i| ≤ δ * max |a| |b|

theorem Spec.ZoomAccurate.nonneg {Z : ZoomArith} {δ : ℝ} (h : Spec.ZoomAccurate Z δ) : 0 ≤ δ := h.base.nonneg

/-- the largest coordinate a zoom about `t` can reach -/
noncomputable def Spec.zoomReach (t us : ℝ) (s : ℕ) : ℝ := |t| + |((s : ℝ) - 1) / us / 2|

theorem linspace_convex {n : ℕ} (i : Fin n) : ∃ w : ℝ, 0 ≤ w ∧ w ≤ 1 ∧ ∀ a b : ℝ, Np.linspace a b n i = (1 - w) * a + w * b := by
  have hn : 1 ≤ n := by have := i.isLt; omega
  by_cases h1 : n = 1
  · refine ⟨0, le_rfl, zero_le_one, fun a b => ?_⟩
    subst h1
    have : (i : ℕ) = 0 := by omega
    unfold Np.linspace
    simp
  · have hp : (0 : ℝ) < ((n - 1 : ℕ) : ℝ) := Nat.cast_pos.2 (by omega)
    have hle : ((i : ℕ) : ℝ) ≤ ((n - 1 : ℕ) : ℝ) := Nat.cast_le.2 (by have := i.isLt; omega)
    refine ⟨((i : ℕ) : ℝ) / ((n - 1 : ℕ) : ℝ), by positivity, by rw [div_le_one hp]; exact hle, fun a b => ?_⟩
    unfold Np.linspace
    ring

section
variable {Z : ZoomArith} {δ : ℝ} (hZ : Spec.ZoomAccurate Z δ)
include hZ

/-- the coordinates of a zoom -/
theorem zoomAxisA_near {t' t us : ℝ} (hus : us ≠ 0) (ht : Near t' t ((1 + δ) * |t|) |t|) (s : ℕ) (i : Fin s) :
    Near (zoomAxisA Z t' us s i) (Spec.zoomGrid t us s i) ((1 + δ) ^ 3 * Spec.zoomReach t us s) (Spec.zoomReach t us s) := by
  have h0 := hZ.nonneg
  unfold zoomAxisA Spec.zoomReach
  set h := ((s : ℝ) - 1) / us / 2 with hh
  set h' := Z.divR ((s : ℝ) - 1) us / 2 with hh'
  have n1 : Near h' h ((1 + δ) * |h|) |h| := by
    have := (Near.refl (((s : ℝ) - 1) / us)).step h0 (hZ.divR _ _ hus)
    have e : |h| = |((s : ℝ) - 1) / us| / 2 := by rw [hh, abs_div, abs_two]
    refine ⟨?_, le_rfl, ?_⟩
    · rw [hh', abs_div, abs_two, e]; have := this.le'; linarith
    · have e2 : h' - h = (Z.divR ((s : ℝ) - 1) us - ((s : ℝ) - 1) / us) / 2 := by rw [hh, hh']; ring
      rw [e2, abs_div, abs_two, e]; have := this.dist; linarith
  have nn : Near (-h') (-h) ((1 + δ) * |h|) |h| := by
    refine ⟨by rw [abs_neg]; exact n1.le', by rw [abs_neg], ?_⟩
    have e : -h' - -h = -(h' - h) := by ring
    rw [e, abs_neg]; exact n1.dist
  have a := (ht.add nn).step h0 (hZ.base.addR _ _)
  have b := (ht.add n1).step h0 (hZ.base.addR _ _)
  have e : (1 + δ) * ((1 + δ) * |t| + (1 + δ) * |h|) = (1 + δ) ^ 2 * (|t| + |h|) := by ring
  rw [e] at a b
  have g : Spec.zoomGrid t us s i = Np.linspace (t + -h) (t + h) s i := by
    rw [← sub_eq_add_neg, ← linspace_grid]
  rw [g]
  generalize Z.addR t' (-h') = a' at a
  generalize Z.addR t' h' = b' at b
  generalize t + -h = a0 at a
  generalize t + h = b0 at b
  generalize |t| + |h| = K at a b
  obtain ⟨w, w0, w1, hw⟩ := linspace_convex i
  have c : Near (Np.linspace a' b' s i) (Np.linspace a0 b0 s i) ((1 + δ) ^ 2 * K) K := by
    rw [hw, hw]
    have k1 : ∀ (x y B : ℝ), |x| ≤ B → |y| ≤ B → |(1 - w) * x + w * y| ≤ B := by
      intro x y B hx hy
      have := abs_add_le ((1 - w) * x) (w * y)
      rw [abs_mul, abs_mul, abs_of_nonneg w0, abs_of_nonneg (by linarith : 0 ≤ 1 - w)] at this
      have p := mul_le_mul_of_nonneg_left hx (by linarith : 0 ≤ 1 - w)
      have q := mul_le_mul_of_nonneg_left hy w0
      linarith
    refine ⟨k1 _ _ _ a.le' b.le', k1 _ _ _ a.le b.le, ?_⟩
    have e : (1 - w) * a' + w * b' - ((1 - w) * a0 + w * b0) = (1 - w) * (a' - a0) + w * (b' - b0) := by ring
    rw [e]
    exact k1 _ _ _ a.dist b.dist
  have l1 := hZ.linspace a' b' s i
  have l2 := mul_le_mul_of_nonneg_left (max_le a.le' b.le') h0
  have l3 := abs_add_le (Z.linspace a' b' s i - Np.linspace a' b' s i) (Np.linspace a' b' s i)
  have l4 := abs_add_le (Z.linspace a' b' s i - Np.linspace a' b' s i) (Np.linspace a' b' s i - Np.linspace a0 b0 s i)
  rw [sub_add_cancel] at l3
  rw [sub_add_sub_cancel] at l4
  have e3 : (1 + δ) ^ 3 * K = δ * ((1 + δ) ^ 2 * K) + (1 + δ) ^ 2 * K := by ring
  rw [e3]
  have := c.le'; have := c.dist
  exact ⟨by linarith, c.le, by linarith⟩

/-- an entry of a Fourier kernel -/
theorem exp_near {g' g B : ℝ} {m : ℕ} (hg : Near g' (2 * Real.pi * g) ((1 + δ) ^ m * B) B) :
    ‖Z.expNegI g' - ex (-g)‖ ≤ Spec.kernelErr δ m B := by
  have h1 := hZ.base.expNegI g'
  have h3 := norm_expI_sub_le g' (2 * Real.pi * g)
  have e : ex (-g) = Complex.exp (-I * ((2 * Real.pi * g : ℝ) : ℂ)) := by
    unfold ex; congr 1; push_cast; ring
  rw [e]
  have h4 := norm_add_le (Z.expNegI g' - Complex.exp (-I * (g' : ℂ))) (Complex.exp (-I * (g' : ℂ)) - Complex.exp (-I * ((2 * Real.pi * g : ℝ) : ℂ)))
  rw [sub_add_sub_cancel] at h4
  have h5 := hg.dist
  unfold Spec.kernelErr
  have e2 : ((1 + δ) ^ m - 1) * B = (1 + δ) ^ m * B - B := by ring
  rw [e2]; linarith

/-- `np.exp((-1j*2*np.pi)*(freq*o))` -/
theorem kern2_near {o' o B : ℝ} {m : ℕ} (ho : Near o' o ((1 + δ) ^ m * B) B) (n : ℕ) (k : Fin n) :
    ‖Z.expNegI (Z.mulR Z.twoPi (Z.mulR (Z.freq n k) o')) - ex (-(Np.fftfreq n k * o))‖ ≤ Spec.kernelErr δ (m + 4) (Real.pi * B) := by
  have h0 := hZ.nonneg
  have hpi : (0 : ℝ) < 2 * Real.pi := by positivity
  have h1 : Near Z.twoPi (2 * Real.pi) ((1 + δ) * (2 * Real.pi)) (2 * Real.pi) :=
    Near.step h0 ⟨(abs_of_pos hpi).le, (abs_of_pos hpi).le, by simp⟩ (by rw [abs_of_pos hpi]; exact hZ.base.twoPi)
  have h2 := ((freq_near hZ.base n k).mul ho).step h0 (hZ.base.mulR _ _)
  have h3 := (h1.mul h2).step h0 (hZ.base.mulR _ _)
  have e1 : (1 + δ) * ((1 + δ) * (2 * Real.pi) * ((1 + δ) * ((1 + δ) * (1 / 2) * ((1 + δ) ^ m * B)))) = (1 + δ) ^ (m + 4) * (Real.pi * B) := by ring
  have e2 : 2 * Real.pi * (1 / 2 * B) = Real.pi * B := by ring
  rw [e1, e2] at h3
  exact exp_near hZ h3

/-- `np.exp((-1j*2*np.pi)*freq*o)` -/
theorem kern1_near {o' o B : ℝ} {m : ℕ} (ho : Near o' o ((1 + δ) ^ m * B) B) (n : ℕ) (k : Fin n) :
    ‖Z.expNegI (Z.mulR (Z.mulR Z.twoPi (Z.freq n k)) o') - ex (-(Np.fftfreq n k * o))‖ ≤ Spec.kernelErr δ (m + 4) (Real.pi * B) := by
  have h0 := hZ.nonneg
  have hpi : (0 : ℝ) < 2 * Real.pi := by positivity
  have h1 : Near Z.twoPi (2 * Real.pi) ((1 + δ) * (2 * Real.pi)) (2 * Real.pi) :=
    Near.step h0 ⟨(abs_of_pos hpi).le, (abs_of_pos hpi).le, by simp⟩ (by rw [abs_of_pos hpi]; exact hZ.base.twoPi)
  have h2 := (h1.mul (freq_near hZ.base n k)).step h0 (hZ.base.mulR _ _)
  have h3 := (h2.mul ho).step h0 (hZ.base.mulR _ _)
  have e1 : (1 + δ) * ((1 + δ) * ((1 + δ) * (2 * Real.pi) * ((1 + δ) * (1 / 2))) * ((1 + δ) ^ m * B)) = (1 + δ) ^ (m + 4) * (Real.pi * B) := by ring
  have e2 : 2 * Real.pi * (1 / 2) * B = Real.pi * B := by ring
  have e3 : 2 * Real.pi * Np.fftfreq n k * o = 2 * Real.pi * (Np.fftfreq n k * o) := by ring
  rw [e1, e2, e3] at h3
  exact exp_near hZ h3

end

/-! ### sums of moduli -/

/-- `f'` approximates `f`, complex arrays, in the sum of the moduli -/
structure NearC {ι : Type} [Fintype ι] (f' f : ι → ℂ) (S' S : ℝ) : Prop where
  le' : ∑ p, ‖f' p‖ ≤ S'
  le : ∑ p, ‖f p‖ ≤ S
  dist : ∑ p, ‖f' p - f p‖ ≤ S' - S

section
variable {ι : Type} [Fintype ι]

theorem sum_norm_le_l2 (f : ι → ℂ) : ∑ p, ‖f p‖ ≤ Real.sqrt (Fintype.card ι) * l2 f := by
  have := Real.sum_mul_le_sqrt_mul_sqrt univ (fun _ : ι => (1 : ℝ)) (fun p => ‖f p‖)
  simpa [l2] using this

variable {Z : ZoomArith} {δ : ℝ} (hZ : Spec.ZoomAccurate Z δ)
include hZ

omit [Fintype ι] in
/-- the coefficients of approximate data -/
theorem ifft_nearC [Fintype ι] [AddCommGroup ι] [DecidableEq ι] [FFTIndex ι] {c' c : ι → ℂ} {X' X : ℝ} (h1 : l2 c' ≤ X') (h2 : l2 c ≤ X)
    (h3 : l2 (fun p => c' p - c p) ≤ X' - X) : NearC (Z.ifft c') (idft c) ((1 + δ) * X') X := by
  have h0 := hZ.nonneg
  set q := Real.sqrt (Fintype.card ι) with hq
  have hq0 : 0 ≤ q := Real.sqrt_nonneg _
  have a : l2 (fun i => Z.ifft c' i - idft c' i) ≤ δ * l2 (idft c') := hZ.base.ifft c'
  have a1 := mul_le_mul_of_nonneg_left a hq0
  have e1 := l2_idft_eq c'
  have e2 := l2_idft_eq c
  have e3 := l2_idft_eq (fun p => c' p - c p)
  have e4 : idft (fun p => c' p - c p) = fun p => idft c' p - idft c p := by funext p; rw [idft_sub]
  rw [e4] at e3
  have b1 := l2_add (fun i => Z.ifft c' i - idft c' i) (idft c')
  have b2 := l2_add (fun i => Z.ifft c' i - idft c' i) (fun i => idft c' i - idft c i)
  simp only [sub_add_cancel] at b1
  simp only [sub_add_sub_cancel] at b2
  have b1' := mul_le_mul_of_nonneg_left b1 hq0
  have b2' := mul_le_mul_of_nonneg_left b2 hq0
  have d := mul_le_mul_of_nonneg_left h1 h0
  have e5 : q * (δ * l2 (idft c')) = δ * l2 c' := by rw [← e1]; ring
  rw [mul_add] at b1' b2'
  refine ⟨(sum_norm_le_l2 _).trans ?_, (sum_norm_le_l2 _).trans ?_, (sum_norm_le_l2 _).trans ?_⟩
  · change q * l2 (fun i => Z.ifft c' i) ≤ _; linarith
  · change q * l2 (idft c) ≤ _; linarith
  · change q * l2 (fun i => Z.ifft c' i - idft c i) ≤ _; linarith

omit hZ in
/-- products with kernel entries of modulus 1 -/
theorem NearC.mul_unit [Nonempty ι] {f' f k' k : ι → ℂ} {S' S κ : ℝ} (h : NearC f' f S' S) (hκ : ∀ p, ‖k' p - k p‖ ≤ κ) (hk : ∀ p, ‖k p‖ = 1) :
    ∑ p, ‖f' p‖ * ‖k' p‖ ≤ (1 + κ) * S' ∧ ∑ p, ‖f' p * k' p - f p * k p‖ ≤ (1 + κ) * S' - S := by
  obtain ⟨p0⟩ := ‹Nonempty ι›
  have h0 : 0 ≤ κ := (norm_nonneg _).trans (hκ p0)
  constructor
  · have : ∑ p, ‖f' p‖ * ‖k' p‖ ≤ ∑ p, ‖f' p‖ * (1 + κ) := Finset.sum_le_sum fun p _ => by
      refine mul_le_mul_of_nonneg_left ?_ (norm_nonneg _)
      have := norm_add_le (k' p - k p) (k p)
      rw [sub_add_cancel, hk] at this
      linarith [hκ p]
    rw [← Finset.sum_mul] at this
    have := mul_le_mul_of_nonneg_left h.le' (by linarith : 0 ≤ 1 + κ)
    linarith
  · have : ∑ p, ‖f' p * k' p - f p * k p‖ ≤ ∑ p, (‖f' p‖ * κ + ‖f' p - f p‖) := Finset.sum_le_sum fun p _ => by
      have e : f' p * k' p - f p * k p = f' p * (k' p - k p) + (f' p - f p) * k p := by ring
      rw [e]
      refine (norm_add_le _ _).trans ?_
      rw [norm_mul, norm_mul, hk, mul_one]
      have := mul_le_mul_of_nonneg_left (hκ p) (norm_nonneg (f' p))
      linarith
    rw [Finset.sum_add_distrib, ← Finset.sum_mul] at this
    have a := mul_le_mul_of_nonneg_right h.le' h0
    have := h.dist
    linarith

theorem dot_entry {m k n : ℕ} [NeZero k] {a' : Fin m × Fin k → ℂ} {b' : Fin k × Fin n → ℂ} {f u : Fin k → ℂ} {S' S κ : ℝ} (i : Fin m × Fin n)
    (h : NearC (fun l => a' (i.1, l)) f S' S) (hκ : ∀ l, ‖b' (l, i.2) - u l‖ ≤ κ) (hu : ∀ l, ‖u l‖ = 1) :
    ‖Z.dot a' b' i - ∑ l, f l * u l‖ ≤ (1 + δ) * ((1 + κ) * S') - S := by
  have h0 := hZ.nonneg
  obtain ⟨h1, h2⟩ := h.mul_unit hκ hu
  have d := hZ.dot a' b' i
  have d' := mul_le_mul_of_nonneg_left h1 h0
  have t := norm_add_le (Z.dot a' b' i - ∑ l, a' (i.1, l) * b' (l, i.2)) (∑ l, a' (i.1, l) * b' (l, i.2) - ∑ l, f l * u l)
  rw [sub_add_sub_cancel, ← Finset.sum_sub_distrib] at t
  have t2 := norm_sum_le univ (fun l => a' (i.1, l) * b' (l, i.2) - f l * u l)
  linarith

/-- one row of the first matrix product -/
theorem dot_row {m k n : ℕ} [NeZero k] [NeZero n] {a' : Fin m × Fin k → ℂ} {b' f : Fin k × Fin n → ℂ} {u : Fin k → ℂ} {S' S κ : ℝ} (i : Fin m)
    (h : NearC b' f S' S) (hκ : ∀ l, ‖a' (i, l) - u l‖ ≤ κ) (hu : ∀ l, ‖u l‖ = 1) :
    NearC (fun j => Z.dot a' b' (i, j)) (fun j => ∑ l, u l * f (l, j)) ((1 + δ) * ((1 + κ) * S')) S := by
  have h0 := hZ.nonneg
  obtain ⟨h1, h2⟩ := h.mul_unit (k' := fun p => a' (i, p.1)) (k := fun p => u p.1) (fun p => hκ p.1) (fun p => hu p.1)
  have hle : ∑ j, ‖∑ l, u l * f (l, j)‖ ≤ S := by
    refine le_trans ?_ h.le
    rw [Fintype.sum_prod_type_right]
    refine Finset.sum_le_sum fun j _ => (norm_sum_le _ _).trans (Finset.sum_le_sum fun l _ => ?_)
    rw [norm_mul, hu, one_mul]
  rw [Fintype.sum_prod_type_right] at h1 h2
  have d' := mul_le_mul_of_nonneg_left h1 h0
  have hd : ∑ j, ‖Z.dot a' b' (i, j) - ∑ l, a' (i, l) * b' (l, j)‖ ≤ δ * ((1 + κ) * S') := by
    refine le_trans ?_ d'
    rw [Finset.mul_sum]
    refine Finset.sum_le_sum fun j _ => (hZ.dot a' b' (i, j)).trans (le_of_eq ?_)
    congr 1
    exact Finset.sum_congr rfl fun l _ => mul_comm _ _
  refine ⟨?_, hle, ?_⟩
  · have : ∑ j, ‖Z.dot a' b' (i, j)‖ ≤ ∑ j, (‖Z.dot a' b' (i, j) - ∑ l, a' (i, l) * b' (l, j)‖ + ∑ l, ‖b' (l, j)‖ * ‖a' (i, l)‖) :=
      Finset.sum_le_sum fun j _ => by
        have t := norm_add_le (Z.dot a' b' (i, j) - ∑ l, a' (i, l) * b' (l, j)) (∑ l, a' (i, l) * b' (l, j))
        rw [sub_add_cancel] at t
        refine t.trans (add_le_add le_rfl ((norm_sum_le _ _).trans (le_of_eq ?_)))
        exact Finset.sum_congr rfl fun l _ => by rw [norm_mul, mul_comm]
    rw [Finset.sum_add_distrib] at this
    linarith
  · have : ∑ j, ‖Z.dot a' b' (i, j) - ∑ l, u l * f (l, j)‖ ≤ ∑ j, (‖Z.dot a' b' (i, j) - ∑ l, a' (i, l) * b' (l, j)‖
        + ∑ l, ‖b' (l, j) * a' (i, l) - f (l, j) * u l‖) :=
      Finset.sum_le_sum fun j _ => by
        have t := norm_add_le (Z.dot a' b' (i, j) - ∑ l, a' (i, l) * b' (l, j)) (∑ l, a' (i, l) * b' (l, j) - ∑ l, u l * f (l, j))
        rw [sub_add_sub_cancel, ← Finset.sum_sub_distrib] at t
        refine t.trans (add_le_add le_rfl ((norm_sum_le _ _).trans (le_of_eq ?_)))
        exact Finset.sum_congr rfl fun l _ => by rw [mul_comm (a' _), mul_comm (u _)]
    rw [Finset.sum_add_distrib] at this
    linarith

/-- `fourier_interp1d` of approximate data at approximate coordinates -/
theorem interp1A_near {n m : ℕ} [NeZero n] {c' c : Fin n → ℂ} {X' X : ℝ} (h1 : l2 c' ≤ X') (h2 : l2 c ≤ X)
    (h3 : l2 (fun p => c' p - c p) ≤ X' - X) {o' : Fin m → ℝ} {o B : ℝ} {e : ℕ} (i : Fin m) (ho : Near (o' i) o ((1 + δ) ^ e * B) B) :
    ‖interp1A Z c' o' i - interpC c o‖ ≤ (1 + δ) ^ 2 * (1 + Spec.kernelErr δ (e + 4) (Real.pi * B)) * X' - X := by
  have n1 := ifft_nearC hZ h1 h2 h3
  have n2 := dot_entry hZ (a' := fun k : Fin 1 × Fin n => Z.ifft c' k.2)
    (b' := fun k : Fin n × Fin m => Z.expNegI (Z.mulR (Z.mulR Z.twoPi (Z.freq n k.1)) (o' k.2)))
    (u := fun k => ex (-(Np.fftfreq n k * o))) ((0 : Fin 1), i) n1 (fun k => kern1_near hZ ho n k) (fun k => norm_ex _)
  refine (le_of_eq ?_).trans (n2.trans (le_of_eq (by ring)))
  unfold interp1A interpC
  rfl

/-- `fourier_interp2d` of approximate data at approximate coordinates -/
theorem interp2A_near {ny nx my mx : ℕ} [NeZero ny] [NeZero nx] {c' c : Fin ny × Fin nx → ℂ} {X' X : ℝ} (h1 : l2 c' ≤ X') (h2 : l2 c ≤ X)
    (h3 : l2 (fun p => c' p - c p) ≤ X' - X) {oy' : Fin my → ℝ} {ox' : Fin mx → ℝ} {oy ox By Bx : ℝ} {e : ℕ} (i : Fin my × Fin mx)
    (hy : Near (oy' i.1) oy ((1 + δ) ^ e * By) By) (hx : Near (ox' i.2) ox ((1 + δ) ^ e * Bx) Bx) :
    ‖interp2A Z c' oy' ox' i - interp2C c oy ox‖
      ≤ (1 + δ) ^ 3 * (1 + Spec.kernelErr δ (e + 4) (Real.pi * By)) * (1 + Spec.kernelErr δ (e + 4) (Real.pi * Bx)) * X' - X := by
  have n1 := ifft_nearC hZ h1 h2 h3
  have n2 := dot_row hZ (a' := fun k : Fin my × Fin ny => Z.expNegI (Z.mulR Z.twoPi (Z.mulR (Z.freq ny k.2) (oy' k.1))))
    (u := fun k => ex (-(Np.fftfreq ny k * oy))) i.1 n1 (fun k => kern2_near hZ hy ny k) (fun k => norm_ex _)
  have n3 := dot_entry hZ (m := my) (b' := fun k : Fin nx × Fin mx => Z.expNegI (Z.mulR Z.twoPi (Z.mulR (Z.freq nx k.1) (ox' k.2))))
    (u := fun k => ex (-(Np.fftfreq nx k * ox))) i n2 (fun k => kern2_near hZ hx nx k) (fun k => norm_ex _)
  refine (le_of_eq ?_).trans (n3.trans (le_of_eq (by ring)))
  unfold interp2A interp2C
  congr 2
  rw [Fintype.sum_prod_type_right]
  refine Finset.sum_congr rfl fun k2 _ => ?_
  rw [Finset.sum_mul]
  exact Finset.sum_congr rfl fun k1 _ => by ring

end

end ImgReg
