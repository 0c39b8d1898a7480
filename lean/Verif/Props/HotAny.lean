import Verif.Props.BadPixels
import Verif.Props.RegisterAccuracy
import Verif.Lemmas.Sinc

/-!
# C147: bright bad pixels and sub-pixel registration
-/

open Complex Finset
open scoped ComplexConjugate

namespace ImgReg

section
variable {ny nx : ℕ} [NeZero ny] [NeZero nx]

theorem spot_cc (A : ℝ) (t u : ℝ) :
    ‖Spec.cc (Spec.spot ny nx A) (Spec.spot ny nx A) t u‖ = |A| * ‖cshift t u (Spec.spot ny nx A) 0‖ := by
  have : Spec.cc (Spec.spot ny nx A) (Spec.spot ny nx A) t u = (A : ℂ) * conj (cshift t u (Spec.spot ny nx A) 0) := by
    unfold Spec.cc
    rw [Finset.sum_eq_single (0 : Fin ny × Fin nx)]
    · rw [show Spec.spot ny nx A 0 = A from if_pos rfl]
    · intro p _ hp
      rw [show Spec.spot ny nx A p = 0 from if_neg hp]; simp
    · intro h; exact absurd (Finset.mem_univ _) h
  rw [this, norm_mul, RCLike.norm_conj, Complex.norm_real, Real.norm_eq_abs]

/-- the mean of `n` unit numbers -/
theorem mean_ex_le (n : ℕ) [NeZero n] (u : ℝ) : ‖(1 / (n : ℂ)) * ∑ k : Fin n, ex (Np.fftfreq n k * u)‖ ≤ 1 := by
  have hn : (0 : ℝ) < n := Nat.cast_pos.2 (NeZero.pos n)
  rw [norm_mul, norm_div, norm_one, Complex.norm_natCast, one_div, inv_mul_le_iff₀ hn, mul_one]
  refine (norm_sum_le _ _).trans ?_
  simp

/-- half of an odd number of frames away, a bright pixel has almost disappeared -/
theorem mean_ex_half (n : ℕ) [NeZero n] (hn2 : 2 ≤ n) (x : ℤ) (hx : Odd x) :
    ‖(1 / (n : ℂ)) * ∑ k : Fin n, ex (Np.fftfreq n k * ((x * n : ℤ) / 2 : ℝ))‖ ≤ 1 / 2 := by
  have hn : (0 : ℝ) < n := Nat.cast_pos.2 (NeZero.pos n)
  obtain ⟨m, rfl⟩ := hx
  have hs : Real.sin (Real.pi * (((2 * m + 1) * n : ℤ) / 2 : ℝ) / n) = (-1) ^ m := by
    have : Real.pi * (((2 * m + 1) * n : ℤ) / 2 : ℝ) / n = Real.pi / 2 + m * Real.pi := by
      push_cast; field_simp; ring
    rw [this, Real.sin_add_int_mul_pi, Real.sin_pi_div_two, mul_one]
  have hs1 : |Real.sin (Real.pi * (((2 * m + 1) * n : ℤ) / 2 : ℝ) / n)| = 1 := by
    rw [hs, abs_zpow, abs_neg, abs_one, one_zpow]
  rw [sum_ex_fftfreq]
  unfold Spec.psinc Spec.nyq
  have hne : Real.sin (Real.pi * (((2 * m + 1) * n : ℤ) / 2 : ℝ) / n) ≠ 0 := by
    intro h; rw [h, abs_zero] at hs1; exact zero_ne_one hs1
  rw [if_neg hne]
  by_cases h : n % 2 = 0
  · have h0 : Real.sin (Real.pi * (((2 * m + 1) * n : ℤ) / 2 : ℝ)) = 0 := by
      obtain ⟨h', hh⟩ : ∃ h', n = 2 * h' := ⟨n / 2, by omega⟩
      have : Real.pi * (((2 * m + 1) * n : ℤ) / 2 : ℝ) = (((2 * m + 1) * h' : ℤ) : ℝ) * Real.pi := by
        rw [hh]; push_cast; ring
      rw [this]; exact Real.sin_int_mul_pi _
    rw [if_pos h, if_pos h, h0]
    simp
  · rw [if_neg h, if_neg h]
    have hn3 : (3 : ℝ) ≤ n := by exact_mod_cast (by omega : 3 ≤ n)
    simp only [Complex.ofReal_zero, zero_mul, sub_zero]
    rw [Complex.norm_real, Real.norm_eq_abs, abs_div, abs_mul, hs1, mul_one, abs_of_pos hn, div_le_div_iff₀ hn two_pos]
    have := Real.abs_sin_le_one (Real.pi * (((2 * m + 1) * n : ℤ) / 2 : ℝ))
    linarith

/-- how fast the correlation of a bright pixel with itself falls off -/
theorem mean_ex_near (n : ℕ) [NeZero n] (hn2 : 2 ≤ n) (τ : ℝ) (hτ : |τ| ≤ 1) (z : ℤ) :
    ‖(1 / (n : ℂ)) * ∑ k : Fin n, ex (Np.fftfreq n k * (τ + z * n))‖ ≤ 1 - τ ^ 2 / 2 := by
  have hn : (0 : ℝ) < n := Nat.cast_pos.2 (NeZero.pos n)
  have hn2' : (2 : ℝ) ≤ n := by exact_mod_cast hn2
  have hper : ∑ k : Fin n, ex (Np.fftfreq n k * (τ + z * n)) = ∑ k : Fin n, ex (Np.fftfreq n k * τ) := by
    refine Finset.sum_congr rfl fun k _ => ?_
    have : Np.fftfreq n k * (τ + z * n) = Np.fftfreq n k * τ + ((Np.fftfreqInt n k * z : ℤ) : ℝ) := by
      unfold Np.fftfreq; push_cast; field_simp
    rw [this, ex_add, ex_int, mul_one]
  rw [hper]
  rcases eq_or_ne τ 0 with rfl | h0
  · norm_num
  set s := |τ| with hs
  have hs0 : 0 < s := abs_pos.2 h0
  have hπ := Real.pi_pos
  have hsn : |Real.sin (Real.pi * τ / n)| = Real.sin (Real.pi * s / n) := by
    have h1 : 0 ≤ Real.sin (Real.pi * s / n) := by
      refine Real.sin_nonneg_of_nonneg_of_le_pi (by positivity) ?_
      rw [div_le_iff₀ hn]
      nlinarith
    rcases abs_choice τ with h | h
    · rw [hs, h] at h1 ⊢; exact abs_of_nonneg h1
    · rw [hs, h] at h1 ⊢
      rw [mul_neg, neg_div, Real.sin_neg] at h1 ⊢
      exact abs_of_nonpos (by linarith)
  have hpos : 0 < Real.sin (Real.pi * s / n) := by
    refine Real.sin_pos_of_pos_of_lt_pi (by positivity) ?_
    rw [div_lt_iff₀ hn]
    nlinarith
  have hsp : |Real.sin (Real.pi * τ)| = 2 * Real.sin (Real.pi * s / 2) * Real.cos (Real.pi * s / 2) := by
    have h1 : 0 ≤ Real.sin (Real.pi * s) := Real.sin_nonneg_of_nonneg_of_le_pi (by positivity) (by nlinarith)
    rw [← Real.sin_two_mul, show 2 * (Real.pi * s / 2) = Real.pi * s by ring]
    rcases abs_choice τ with h | h
    · rw [hs, h] at h1 ⊢; exact abs_of_nonneg h1
    · rw [hs, h] at h1 ⊢
      rw [mul_neg, Real.sin_neg] at h1 ⊢
      exact abs_of_nonpos (by linarith)
  have hconc : 2 * Real.sin (Real.pi * s / 2) ≤ n * Real.sin (Real.pi * s / n) := by
    have hb0 : (0 : ℝ) ≤ 1 - 2 / n := by rw [sub_nonneg, div_le_one hn]; exact hn2'
    have hm : Real.pi * s / 2 ∈ Set.Icc 0 Real.pi := ⟨by positivity, by nlinarith⟩
    have hm0 : (0 : ℝ) ∈ Set.Icc 0 Real.pi := ⟨le_rfl, hπ.le⟩
    have hcv := strictConcaveOn_sin_Icc.concaveOn
    have hc := hcv.2 hm hm0 (by positivity : (0 : ℝ) ≤ 2 / n) hb0 (by ring)
    simp only [smul_eq_mul, mul_zero, add_zero, Real.sin_zero] at hc
    rw [show 2 / (n : ℝ) * (Real.pi * s / 2) = Real.pi * s / n by field_simp] at hc
    calc 2 * Real.sin (Real.pi * s / 2) = n * (2 / n * Real.sin (Real.pi * s / 2)) := by field_simp
      _ ≤ _ := mul_le_mul_of_nonneg_left hc hn.le
  have hcos : Real.cos (Real.pi * s / 2) ≤ 1 - τ ^ 2 / 2 := by
    have := Real.cos_le_one_sub_mul_cos_sq (x := Real.pi * s / 2) (by rw [abs_of_nonneg (by positivity)]; nlinarith)
    refine this.trans (le_of_eq ?_)
    rw [← sq_abs τ, ← hs]
    field_simp
  have hcos0 : 0 ≤ Real.cos (Real.pi * s / 2) := Real.cos_nonneg_of_mem_Icc ⟨by nlinarith, by nlinarith⟩
  refine le_trans ?_ hcos
  have hnorm : ‖(1 / (n : ℂ)) * ∑ k : Fin n, ex (Np.fftfreq n k * τ)‖ * (n * |Real.sin (Real.pi * τ / n)|) = |Real.sin (Real.pi * τ)| := by
    have hne : Real.sin (Real.pi * τ / n) ≠ 0 := by
      intro h; rw [h, abs_zero] at hsn; linarith
    rw [sum_ex_fftfreq]
    unfold Spec.psinc Spec.nyq
    rw [if_neg hne]
    set S := Real.sin (Real.pi * τ / n) with hS
    set C := Real.cos (Real.pi * τ / n) with hC
    have hSC : S ^ 2 + C ^ 2 = 1 := Real.sin_sq_add_cos_sq _
    set T := Real.sin (Real.pi * τ)
    have h2 : ∀ x y : ℝ, ‖(x : ℂ) - (y : ℂ) * I‖ ^ 2 = x ^ 2 + y ^ 2 := by
      intro x y
      rw [Complex.sq_norm, Complex.normSq_apply]
      simp; ring
    rw [← sq_eq_sq₀ (by positivity) (abs_nonneg _), mul_pow, mul_pow, sq_abs, sq_abs, h2]
    by_cases h : n % 2 = 0
    · rw [if_pos h, if_pos h]
      field_simp
      linear_combination T ^ 2 * hSC
    · rw [if_neg h, if_neg h]
      field_simp
      ring
  rw [hsn, hsp] at hnorm
  have h3 : ‖(1 / (n : ℂ)) * ∑ k : Fin n, ex (Np.fftfreq n k * τ)‖ * (n * Real.sin (Real.pi * s / n))
      ≤ Real.cos (Real.pi * s / 2) * (n * Real.sin (Real.pi * s / n)) := by
    rw [hnorm, mul_comm]
    exact mul_le_mul_of_nonneg_left hconc hcos0
  exact le_of_mul_le_mul_right h3 (mul_pos hn hpos)

/-- the autocorrelation of a bright pixel in Fourier form -/
theorem spot_cc_fourier (A : ℝ) (t u : ℝ) :
    Spec.cc (Spec.spot ny nx A) (Spec.spot ny nx A) t u
      = (A : ℂ) ^ 2 * (((1 / (ny : ℂ)) * ∑ k : Fin ny, ex (Np.fftfreq ny k * t)) * ((1 / (nx : ℂ)) * ∑ k : Fin nx, ex (Np.fftfreq nx k * u))) := by
  have c1 : (ny : ℂ) ≠ 0 := by exact_mod_cast NeZero.ne ny
  have c2 : (nx : ℂ) ≠ 0 := by exact_mod_cast NeZero.ne nx
  have hd : ∀ k : Fin ny × Fin nx, ‖dft (fun p => (Spec.spot ny nx A p : ℂ)) k‖ ^ 2 = A ^ 2 := by
    intro k
    unfold dft
    rw [Finset.sum_eq_single (0 : Fin ny × Fin nx)]
    · simp only
      rw [show Spec.spot ny nx A 0 = A from if_pos rfl, norm_mul, RCLike.norm_conj, norm_e, mul_one, Complex.norm_real, Real.norm_eq_abs, sq_abs]
    · intro p _ hp
      simp only
      rw [show Spec.spot ny nx A p = 0 from if_neg hp]; simp
    · intro h; exact absurd (Finset.mem_univ _) h
  have h := cc_self_fourier (Spec.spot ny nx A) t u
  simp only [hd] at h
  rw [← Finset.mul_sum] at h
  have hprod : ∑ k : Fin ny × Fin nx, ex (freq2 u t k) = (∑ k : Fin ny, ex (Np.fftfreq ny k * t)) * ∑ k : Fin nx, ex (Np.fftfreq nx k * u) := by
    rw [Fintype.sum_prod_type, Finset.sum_mul_sum]
    refine Finset.sum_congr rfl fun i _ => Finset.sum_congr rfl fun j _ => ?_
    rw [← ex_add]
    congr 1
    unfold freq2; ring
  rw [hprod] at h
  generalize (∑ k : Fin ny, ex (Np.fftfreq ny k * t)) = P at h ⊢
  generalize (∑ k : Fin nx, ex (Np.fftfreq nx k * u)) = Q at h ⊢
  have h2 := mul_left_cancel₀ (mul_ne_zero c1 c2) (h.trans (?_ : _ = (ny : ℂ) * nx * ((A : ℂ) ^ 2 * (((1 / (ny : ℂ)) * P) * ((1 / (nx : ℂ)) * Q)))))
  · exact h2
  · field_simp
    push_cast
    ring

/-- the autocorrelation of a bright pixel at half-pixel displacements -/
theorem spot_half (A : ℝ) (hA : 0 < A) (hy : 2 ≤ ny) (hx : 2 ≤ nx) (j k : ℤ)
    (hne : ¬ ((∃ z : ℤ, (j : ℝ) / 2 = z * ny) ∧ ∃ z : ℤ, (k : ℝ) / 2 = z * nx)) :
    ‖Spec.cc (Spec.spot ny nx A) (Spec.spot ny nx A) ((j : ℝ) / 2) ((k : ℝ) / 2)‖ ≤ 71 / 100 * A ^ 2 := by
  by_cases hjk : j ≡ 0 [ZMOD ny] ∧ k ≡ 0 [ZMOD nx]
  · obtain ⟨h1, h2⟩ := hjk
    obtain ⟨y, rfl⟩ := Int.modEq_zero_iff_dvd.1 h1
    obtain ⟨x, rfl⟩ := Int.modEq_zero_iff_dvd.1 h2
    have key : ‖((1 / (ny : ℂ)) * ∑ k : Fin ny, ex (Np.fftfreq ny k * (((ny * y : ℤ) : ℝ) / 2)))
        * ((1 / (nx : ℂ)) * ∑ k : Fin nx, ex (Np.fftfreq nx k * (((nx * x : ℤ) : ℝ) / 2)))‖ ≤ 1 / 2 := by
      rw [norm_mul]
      rcases Int.even_or_odd y with ⟨y', hy'⟩ | hyo
      · rcases Int.even_or_odd x with ⟨x', hx'⟩ | hxo
        · refine absurd ⟨⟨y', ?_⟩, ⟨x', ?_⟩⟩ hne
          · rw [hy']; push_cast; ring
          · rw [hx']; push_cast; ring
        · have b := mean_ex_half nx hx x hxo
          rw [mul_comm x] at b
          have a := mean_ex_le ny (((ny * y : ℤ) : ℝ) / 2)
          exact (mul_le_mul a b (norm_nonneg _) zero_le_one).trans (by norm_num)
      · have a := mean_ex_half ny hy y hyo
        rw [mul_comm y] at a
        have b := mean_ex_le nx (((nx * x : ℤ) : ℝ) / 2)
        exact (mul_le_mul a b (norm_nonneg _) (by norm_num)).trans (by norm_num)
    rw [spot_cc_fourier, norm_mul, norm_pow, Complex.norm_real, Real.norm_of_nonneg hA.le]
    have := mul_le_mul_of_nonneg_left key (sq_nonneg A)
    nlinarith [sq_nonneg A]
  · set w := cshift ((j : ℝ) / 2) ((k : ℝ) / 2) (Spec.spot ny nx A) with hw
    set p0 : Fin ny × Fin nx := (Spec.wrap ny j, Spec.wrap nx k) with hp0
    have hp : p0 ≠ 0 := by
      intro h
      apply hjk
      have g : ∀ (n : ℕ) [NeZero n] (d : ℤ), Spec.wrap n d = 0 → d ≡ 0 [ZMOD n] := by
        intro n _ d hd
        rw [Spec.wrap_eq_iff] at hd
        simpa using hd
      exact ⟨g ny j (congrArg Prod.fst h), g nx k (congrArg Prod.snd h)⟩
    have hsame : ‖w p0‖ = ‖w 0‖ := by
      have e1 : cshift ((j : ℝ) / 2) ((k : ℝ) / 2) (Spec.roll2 (-j) (-k) (Spec.spot ny nx A)) 0 = w p0 := by
        rw [roll2_cshift]
        unfold Spec.roll2
        simp [hp0, hw]
      have e2 := cshift_cshift ((j : ℝ) / 2) ((k : ℝ) / 2) _ _ _ _ (Spec.roll2_eq_cshift (Spec.spot ny nx A) (-j) (-k))
      rw [e2] at e1
      have e3 := cc_self_neg (Spec.spot ny nx A) ((j : ℝ) / 2) ((k : ℝ) / 2)
      rw [spot_cc, spot_cc] at e3
      have e4 := mul_left_cancel₀ (abs_pos.2 hA.ne').ne' e3
      rw [← e1, ← e4]
      congr 3 <;> (push_cast; ring)
    have hen := cshift_energy ((j : ℝ) / 2) ((k : ℝ) / 2) (Spec.spot ny nx A)
    rw [spot_energy] at hen
    have hpair : ‖w p0‖ ^ 2 + ‖w 0‖ ^ 2 ≤ A ^ 2 := by
      rw [← hen, ← Finset.sum_pair (f := fun p => ‖w p‖ ^ 2) hp]
      exact Finset.sum_le_sum_of_subset_of_nonneg (Finset.subset_univ _) fun _ _ _ => by positivity
    rw [hsame] at hpair
    have h71 : ‖w 0‖ ≤ 71 / 100 * A := by
      refine abs_le_of_sq_le_sq' ?_ (by positivity) |>.2
      nlinarith [sq_nonneg A]
    rw [spot_cc, abs_of_pos hA]
    nlinarith [norm_nonneg (w 0)]

/-- the correlation of two images with a bright pixel each is that of the bright pixels, up to the rest -/
theorem hot_cc (q1 q2 : Fin ny × Fin nx) (A ν : ℝ) (hA : 0 < A) (f g : Fin ny × Fin nx → ℝ)
    (hf : Real.sqrt (∑ p, f p ^ 2) ≤ ν) (hg : Real.sqrt (∑ p, g p ^ 2) ≤ ν) (t u : ℝ) :
    ∃ e : ℂ, ‖e‖ ≤ 2 * A * ν + ν ^ 2 ∧ Spec.cc (Spec.hot q1 A f) (Spec.hot q2 A g) t u
      = Spec.cc (Spec.spot ny nx A) (Spec.spot ny nx A) (t + (((q2.1 : ℕ) : ℤ) - ((q1.1 : ℕ) : ℤ) : ℤ)) (u + (((q2.2 : ℕ) : ℤ) - ((q1.2 : ℕ) : ℤ) : ℤ)) + e := by
  have hν : 0 ≤ ν := (Real.sqrt_nonneg _).trans hf
  set a := Spec.spot ny nx A with ha
  set ey : ℤ := ((q2.1 : ℕ) : ℤ) - ((q1.1 : ℕ) : ℤ) with hey
  set ex' : ℤ := ((q2.2 : ℕ) : ℤ) - ((q1.2 : ℕ) : ℤ) with hex'
  have hS : Real.sqrt (∑ p, a p ^ 2) = A := by rw [ha, spot_energy, Real.sqrt_sq hA.le]
  set r1 := Spec.roll2 ((q1.1 : ℕ) : ℤ) ((q1.2 : ℕ) : ℤ) a with hr1
  set r2 := Spec.roll2 ((q2.1 : ℕ) : ℤ) ((q2.2 : ℕ) : ℤ) a with hr2
  have k1 := cc_le r1 g t u
  have k2 := cc_le f r2 t u
  have k3 := cc_le f g t u
  rw [hr1, roll2_energy, hS, ← hr1] at k1
  rw [hr2, roll2_energy, hS, ← hr2] at k2
  have k1' := k1.trans (mul_le_mul_of_nonneg_left hg hA.le)
  have k2' := k2.trans (mul_le_mul_of_nonneg_right hf hA.le)
  have k3' := k3.trans (mul_le_mul hf hg (Real.sqrt_nonneg _) (by positivity))
  refine ⟨Spec.cc r1 g t u + (Spec.cc f r2 t u + Spec.cc f g t u), ?_, ?_⟩
  · have := norm_add₃_le (a := Spec.cc r1 g t u) (b := Spec.cc f r2 t u) (c := Spec.cc f g t u)
    rw [add_assoc] at this
    linarith
  · rw [hot_eq, hot_eq]
    have e1 : Spec.exposure (Spec.spot ny nx A) ((q1.1 : ℕ) : ℤ) ((q1.2 : ℕ) : ℤ) f = fun p => r1 p + f p := rfl
    have e2 : Spec.exposure (Spec.spot ny nx A) ((q2.1 : ℕ) : ℤ) ((q2.2 : ℕ) : ℤ) g = fun p => r2 p + g p := rfl
    rw [e1, e2, cc_add, cc_add_left, cc_add_left]
    have hr : r2 = Spec.roll2 ((q1.1 : ℕ) : ℤ) ((q1.2 : ℕ) : ℤ) (Spec.roll2 ey ex' a) := by
      rw [roll2_add, hr2]
      congr 1 <;> omega
    have : Spec.cc r1 r2 t u = Spec.cc a a (t + ey) (u + ex') := by
      rw [hr, hr1, cc_common_roll]
      exact cc_shifted a _ ey ex' t u (Spec.roll2_eq_cshift a ey ex')
    rw [this]; ring

/-- where the correlation of two images, each with a very bright pixel, is largest among the half-pixel displacements -/
theorem hot_peak (q1 q2 : Fin ny × Fin nx) (A : ℝ) (hA : 0 < A) (hy : 2 ≤ ny) (hx : 2 ≤ nx) (f g : Fin ny × Fin nx → ℝ)
    (hf : Real.sqrt (∑ p, f p ^ 2) ≤ A / 15) (hg : Real.sqrt (∑ p, g p ^ 2) ≤ A / 15) (j k : ℤ)
    (hbest : ∀ j' k' : ℤ, ‖Spec.cc (Spec.hot q1 A f) (Spec.hot q2 A g) ((j' : ℝ) / 2) ((k' : ℝ) / 2)‖
      ≤ ‖Spec.cc (Spec.hot q1 A f) (Spec.hot q2 A g) ((j : ℝ) / 2) ((k : ℝ) / 2)‖) :
    (∃ z : ℤ, (j : ℝ) / 2 = z * ny - (((q2.1 : ℕ) : ℝ) - ((q1.1 : ℕ) : ℝ))) ∧ ∃ z : ℤ, (k : ℝ) / 2 = z * nx - (((q2.2 : ℕ) : ℝ) - ((q1.2 : ℕ) : ℝ)) := by
  set a := Spec.spot ny nx A with ha
  set ey : ℤ := ((q2.1 : ℕ) : ℤ) - ((q1.1 : ℕ) : ℤ) with hey
  set ex' : ℤ := ((q2.2 : ℕ) : ℤ) - ((q1.2 : ℕ) : ℤ) with hex'
  have hcc : ∀ t u : ℝ, ∃ e : ℂ, ‖e‖ ≤ 31 / 225 * A ^ 2 ∧ Spec.cc (Spec.hot q1 A f) (Spec.hot q2 A g) t u = Spec.cc a a (t + ey) (u + ex') + e := by
    intro t u
    obtain ⟨e, h1, h2⟩ := hot_cc q1 q2 A (A / 15) hA f g hf hg t u
    exact ⟨e, h1.trans (le_of_eq (by ring)), h2⟩
  by_contra hno
  have hne : ¬ ((∃ z : ℤ, ((j + 2 * ey : ℤ) : ℝ) / 2 = z * ny) ∧ ∃ z : ℤ, ((k + 2 * ex' : ℤ) : ℝ) / 2 = z * nx) := by
    rintro ⟨⟨z, hz⟩, w, hw⟩
    refine hno ⟨⟨z, ?_⟩, w, ?_⟩
    · rw [← hz, hey]; push_cast; ring
    · rw [← hw, hex']; push_cast; ring
  have h1 := spot_half A hA hy hx _ _ hne
  have h0 : ‖Spec.cc a a 0 0‖ = A ^ 2 := by
    have := cc_eq a a 0 0 0 0 (fun p => by
      have := cshift_int 0 0 a p
      simp only [Int.cast_zero] at this
      rw [this]
      unfold Spec.roll2
      simp only [sub_zero, Spec.wrap_val]) ⟨⟨0, by simp⟩, ⟨0, by simp⟩⟩
    rw [this, ha, spot_energy]
  obtain ⟨e1, b1, q1'⟩ := hcc ((j : ℝ) / 2) ((k : ℝ) / 2)
  obtain ⟨e2, b2, q2'⟩ := hcc (((-2 * ey : ℤ) : ℝ) / 2) (((-2 * ex' : ℤ) : ℝ) / 2)
  have hb := hbest (-2 * ey) (-2 * ex')
  rw [q1', q2'] at hb
  rw [show ((-2 * ey : ℤ) : ℝ) / 2 + ey = 0 by push_cast; ring, show ((-2 * ex' : ℤ) : ℝ) / 2 + ex' = 0 by push_cast; ring] at hb
  rw [show (j : ℝ) / 2 + ey = ((j + 2 * ey : ℤ) : ℝ) / 2 by push_cast; ring,
    show (k : ℝ) / 2 + ex' = ((k + 2 * ex' : ℤ) : ℝ) / 2 by push_cast; ring] at hb
  have h5 := norm_add_le (Spec.cc a a (((j + 2 * ey : ℤ) : ℝ) / 2) (((k + 2 * ex' : ℤ) : ℝ) / 2)) e1
  have h6 := norm_sub_le (Spec.cc a a 0 0 + e2) e2
  rw [add_sub_cancel_right, h0] at h6
  have : 0 < A ^ 2 := by positivity
  linarith

/-- C147, `usfac=2`: if pixel `q1` of image 1 and pixel `q2` of image 2 are hot by `A`, at least fifteen times the norm of everything else in each
of the images, `register_images` reports the displacement from `q1` to `q2` exactly (`[0, 0]` for a hot pixel of the detector), whatever the images
show. -/
theorem C147_hot_half (cfg : FFTConfig) (q1 q2 : Fin ny × Fin nx) (A : ℝ) (hA : 0 < A) (hy : 2 ≤ ny) (hx : 2 ≤ nx) (f g : Fin ny × Fin nx → ℝ)
    (hf : Real.sqrt (∑ p, f p ^ 2) ≤ A / 15) (hg : Real.sqrt (∑ p, g p ^ 2) ≤ A / 15) :
    ∃ rx ry : ℤ, registerImages cfg (realArr (Spec.hot q1 A f)) (realArr (Spec.hot q2 A g)) 2 false false false none = .ok [.num rx, .num ry] ∧
      rx ≡ ((q2.2 : ℕ) : ℤ) - ((q1.2 : ℕ) : ℤ) [ZMOD nx] ∧ -(nx : ℤ) ≤ 2 * rx ∧ 2 * rx < nx ∧
      ry ≡ ((q2.1 : ℕ) : ℤ) - ((q1.1 : ℕ) : ℤ) [ZMOD ny] ∧ -(ny : ℤ) ≤ 2 * ry ∧ 2 * ry < ny := by
  obtain ⟨dx, dy, hr, hbest⟩ := C46_half_pixel cfg (realArr (Spec.hot q1 A f)) (realArr (Spec.hot q2 A g)) false
  have hp : ∀ b : Fin ny × Fin nx → ℝ, prep false (realArr b) = b := by intro b; rw [prep_real]; funext p; simp
  rw [hp, hp] at hbest
  have e : ∀ d : ℤ, -((d : ℝ) / 2) = ((-d : ℤ) : ℝ) / 2 := by intro d; push_cast; ring
  rw [e, e] at hbest
  obtain ⟨⟨z, hz⟩, w, hw⟩ := hot_peak q1 q2 A hA hy hx f g hf hg (-dy) (-dx) hbest
  have hdy : dy = 2 * (((q2.1 : ℕ) : ℤ) - ((q1.1 : ℕ) : ℤ) - z * ny) := by
    have : (dy : ℝ) = ((2 * (((q2.1 : ℕ) : ℤ) - ((q1.1 : ℕ) : ℤ) - z * ny) : ℤ) : ℝ) := by
      push_cast; push_cast at hz; linarith
    exact_mod_cast this
  have hdx : dx = 2 * (((q2.2 : ℕ) : ℤ) - ((q1.2 : ℕ) : ℤ) - w * nx) := by
    have : (dx : ℝ) = ((2 * (((q2.2 : ℕ) : ℤ) - ((q1.2 : ℕ) : ℤ) - w * nx) : ℤ) : ℝ) := by
      push_cast; push_cast at hw; linarith
    exact_mod_cast this
  obtain ⟨dx', dy', hr', -, -, hrange, -, -⟩ := C45_grid_and_range cfg (realArr (Spec.hot q1 A f)) (realArr (Spec.hot q2 A g)) 2 (by norm_num) false none
  rw [hr] at hr'
  simp only [Except.ok.injEq, List.cons.injEq, RegVal.num.injEq, and_true] at hr'
  obtain ⟨rfl, rfl⟩ := hr'
  obtain ⟨⟨x1, x2⟩, y1, y2⟩ := hrange le_rfl
  have gx1 : -(nx : ℤ) ≤ dx := by
    have : -(nx : ℝ) ≤ dx := by linarith
    exact_mod_cast this
  have gx2 : dx < nx := by
    have : (dx : ℝ) < nx := by linarith
    exact_mod_cast this
  have gy1 : -(ny : ℤ) ≤ dy := by
    have : -(ny : ℝ) ≤ dy := by linarith
    exact_mod_cast this
  have gy2 : dy < ny := by
    have : (dy : ℝ) < ny := by linarith
    exact_mod_cast this
  refine ⟨((q2.2 : ℕ) : ℤ) - ((q1.2 : ℕ) : ℤ) - w * nx, ((q2.1 : ℕ) : ℤ) - ((q1.1 : ℕ) : ℤ) - z * ny, ?_, ?_, by omega, by omega, ?_, by omega, by omega⟩
  · rw [hr, hdx, hdy]
    simp only [Except.ok.injEq, List.cons.injEq, RegVal.num.injEq, and_true]
    constructor <;> (push_cast; ring)
  · exact (Int.modEq_iff_dvd.2 ⟨w, by ring⟩)
  · exact (Int.modEq_iff_dvd.2 ⟨z, by ring⟩)

/-- the refinement stays close to a whole-pixel first estimate -/
theorem refineGrid_whole (usfac : ℕ) (hu : 1 ≤ usfac) (r : ℤ) (t : ℝ) (ht : t ∈ Spec.refineGrid usfac r) : |t - r| ≤ 3 / 4 + 1 / (2 * usfac) := by
  have hu0 : (0 : ℝ) < usfac := by exact_mod_cast hu
  obtain ⟨i, hi, rfl⟩ := ht
  rw [show (r : ℝ) * usfac = ((r * usfac : ℤ) : ℝ) by push_cast; ring, pyRound_int]
  have hc : ((⌈(usfac : ℝ) * (3 / 2)⌉₊ : ℕ) : ℝ) < usfac * (3 / 2) + 1 := Nat.ceil_lt_add_one (by positivity)
  set c := ⌈(usfac : ℝ) * (3 / 2)⌉₊ with hcd
  have e : ((r * usfac : ℤ) : ℝ) / usfac + ((i : ℝ) - ((c / 2 : ℕ) : ℝ)) / usfac - r = ((i : ℝ) - ((c / 2 : ℕ) : ℝ)) / usfac := by
    push_cast; field_simp; ring
  rw [e, abs_div, abs_of_pos hu0, div_le_iff₀ hu0]
  have h1 : 2 * ((i : ℝ) - ((c / 2 : ℕ) : ℝ)) ≤ c := by
    have : 2 * (i : ℤ) - 2 * ((c / 2 : ℕ) : ℤ) ≤ c := by omega
    have : (2 * (i : ℝ) - 2 * ((c / 2 : ℕ) : ℝ)) ≤ c := by exact_mod_cast this
    linarith
  have h2 : -(c : ℝ) ≤ 2 * ((i : ℝ) - ((c / 2 : ℕ) : ℝ)) := by
    have : -(c : ℤ) ≤ 2 * (i : ℤ) - 2 * ((c / 2 : ℕ) : ℤ) := by omega
    have : -(c : ℝ) ≤ (2 * (i : ℝ) - 2 * ((c / 2 : ℕ) : ℝ)) := by exact_mod_cast this
    linarith
  have h3 : (3 / 4 + 1 / (2 * (usfac : ℝ))) * usfac = (usfac * (3 / 2) + 1) / 2 := by field_simp; ring
  rw [h3, abs_le]
  constructor <;> linarith

theorem refineGrid_self (usfac : ℕ) (hu : 1 ≤ usfac) (r : ℤ) : (r : ℝ) ∈ Spec.refineGrid usfac r := by
  have hu0 : (0 : ℝ) < usfac := by exact_mod_cast hu
  have hc : 0 < ⌈(usfac : ℝ) * (3 / 2)⌉₊ := Nat.ceil_pos.2 (by positivity)
  refine ⟨⌈(usfac : ℝ) * (3 / 2)⌉₊ / 2, by omega, ?_⟩
  rw [show (r : ℝ) * usfac = ((r * usfac : ℤ) : ℝ) by push_cast; ring, pyRound_int, sub_self, zero_div, add_zero]
  push_cast; field_simp

/-- C147, `usfac > 2`: if the norm of everything else is at most `ν ≤ A/15` in each of the images, the answer is the displacement from `q1` to `q2`
to within `√(8ν/A + 4(ν/A)²)` pixels along each axis, up to whole frames. -/
theorem C147_hot_fine (cfg : FFTConfig) (q1 q2 : Fin ny × Fin nx) (A ν : ℝ) (hA : 0 < A) (hν : ν ≤ A / 15) (hy : 2 ≤ ny) (hx : 2 ≤ nx)
    (f g : Fin ny × Fin nx → ℝ)
    (hf : Real.sqrt (∑ p, f p ^ 2) ≤ ν) (hg : Real.sqrt (∑ p, g p ^ 2) ≤ ν) (usfac : ℕ) (hu : 2 < usfac) :
    ∃ rx ry : ℝ, registerImages cfg (realArr (Spec.hot q1 A f)) (realArr (Spec.hot q2 A g)) usfac false false false none = .ok [.num rx, .num ry] ∧
      (∃ z : ℤ, (rx - (((q2.2 : ℕ) : ℝ) - ((q1.2 : ℕ) : ℝ)) - z * nx) ^ 2 ≤ 8 * (ν / A) + 4 * (ν / A) ^ 2) ∧
      ∃ z : ℤ, (ry - (((q2.1 : ℕ) : ℝ) - ((q1.1 : ℕ) : ℝ)) - z * ny) ^ 2 ≤ 8 * (ν / A) + 4 * (ν / A) ^ 2 := by
  obtain ⟨dx, dy, row2, col2, hr, ⟨j, k, hj, hk, -⟩, hbest, gy, gx, hfine⟩ :=
    C46_refinement_maximises cfg (realArr (Spec.hot q1 A f)) (realArr (Spec.hot q2 A g)) usfac hu hy hx false
  have hp : ∀ b : Fin ny × Fin nx → ℝ, prep false (realArr b) = b := by intro b; rw [prep_real]; funext p; simp
  rw [hp, hp] at hbest hfine
  rw [hj, hk] at hbest
  obtain ⟨⟨z, hz⟩, w, hw⟩ := hot_peak q1 q2 A hA hy hx f g (hf.trans hν) (hg.trans hν) j k hbest
  rw [← hj] at hz
  rw [← hk] at hw
  have ey : row2 = ((z * ny - (((q2.1 : ℕ) : ℤ) - ((q1.1 : ℕ) : ℤ)) : ℤ) : ℝ) := by rw [hz]; push_cast; ring
  have ex' : col2 = ((w * nx - (((q2.2 : ℕ) : ℤ) - ((q1.2 : ℕ) : ℤ)) : ℤ) : ℝ) := by rw [hw]; push_cast; ring
  have hself := hfine row2 (by rw [ey]; exact refineGrid_self usfac (by omega) _) col2 (by rw [ex']; exact refineGrid_self usfac (by omega) _)
  rw [ey] at gy
  rw [ex'] at gx
  have hus : (3 : ℝ) ≤ usfac := by exact_mod_cast hu
  have h6 : 1 / (2 * (usfac : ℝ)) ≤ 1 / 6 := by
    rw [div_le_div_iff₀ (by positivity) (by norm_num)]; linarith
  have by_ := refineGrid_whole usfac (by omega) _ _ gy
  have bx := refineGrid_whole usfac (by omega) _ _ gx
  obtain ⟨e1, b1, c1⟩ := hot_cc q1 q2 A ν hA f g hf hg row2 col2
  obtain ⟨e2, b2, c2⟩ := hot_cc q1 q2 A ν hA f g hf hg (-dy) (-dx)
  rw [c1, c2] at hself
  set τy : ℝ := -dy - ((z * ny - (((q2.1 : ℕ) : ℤ) - ((q1.1 : ℕ) : ℤ)) : ℤ) : ℝ) with hτy
  set τx : ℝ := -dx - ((w * nx - (((q2.2 : ℕ) : ℤ) - ((q1.2 : ℕ) : ℤ)) : ℤ) : ℝ) with hτx
  have hy1 : |τy| ≤ 1 := by linarith
  have hx1 : |τx| ≤ 1 := by linarith
  have a1 : row2 + ((((q2.1 : ℕ) : ℤ) - ((q1.1 : ℕ) : ℤ) : ℤ) : ℝ) = z * ny := by rw [ey]; push_cast; ring
  have a2 : col2 + ((((q2.2 : ℕ) : ℤ) - ((q1.2 : ℕ) : ℤ) : ℤ) : ℝ) = w * nx := by rw [ex']; push_cast; ring
  have a3 : -dy + ((((q2.1 : ℕ) : ℤ) - ((q1.1 : ℕ) : ℤ) : ℤ) : ℝ) = τy + z * ny := by rw [hτy]; push_cast; ring
  have a4 : -dx + ((((q2.2 : ℕ) : ℤ) - ((q1.2 : ℕ) : ℤ) : ℤ) : ℝ) = τx + w * nx := by rw [hτx]; push_cast; ring
  rw [a1, a2, a3, a4] at hself
  have hpk : ‖Spec.cc (Spec.spot ny nx A) (Spec.spot ny nx A) (z * ny) (w * nx)‖ = A ^ 2 := by
    rw [cc_eq _ _ 0 0 _ _ (fun p => by
      have := cshift_int 0 0 (Spec.spot ny nx A) p
      simp only [Int.cast_zero] at this
      rw [this]
      unfold Spec.roll2
      simp only [sub_zero, Spec.wrap_val]) ⟨⟨z, by simp⟩, ⟨w, by simp⟩⟩, spot_energy]
  have hn1 := norm_sub_le (Spec.cc (Spec.spot ny nx A) (Spec.spot ny nx A) (z * ny) (w * nx) + e1) e1
  rw [add_sub_cancel_right, hpk] at hn1
  have hn2 := norm_add_le (Spec.cc (Spec.spot ny nx A) (Spec.spot ny nx A) (τy + z * ny) (τx + w * nx)) e2
  have hval : ‖Spec.cc (Spec.spot ny nx A) (Spec.spot ny nx A) (τy + z * ny) (τx + w * nx)‖
      ≤ A ^ 2 * (1 - τy ^ 2 / 2) ∧
      ‖Spec.cc (Spec.spot ny nx A) (Spec.spot ny nx A) (τy + z * ny) (τx + w * nx)‖ ≤ A ^ 2 * (1 - τx ^ 2 / 2) := by
    rw [spot_cc_fourier, norm_mul, norm_pow, Complex.norm_real, Real.norm_of_nonneg hA.le, norm_mul]
    have m1 := mean_ex_near ny hy τy hy1 z
    have m2 := mean_ex_near nx hx τx hx1 w
    have l1 := mean_ex_le ny (τy + z * ny)
    have l2 := mean_ex_le nx (τx + w * nx)
    constructor
    · refine mul_le_mul_of_nonneg_left ?_ (sq_nonneg A)
      exact (mul_le_of_le_one_right (norm_nonneg _) l2).trans m1
    · refine mul_le_mul_of_nonneg_left ?_ (sq_nonneg A)
      exact (mul_le_of_le_one_left (norm_nonneg _) l1).trans m2
  have hA2 : 0 < A ^ 2 := by positivity
  have fin : ∀ τ : ℝ, A ^ 2 - 2 * (2 * A * ν + ν ^ 2) ≤ A ^ 2 * (1 - τ ^ 2 / 2) → τ ^ 2 ≤ 8 * (ν / A) + 4 * (ν / A) ^ 2 := by
    intro τ h
    have e : 8 * (ν / A) + 4 * (ν / A) ^ 2 = (4 * (2 * A * ν + ν ^ 2)) / A ^ 2 := by field_simp; ring
    rw [e, le_div_iff₀ hA2]
    linarith
  refine ⟨dx, dy, hr, ⟨-w, ?_⟩, ⟨-z, ?_⟩⟩
  · have := fin τx (by linarith [hval.2])
    rw [hτx] at this
    refine le_of_eq_of_le ?_ this
    push_cast; ring
  · have := fin τy (by linarith [hval.1])
    rw [hτy] at this
    refine le_of_eq_of_le ?_ this
    push_cast; ring

/-- C147 (a case that meets the conditions): a hot pixel over a background of one star of height 1. -/
example (cfg : FFTConfig) : ∃ rx ry : ℤ, registerImages cfg (realArr (Spec.hot ((3, 4) : Fin 8 × Fin 9) 20 (Spec.spot 8 9 1)))
    (realArr (Spec.hot ((3, 4) : Fin 8 × Fin 9) 20 (Spec.roll2 2 1 (Spec.spot 8 9 1)))) 2 false false false none = .ok [.num rx, .num ry] ∧
      rx = 0 ∧ ry = 0 := by
  obtain ⟨rx, ry, h, a1, a2, a3, a4, a5, a6⟩ := C147_hot_half cfg ((3, 4) : Fin 8 × Fin 9) (3, 4) 20 (by norm_num) (by norm_num) (by norm_num)
    (Spec.spot 8 9 1) (Spec.roll2 2 1 (Spec.spot 8 9 1)) (by rw [spot_energy]; norm_num) (by rw [roll2_energy, spot_energy]; norm_num)
  exact ⟨rx, ry, h, zero_of_rep (by simpa using a1) a2 a3, zero_of_rep (by simpa using a4) a5 a6⟩

/-- C147 (a case that meets the conditions): with a hot pixel a thousand times the star, every `usfac > 2` reports less than a tenth of a pixel, up to
whole frames, although the star moved by two rows and one column. -/
example (cfg : FFTConfig) (usfac : ℕ) (hu : 2 < usfac) : ∃ rx ry : ℝ,
    registerImages cfg (realArr (Spec.hot ((3, 4) : Fin 8 × Fin 9) 1000 (Spec.spot 8 9 1)))
      (realArr (Spec.hot ((3, 4) : Fin 8 × Fin 9) 1000 (Spec.roll2 2 1 (Spec.spot 8 9 1)))) usfac false false false none = .ok [.num rx, .num ry] ∧
      (∃ z : ℤ, |rx - z * 9| < 1 / 10) ∧ ∃ z : ℤ, |ry - z * 8| < 1 / 10 := by
  obtain ⟨rx, ry, h, ⟨w, hw⟩, ⟨z, hz⟩⟩ := C147_hot_fine cfg ((3, 4) : Fin 8 × Fin 9) (3, 4) 1000 1 (by norm_num) (by norm_num) (by norm_num) (by norm_num)
    (Spec.spot 8 9 1) (Spec.roll2 2 1 (Spec.spot 8 9 1)) (by rw [spot_energy]; norm_num) (by rw [roll2_energy, spot_energy]; norm_num) usfac hu
  refine ⟨rx, ry, h, ⟨w, abs_lt_of_sq_lt_sq ?_ (by norm_num)⟩, z, abs_lt_of_sq_lt_sq ?_ (by norm_num)⟩
  · norm_num at hw ⊢
    linarith
  · norm_num at hz ⊢
    linarith

end

end ImgReg
