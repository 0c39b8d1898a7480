import Verif.Props.Noise
import Verif.Props.Register

/-!
# Noise: `register_images` still finds a whole-pixel displacement (C98)
-/

open Complex Finset
open scoped ComplexConjugate

namespace ImgReg

section
variable {ny nx : ℕ} [NeZero ny] [NeZero nx]

theorem cshift_add (t u : ℝ) (a b : Fin ny × Fin nx → ℝ) (p : Fin ny × Fin nx) :
    cshift t u (fun p => a p + b p) p = cshift t u a p + cshift t u b p := by
  unfold cshift
  have h1 : (fun i => ((a i + b i : ℝ) : ℂ)) = fun i => (a i : ℂ) + (b i : ℂ) := by
    funext i; push_cast; ring
  rw [h1, filt_add]

theorem cc_add (a b c : Fin ny × Fin nx → ℝ) (t u : ℝ) :
    Spec.cc a (fun p => b p + c p) t u = Spec.cc a b t u + Spec.cc a c t u := by
  unfold Spec.cc
  rw [← Finset.sum_add_distrib]
  refine Finset.sum_congr rfl fun p _ => ?_
  rw [cshift_add, map_add, mul_add]

/-- Cauchy–Schwarz for the cross-correlation -/
theorem cc_le (a b : Fin ny × Fin nx → ℝ) (t u : ℝ) :
    ‖Spec.cc a b t u‖ ≤ Real.sqrt (∑ p, a p ^ 2) * Real.sqrt (∑ p, b p ^ 2) := by
  unfold Spec.cc
  refine (norm_sum_le _ _).trans ?_
  have h := Real.sum_mul_le_sqrt_mul_sqrt univ (fun p => ‖(a p : ℂ)‖) (fun p => ‖cshift t u b p‖)
  rw [cshift_energy] at h
  have e : ∀ p, ‖(a p : ℂ)‖ ^ 2 = a p ^ 2 := by intro p; simp
  simp only [e] at h
  simp only [norm_mul, RCLike.norm_conj]
  exact h

omit [NeZero ny] [NeZero nx] in
theorem sum_sub_mean_le [NeZero ny] [NeZero nx] (a : Fin ny × Fin nx → ℝ) (zm : Bool) :
    ∑ p, (a p - if zm then Spec.mean a else 0) ^ 2 ≤ ∑ p, a p ^ 2 := by
  cases zm with
  | false => simp
  | true =>
    have h := l2_sub_mean (fun p => (a p : ℂ)) ((Spec.mean a : ℝ) : ℂ) (by
      have c0 : (ny : ℝ) * nx ≠ 0 := by have := NeZero.ne ny; have := NeZero.ne nx; positivity
      unfold Spec.mean
      norm_cast
      simp only [Fintype.card_prod, Fintype.card_fin]
      push_cast
      rw [mul_div_cancel₀ _ c0])
    unfold l2 at h
    rw [Real.sqrt_le_sqrt_iff (by positivity)] at h
    have e : ∀ x : ℝ, ‖(x : ℂ)‖ ^ 2 = x ^ 2 := by intro x; simp
    simp only [← Complex.ofReal_sub, e] at h
    simpa using h

/-- C98: whole-pixel registration by cross-correlation survives noise. Let `im2` be `im1` rolled by `(dy, dx)` plus any disturbance
`noise`, and let `a` be `im1`, mean-subtracted if `zeromean`. If the modulus of the autocorrelation of `a` at every other candidate
displacement (multiples of `1/usfac`, and half pixels) stays below its value at 0 by more than `2·‖a‖·‖noise‖`, then `register_images`
returns exactly the shift, reduced to `-n ≤ 2·d < n`. -/
theorem C98_roll_with_noise (cfg : FFTConfig) (im1 noise : Fin ny × Fin nx → ℝ) (dy dx : ℤ) (usfac : ℕ)
    (hu : 1 ≤ usfac) (hsz : usfac = 1 ∨ (2 ≤ ny ∧ 2 ≤ nx)) (zm : Bool)
    (a : Fin ny × Fin nx → ℝ) (ha : ∀ p, a p = im1 p - if zm then Spec.mean im1 else 0)
    (hmargin : ∀ t ∈ Spec.candidates usfac, ∀ u ∈ Spec.candidates usfac,
      ¬ ((∃ z : ℤ, t = z * ny) ∧ ∃ z : ℤ, u = z * nx) →
      ‖Spec.cc a a t u‖ + 2 * (Real.sqrt (∑ p, a p ^ 2) * Real.sqrt (∑ p, noise p ^ 2)) < ∑ p, a p ^ 2) :
    ∃ dx' dy' : ℤ,
      registerImages cfg (realArr im1) (realArr fun p => Spec.roll2 dy dx im1 p + noise p) usfac false false zm none
        = .ok [.num dx', .num dy'] ∧
      dx' ≡ dx [ZMOD nx] ∧ -(nx : ℤ) ≤ 2 * dx' ∧ 2 * dx' < nx ∧
      dy' ≡ dy [ZMOD ny] ∧ -(ny : ℤ) ≤ 2 * dy' ∧ 2 * dy' < ny := by
  obtain ⟨dy', -, my, ly, ry, -⟩ := exists_rep ny dy
  obtain ⟨dx', -, mx, lx, rx, -⟩ := exists_rep nx dx
  refine ⟨dx', dy', ?_, mx, lx, rx, my, ly, ry⟩
  rw [← roll2_congr my mx, registerImages_same]
  have hap : prep zm (realArr im1) = a := by rw [prep_real]; funext p; rw [ha]
  have hb : prep zm (realArr fun p => Spec.roll2 dy' dx' im1 p + noise p)
      = fun p => Spec.roll2 dy' dx' a p + (noise p - if zm then Spec.mean noise else 0) := by
    rw [prep_real]
    funext p
    have e : Spec.mean (fun p => Spec.roll2 dy' dx' im1 p + noise p) = Spec.mean im1 + Spec.mean noise := by
      unfold Spec.mean
      rw [Finset.sum_add_distrib, Spec.roll2_sum, add_div]
    have e2 : Spec.roll2 dy' dx' a p = Spec.roll2 dy' dx' im1 p - if zm then Spec.mean im1 else 0 := by
      unfold Spec.roll2; rw [ha]
    rw [e, e2]
    split_ifs <;> ring
  set n' : Fin ny × Fin nx → ℝ := fun p => noise p - if zm then Spec.mean noise else 0 with hn'
  have hcc : ∀ t u : ℝ, Spec.cc a (fun p => Spec.roll2 dy' dx' a p + n' p) t u
      = Spec.cc a a (t + dy') (u + dx') + Spec.cc a n' t u := by
    intro t u
    rw [cc_add]
    congr 1
    exact cc_shifted a _ dy' dx' t u (Spec.roll2_eq_cshift a dy' dx')
  have hE : ∀ t u : ℝ, ‖Spec.cc a n' t u‖ ≤ Real.sqrt (∑ p, a p ^ 2) * Real.sqrt (∑ p, noise p ^ 2) := by
    intro t u
    refine (cc_le a n' t u).trans ?_
    exact mul_le_mul_of_nonneg_left (Real.sqrt_le_sqrt (sum_sub_mean_le noise zm)) (Real.sqrt_nonneg _)
  obtain ⟨fit, hfit, hr, hc⟩ := fit_recovers_of_peak ⟨cfg.hasFftw, false, 1⟩ a (fun p => Spec.roll2 dy' dx' a p + n' p) dy' dx' usfac hu hsz
    (fun t u t' u' ht hu' hp hne => by
      rw [hcc, hcc]
      have h1 := hmargin _ ht _ hu' hne
      have h2 : ‖Spec.cc a a (t' + dy') (u' + dx')‖ = ∑ p, a p ^ 2 := by
        have := cc_eq a a 0 0 (t' + dy') (u' + dx') (fun p => by
          have := cshift_int 0 0 a p
          simp only [Int.cast_zero] at this
          rw [this]
          unfold Spec.roll2
          simp only [sub_zero, Spec.wrap_val]) (by simpa using hp)
        exact this
      have h3 := hE t u
      have h4 := hE t' u'
      have h5 := norm_add_le (Spec.cc a a (t + dy') (u + dx')) (Spec.cc a n' t u)
      have h6 := norm_sub_le (Spec.cc a a (t' + dy') (u' + dx') + Spec.cc a n' t' u') (Spec.cc a n' t' u')
      rw [add_sub_cancel_right, h2] at h6
      linarith)
    ⟨ly, ry⟩ ⟨lx, rx⟩ none (by intro k hk; cases hk)
  rw [registerBody_ok cfg _ _ usfac false false zm none fit (by rw [hap, hb]; exact hfit), hr, hc]
  simp

end

/-- C98 applies to a single bright pixel with noise of 1/20 everywhere and every displacement. -/
example (cfg : FFTConfig) (dy dx : ℤ) :
    ∃ dx' dy' : ℤ, registerImages cfg (realArr fun p : Fin 4 × Fin 5 => if p = (0, 0) then 1 else 0)
      (realArr fun p : Fin 4 × Fin 5 => Spec.roll2 dy dx (fun p : Fin 4 × Fin 5 => if p = (0, 0) then (1 : ℝ) else 0) p + 1 / 20)
      1 false false false none = .ok [.num dx', .num dy'] ∧ dx' ≡ dx [ZMOD 5] ∧ dy' ≡ dy [ZMOD 4] := by
  have hE : ∑ p : Fin 4 × Fin 5, (if p = (0, 0) then (1 : ℝ) else 0) ^ 2 = 1 := by
    simp [apply_ite (· ^ 2)]
  obtain ⟨dx', dy', h, cx, -, -, cy, -, -⟩ := C98_roll_with_noise (ny := 4) (nx := 5) cfg
    (fun p => if p = (0, 0) then 1 else 0) (fun _ => 1 / 20) dy dx 1 le_rfl (.inl rfl) false
    (fun p => if p = (0, 0) then 1 else 0) (fun p => by simp) (fun t ht u hu' hne => by
      have int : ∀ t ∈ Spec.candidates 1, ∃ z : ℤ, t = z := by
        rintro t (⟨z, hz⟩ | ⟨h, -⟩)
        · exact ⟨z, by simpa using hz⟩
        · omega
      obtain ⟨j, rfl⟩ := int t ht
      obtain ⟨k, rfl⟩ := int u hu'
      have h0 : Spec.cc (fun p : Fin 4 × Fin 5 => if p = (0, 0) then (1 : ℝ) else 0) (fun p => if p = (0, 0) then 1 else 0) j k = 0 := by
        unfold Spec.cc
        refine Finset.sum_eq_zero fun p _ => ?_
        rw [cshift_int]
        by_cases hp : p = (0, 0)
        · subst hp
          have : Spec.roll2 j k (fun p : Fin 4 × Fin 5 => if p = (0, 0) then (1 : ℝ) else 0) (0, 0) = 0 := by
            unfold Spec.roll2
            refine if_neg fun h => hne ?_
            have w : ∀ (n : ℕ) [NeZero n] (d : ℤ), Spec.wrap n ((((0 : Fin n) : ℕ) : ℤ) - d) = 0 → ∃ z : ℤ, (d : ℝ) = z * n := by
              intro n _ d hw
              rw [Spec.wrap_eq_iff] at hw
              obtain ⟨z, hz⟩ := Int.modEq_iff_dvd.1 hw
              refine ⟨z, ?_⟩
              have : d = z * n := by
                simp at hz
                linarith
              rw [this]; push_cast; ring
            exact ⟨w 4 j (congrArg Prod.fst h), w 5 k (congrArg Prod.snd h)⟩
          rw [this]; simp
        · simp [hp]
      rw [h0, norm_zero, hE, Real.sqrt_one]
      have hs : Real.sqrt (∑ _p : Fin 4 × Fin 5, (1 / 20 : ℝ) ^ 2) < 1 / 2 := by
        rw [Real.sqrt_lt' (by norm_num)]
        simp
        norm_num
      linarith)
  exact ⟨dx', dy', h, cx, cy⟩

end ImgReg
