import Verif.Props.StarNoiseAnswer
import Verif.Props.StarTrue

/-!
# C155: `register_images` on a Gaussian star with random noise, the true displacement
-/

open Complex Finset MeasureTheory

namespace ImgReg

section
variable {ny nx : ℕ} [NeZero ny] [NeZero nx] {Ω : Type*} [MeasurableSpace Ω] (μ : Measure Ω)

/-- If the displacement and the accuracy are less than half of the frame minus one pixel, the events of C155 with and without multiples of the
frame are the same. -/
theorem register_true_event [IsProbabilityMeasure μ] (cfg : FFTConfig) (im1 : Fin ny × Fin nx → Pix)
    (im2 : Ω → Fin ny × Fin nx → Pix) (usfac : ℕ) (hu : 1 ≤ usfac) (zm : Bool) (dx dy e P : ℝ)
    (hdy : |dy| + 1 + e < ny / 2) (hdx : |dx| + 1 + e < nx / 2)
    (h : μ.real {ω | ¬ ∃ rx ry : ℝ, registerImages cfg im1 (im2 ω) usfac false false zm none = .ok [.num rx, .num ry] ∧
      ∃ z w : ℤ, Real.sqrt ((ry - dy - z * ny) ^ 2 + (rx - dx - w * nx) ^ 2) ≤ e} ≤ P) :
    μ.real {ω | ¬ ∃ rx ry : ℝ, registerImages cfg im1 (im2 ω) usfac false false zm none = .ok [.num rx, .num ry] ∧
      Real.sqrt ((ry - dy) ^ 2 + (rx - dx) ^ 2) ≤ e} ≤ P := by
  refine le_trans (measureReal_mono ?_ (measure_ne_top _ _)) h
  intro ω hω
  simp only [Set.mem_ofPred_eq] at hω ⊢
  rintro ⟨rx, ry, hres, z, w, hzw⟩
  refine hω ⟨rx, ry, hres, ?_⟩
  obtain ⟨rx', ry', hr', -, -, -, hbx, hby⟩ := C45_grid_and_range cfg im1 (im2 ω) usfac hu zm none
  rw [hres] at hr'
  simp only [Except.ok.injEq, List.cons.injEq, RegVal.num.injEq, and_true] at hr'
  obtain ⟨rfl, rfl⟩ := hr'
  have he : 0 ≤ e := (Real.sqrt_nonneg _).trans hzw
  have hsq : (ry - dy - z * ny) ^ 2 + (rx - dx - w * nx) ^ 2 ≤ e ^ 2 := (Real.sqrt_le_left he).1 hzw
  have hz : z = 0 := no_wrap hby hdy he le_rfl (le_trans (by nlinarith [sq_nonneg (rx - dx - w * nx)]) hsq)
  have hw : w = 0 := no_wrap hbx hdx he le_rfl (le_trans (by nlinarith [sq_nonneg (ry - dy - z * ny)]) hsq)
  subst hz hw
  simpa using hzw

/-- C155 without multiples of the frame: in the situation of `C155_star_in_noise`, if the displacement of the star and the accuracy together are
less than half of the frame minus one pixel, then the reported displacement is within that accuracy of the true one, with the probability given
there. -/
theorem C155_true (cfg : FFTConfig) [IsProbabilityMeasure μ]
    {σ h A cy cx dy dx : ℝ} (hσ : 0 < σ) (h0 : 0 ≤ h) (hA : A ≠ 0)
    (hcy : Spec.inside ny h cy) (hcx : Spec.inside nx h cx) (hcy' : Spec.inside ny h (cy + dy)) (hcx' : Spec.inside nx h (cx + dx))
    (n : Ω → Fin ny × Fin nx → ℝ) (c : Fin ny × Fin nx → NNReal) (v : ℝ) (hv : 0 < v) (hc : ∀ p, (c p : ℝ) ≤ v)
    (hind : ProbabilityTheory.iIndepFun (fun p ω => n ω p) μ)
    (hsub : ∀ p, ProbabilityTheory.HasSubgaussianMGF (fun ω => n ω p) (c p) μ)
    (hy : 2 ≤ ny) (hx : 2 ≤ nx) (zm : Bool) (usfac : ℕ) (hu : 1 ≤ usfac) (k κ β m K L θ q ρ : ℝ) (hk : 0 < k)
    (hκ : κ = Spec.starBudget ny nx σ h 0)
    (hβ : β = (1 + max (Spec.starEps ny σ h) (Spec.starEps nx σ h)) ^ 2 - 1)
    (hm : m = k * Real.sqrt v / (|A| * (σ * Real.sqrt Real.pi))) (hK : K = Spec.starMean ny nx σ zm)
    (hL : L = Real.exp (-1 / (8 * σ ^ 2)) - 2 * K - 2 * (m * Real.sqrt (1 + β))) (hL0 : 0 < L)
    (hθ : θ = 1 + (2 * K + 4 * (m * Real.sqrt (1 + β))) / L)
    (hq : q = Real.exp (-1 / (8 * σ ^ 2)) - θ * κ - θ * m * Real.sqrt (2 + 4 * β)) (hq0 : 0 < q)
    (hρ : ρ = 2 * Real.sqrt 2 * σ * (θ * m) / q + 2 * σ * Real.sqrt ((θ * κ + 2 * (θ * m) * Real.sqrt β) / q))
    (hsharp : 2 < usfac → ρ ≤ 1 / 8)
    (hdy : |dy| + 1 + (Real.sqrt 2 / (2 * usfac) + ρ) < ny / 2) (hdx : |dx| + 1 + (Real.sqrt 2 / (2 * usfac) + ρ) < nx / 2) :
    μ.real {ω | ¬ ∃ rx ry : ℝ,
      registerImages cfg (realArr fun p : Fin ny × Fin nx => A * (Spec.star σ cy ((p.1 : ℕ) : ℝ) * Spec.star σ cx ((p.2 : ℕ) : ℝ)))
        (realArr fun p => A * (Spec.star σ (cy + dy) ((p.1 : ℕ) : ℝ) * Spec.star σ (cx + dx) ((p.2 : ℕ) : ℝ)) + n ω p)
        usfac false false zm none = .ok [.num rx, .num ry] ∧
      Real.sqrt ((ry - dy) ^ 2 + (rx - dx) ^ 2) ≤ Real.sqrt 2 / (2 * usfac) + ρ}
      ≤ (8 + 32 * usfac ^ 2 * (ny * nx)) * Real.exp (-(k ^ 2 / 2)) :=
  register_true_event μ cfg _
    (fun ω => realArr fun p => A * (Spec.star σ (cy + dy) ((p.1 : ℕ) : ℝ) * Spec.star σ (cx + dx) ((p.2 : ℕ) : ℝ)) + n ω p)
    usfac hu zm dx dy _ _ hdy hdx
    (C155_star_in_noise μ cfg hσ h0 hA hcy hcx hcy' hcx' n c v hv hc hind hsub hy hx zm usfac hu k κ β m K L θ q ρ hk hκ hβ hm hK hL hL0 hθ
      hq hq0 hρ hsharp)

/-- C155 (a case that meets the conditions): the star in Gaussian noise of `C155_star_in_noise_example`, moved by up to 48 pixels in either
direction. -/
theorem C155_true_example (cfg : FFTConfig) [IsProbabilityMeasure μ] {A cy cx dy dx : ℝ} (hA : A ≠ 0)
    (hcy : 25 ≤ cy ∧ cy ≤ 74) (hcx : 25 ≤ cx ∧ cx ≤ 74) (hcy' : 25 ≤ cy + dy ∧ cy + dy ≤ 74) (hcx' : 25 ≤ cx + dx ∧ cx + dx ≤ 74)
    (hdy : |dy| ≤ 48) (hdx : |dx| ≤ 48)
    (n : Ω → Fin 100 × Fin 100 → ℝ) (v : Fin 100 × Fin 100 → NNReal) (f : ℝ) (hf0 : 0 < f) (hf1 : f ≤ 1 / 150) (hv : ∀ p, (v p : ℝ) ≤ (f * A) ^ 2)
    (hind : ProbabilityTheory.iIndepFun (fun p ω => n ω p) μ)
    (hgauss : ∀ p, μ.map (fun ω => n ω p) = ProbabilityTheory.gaussianReal 0 (v p))
    (zm : Bool) (usfac : ℕ) (hu : 1 ≤ usfac) (hu2 : usfac ≤ 100) :
    μ.real {ω | ¬ ∃ rx ry : ℝ,
      registerImages cfg (realArr fun p : Fin 100 × Fin 100 => A * (Spec.star 3 cy ((p.1 : ℕ) : ℝ) * Spec.star 3 cx ((p.2 : ℕ) : ℝ)))
        (realArr fun p => A * (Spec.star 3 (cy + dy) ((p.1 : ℕ) : ℝ) * Spec.star 3 (cx + dx) ((p.2 : ℕ) : ℝ)) + n ω p)
        usfac false false zm none = .ok [.num rx, .num ry] ∧
      Real.sqrt ((ry - dy) ^ 2 + (rx - dx) ^ 2) ≤ Real.sqrt 2 / (2 * usfac) + (1 / 100 + 15 * f)}
      ≤ 1 / 10000 := by
  have hu' : (1 : ℝ) ≤ usfac := by exact_mod_cast hu
  have hs2 : Real.sqrt 2 / (2 * (usfac : ℝ)) ≤ 75 / 100 := by
    have : Real.sqrt 2 ≤ 3 / 2 := by rw [Real.sqrt_le_left (by norm_num)]; norm_num
    rw [div_le_div_iff₀ (by positivity) (by norm_num)]; linarith
  refine register_true_event μ cfg _
    (fun ω => realArr fun p => A * (Spec.star 3 (cy + dy) ((p.1 : ℕ) : ℝ) * Spec.star 3 (cx + dx) ((p.2 : ℕ) : ℝ)) + n ω p)
    usfac hu zm dx dy _ _ (by push_cast; linarith) (by push_cast; linarith) ?_
  have := C155_star_in_noise_example μ cfg hA hcy hcx hcy' hcx' n v f hf0 hf1 hv hind hgauss zm usfac hu hu2
  exact_mod_cast this

end

end ImgReg
