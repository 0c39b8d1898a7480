import Verif.Props.Kernel
import Verif.Props.Downsample

/-!
# Further theorems for C56–C60: other normalisations, empty shapes, bad downsampling factors
-/

open Finset

namespace ImgReg

/-- C58: `normalize_kernel` may be any function: the gaussian and tophat kernels are then the unnormalised kernel divided by the
value of that function on the unnormalised kernel. -/
theorem C58_custom_norm {D : ℕ} (sc : Bool) (n : Fin D → ℕ) (hn : ∀ d, 0 < n d) (w : KWidth) (hw : w.val ≠ 0)
    (sl : Option ℝ) (f : NArr D → Pix) (fo : Bool) (c : ℝ) (hc : c ≠ 0) :
    ((∀ k, Spec.HasValues k (Spec.oddShape fo n) (Spec.gauss (Spec.oddShape fo n) w.val) → f k = some c) →
      ∃ k, makeKernel sc n w .gaussian sl (.fn f) fo = .ok k ∧
        Spec.HasValues k (Spec.oddShape fo n) fun p => Spec.gauss (Spec.oddShape fo n) w.val p / c) ∧
    ((∀ k, Spec.HasValues k (Spec.oddShape fo n) (Spec.tophat (Spec.oddShape fo n) w.val) → f k = some c) →
      ∃ k, makeKernel sc n w .tophat sl (.fn f) fo = .ok k ∧
        Spec.HasValues k (Spec.oddShape fo n) fun p => Spec.tophat (Spec.oddShape fo n) w.val p / c) := by
  constructor
  · intro hf
    rw [makeKernel_gaussian sc n hn w hw sl _ fo]
    unfold normalizeKernel
    simp only
    rw [hf _ ⟨rfl, fun _ _ => rfl⟩]
    exact ⟨_, rfl, rfl, fun p _ => by simp [NArr.divScalar, hc]⟩
  · intro hf
    rw [makeKernel_tophat sc n hn w sl _ fo]
    unfold normalizeKernel
    simp only
    rw [hf _ ⟨rfl, fun _ _ => rfl⟩]
    exact ⟨_, rfl, rfl, fun p _ => by simp [NArr.divScalar, hc]⟩

/-- C58: with `normalize_kernel=np.max` the gaussian kernel is `exp(-d²/2w²)` itself: 1 at pixel `n//2`. -/
theorem C58_gaussian_max {D : ℕ} (sc : Bool) (n : Fin D → ℕ) (hn : ∀ d, 0 < n d) (w : KWidth) (hw : w.val ≠ 0)
    (sl : Option ℝ) (fo : Bool) :
    ∃ k, makeKernel sc n w .gaussian sl (.fn NArr.max) fo = .ok k ∧
      Spec.HasValues k (Spec.oddShape fo n) (Spec.gauss (Spec.oddShape fo n) w.val) ∧
      k.val (fun d => Spec.oddShape fo n d / 2) = some 1 := by
  have hcen : Spec.gauss (Spec.oddShape fo n) w.val (fun d => Spec.oddShape fo n d / 2) = 1 := by
    simp [Spec.gauss, Spec.distSqPix]
  have hmem : (fun d => Spec.oddShape fo n d / 2) ∈ Spec.pixels (Spec.oddShape fo n) := by
    rw [Spec.mem_pixels]
    intro d
    have := oddShape_pos fo n hn d
    omega
  obtain ⟨k, hk, hv⟩ := (C58_custom_norm sc n hn w hw sl NArr.max fo 1 one_ne_zero).1 (by
    intro k hk
    obtain ⟨h1, h2⟩ := hk
    have hcell : NArr.cells k.shape = Spec.pixels (Spec.oddShape fo n) := by rw [h1]; rfl
    have hne : (NArr.cells k.shape).Nonempty ∧ ∀ p ∈ NArr.cells k.shape, k.val p ≠ none := by
      rw [hcell]
      exact ⟨⟨_, hmem⟩, fun p hp => by rw [h2 p hp]; simp⟩
    unfold NArr.max
    rw [dif_pos hne]
    congr 1
    apply le_antisymm
    · apply Finset.sup'_le
      intro p hp
      rw [hcell] at hp
      rw [h2 p hp]
      simp only [Option.getD_some]
      unfold Spec.gauss
      rw [Real.exp_le_one_iff]
      have := distSqPix_nonneg (Spec.oddShape fo n) p
      exact div_nonpos_of_nonpos_of_nonneg (by linarith) (by positivity)
    · have := Finset.le_sup' (fun p => (k.val p).getD 0) (show (fun d => Spec.oddShape fo n d / 2) ∈ NArr.cells k.shape by
        rw [hcell]; exact hmem)
      rw [h2 _ hmem] at this
      simp only [Option.getD_some] at this
      rwa [hcen] at this)
  refine ⟨k, hk, ⟨hv.1, fun p hp => ?_⟩, ?_⟩
  · rw [hv.2 p hp]; simp
  · rw [hv.2 _ hmem]; beta_reduce; rw [hcen]; simp

/-- C59: a dimension of size 0: ValueError, except that a boxcar without `force_odd` is returned (empty), and that an
unknown type, a missing scipy, or a kernel whose width or normalisation is unusable fails as for other shapes. -/
theorem C59_empty {D : ℕ} (sc : Bool) (n : Fin D → ℕ) (d : Fin D) (hd : n d = 0) (w : KWidth) (sl : Option ℝ)
    (nk : NormArg D) (fo : Bool) :
    makeKernel sc n w .gaussian sl nk fo = .error .valueError ∧
    makeKernel sc n w .tophat sl nk fo = .error .valueError ∧
    makeKernel sc n w .trapezoid sl nk fo = .error .valueError ∧
    makeKernel sc n w .boxcar sl nk true = .error .valueError ∧
    makeKernel true n w .airy sl nk fo = .error .valueError ∧
    makeKernel false n w .airy sl nk fo = .error .importError ∧
    makeKernel sc n w .other sl nk fo = .error .unboundLocalError ∧
    (∀ z : ℤ, Spec.DefaultNorm nk → ∃ k, makeKernel sc n (.int z) .boxcar sl nk false = .ok k ∧ k.shape = n) := by
  have he : ∃ d, n d = 0 := ⟨d, hd⟩
  unfold makeKernel
  simp only
  refine ⟨if_pos he, if_pos he, dif_neg (fun h => h.2 he), if_pos ⟨he, trivial⟩, by simp [he], by simp, trivial, ?_⟩
  intro z hnk
  rw [if_neg (by simp)]
  rw [normalize_default nk hnk]
  exact ⟨_, rfl, rfl⟩

/-- C56: factor 0 raises ZeroDivisionError and a negative factor ValueError (on an existing axis). -/
theorem C56_downsample_axis_bad_factor {D : ℕ} (a : NArr D) (factor axis : ℤ) (h : -(D : ℤ) ≤ axis ∧ axis < D)
    (est : List Pix → Pix) (tr : Bool) :
    downsampleAxis a 0 axis est tr = .error .zeroDivisionError ∧
    (factor < 0 → downsampleAxis a factor axis est tr = .error .valueError) := by
  obtain ⟨ax, hax⟩ : ∃ ax, Np.normAxis D axis = some ax := by
    unfold Np.normAxis
    by_cases h0 : 0 ≤ axis ∧ axis < D
    · rw [dif_pos h0]; exact ⟨_, rfl⟩
    · rw [dif_neg h0, dif_pos (by omega)]; exact ⟨_, rfl⟩
  unfold downsampleAxis
  rw [hax]
  simp only
  refine ⟨if_pos trivial, fun hf => ?_⟩
  rw [if_neg (by omega), if_pos hf]

/-- C57: which error `downsample_cube` raises: ValueError for an axis that does not exist, ZeroDivisionError for factor 0,
otherwise NameError. -/
theorem C57_downsample_cube_error (a : NArr 3) (factor ignoredim : ℤ) :
    (2 < ignoredim → downsampleCube a factor ignoredim = .error .valueError) ∧
    (ignoredim ≤ 2 → downsampleCube a 0 ignoredim = .error .zeroDivisionError) ∧
    (ignoredim ≤ 2 → factor ≠ 0 → downsampleCube a factor ignoredim = .error .nameError) := by
  unfold downsampleCube
  refine ⟨fun h => if_pos h, fun h => ?_, fun h hf => ?_⟩
  · rw [if_neg (by omega), if_pos rfl]
  · rw [if_neg (by omega), if_neg hf]

/-! ## Concrete cases -/

/-- `make_kernel([3,3], 1, normalize_kernel=np.max)`: 1 at the centre, `exp(-1/2)` beside it. -/
example : ∃ k, makeKernel true (fun _ : Fin 2 => 3) (.int 1) .gaussian none (.fn NArr.max) false = .ok k ∧
    k.val (fun _ => 1) = some 1 ∧ k.val ![0, 1] = some (Real.exp (-1 / 2)) := by
  obtain ⟨k, hk, hv, h1⟩ := C58_gaussian_max true (fun _ : Fin 2 => 3) (by simp) (.int 1) (by simp [KWidth.val]) none false
  refine ⟨k, hk, by simpa [Spec.oddShape] using h1, ?_⟩
  rw [hv.2 _ (by rw [Spec.mem_pixels]; intro d; fin_cases d <;> simp [Spec.oddShape])]
  simp [Spec.gauss, Spec.distSqPix, Spec.oddShape, Fin.sum_univ_two, KWidth.val]

end ImgReg
