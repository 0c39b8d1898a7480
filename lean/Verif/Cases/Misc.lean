import Verif.Cases.Kernel
import Verif.Props.KernelMore
import Verif.Props.Downsample
import Verif.Props.FillShift
import Verif.Props.Fill
import Verif.Props.IntImages
import Verif.Props.CrossCorr
import Verif.Props.CrossCorrMore
import Verif.Props.Convolve
import Verif.Props.ConvolveMore

/-! # Concrete cases of the theorems about kernels, downsampling, other boundaries, integer images, correlation and convolution -/

namespace ImgReg.Cases
open ImgReg

variable (cfg cfg' : FFTConfig)

/-- `C58_custom_norm` -/
example := C58_custom_norm true shp shp_pos (.float 1.5) (by norm_num [KWidth.val]) none (fun _ => some 3) true 3 three_ne_zero

/-- `C59_empty` -/
example := C59_empty true ![4, 0] 1 rfl (.float 1.5) none .true true

/-- `C54_downsample` -/
example := C54_downsample ⟨5, 7, fun i j => if i = j then none else some (i + j)⟩ 2 (by norm_num)

/-- `C55_downsample_mean` -/
example := C55_downsample_mean 3 4 2 (by norm_num) (fun i j => i * j)

/-- `C55_downsample_compose` -/
example := C55_downsample_compose 13 17 2 3 (by norm_num) (by norm_num) (fun i j => i * j)

/-- `C56_downsample_axis_estimator` -/
example := C56_downsample_axis_estimator ⟨![4, 5, 6], fun i => if i 0 = 1 then none else some (i 2)⟩ 2 (by norm_num) (-1) 2 (.inr rfl)
  (fun l => l.head?.getD none) true

/-- `C56_downsample_axis` -/
example := C56_downsample_axis ⟨![4, 5, 6], fun i => if i 0 = 1 then none else some (i 2)⟩ 2 (by norm_num) 1 1 (.inl rfl) false

/-- `C56_downsample_axis_bad` -/
example := C56_downsample_axis_bad ⟨![4, 5, 6], fun i => if i 0 = 1 then none else some (i 2)⟩ 2 3 (.inr (by norm_num)) Np.nanmean false

/-- `C56_downsample_axis_bad_factor` -/
example := C56_downsample_axis_bad_factor ⟨![4, 5, 6], fun i => if i 0 = 1 then none else some (i 2)⟩ (-2) 1 (by norm_num) Np.nanmean false

/-- `C56_both_axes` -/
example := C56_both_axes 5 7 2 (by norm_num) (fun i j => i * j)

/-- a generous padding: one more than the sum of the sizes -/
def sumPad : ℕ × ℕ → ℕ × ℕ → ℕ × ℕ := fun a b => (a.1 + b.1 + 1, a.2 + b.2 + 1)
/-- the padding of astropy: the sum of the sizes -/
def sumPad' : ℕ × ℕ → ℕ × ℕ → ℕ × ℕ := fun a b => (a.1 + b.1, a.2 + b.2)

theorem sumPad_enough : Spec.padsEnough sumPad := by
  unfold Spec.padsEnough sumPad; intros; constructor <;> dsimp only <;> omega
theorem sumPad'_enough : Spec.padsEnough sumPad' := by
  unfold Spec.padsEnough sumPad'; intros; simp

/-- `C92_fill`: 4×5 and 3×5 images -/
example := C92_fill cfg sumPad sumPad_enough true (.inl rfl) picNan (realArr odd1)

/-- `C92_padding_irrelevant` -/
example := C92_padding_irrelevant cfg cfg' sumPad sumPad' sumPad_enough sumPad'_enough true true (.inl rfl) (.inl rfl) picNan (realArr odd1)

/-- `C92_wrap_sizes` -/
example := C92_wrap_sizes cfg true (.inl rfl) picNan (realArr odd1)

/-- `C93_scalar_error` -/
example := C93_scalar_error cfg sumPad sumPad_enough true (.inl rfl) picNan (realArr pic2) (.scalar 2) 2 two_ne_zero rfl

/-- `C93_error_image` -/
example := C93_error_image cfg sumPad sumPad_enough true (.inl rfl) picNan (realArr pic2) errNan

/-- `C93_scalar_vs_image` -/
example := C93_scalar_vs_image cfg sumPad sumPad_enough true (.inl rfl) picNan (realArr pic2) 2 two_ne_zero

instance (t : IntType) (z : ℤ) : Decidable (Spec.Holds t z) := by unfold Spec.Holds; infer_instance

instance (mm : MinMax) (im : Fin 4 × Fin 5 → ℤ) (e : ℤ) : Decidable (Spec.IsExtreme mm im e) := by
  unfold Spec.IsExtreme; cases mm <;> infer_instance

/-- `C130_map_fits`: 16-bit images with small values -/
example := C130_map_fits cfg .wrap ⟨16, true⟩ ⟨16, true⟩ (fun p : Fin 4 × Fin 5 => ((p.1 : ℕ) : ℤ)) (fun p : Fin 4 × Fin 5 => ((p.2 : ℕ) : ℤ)) .none false
  true true true (.inr ⟨by decide, by decide⟩)

/-- `C130_map_offset`: 8-bit images that overflow -/
example := C130_map_offset cfg .wrap Spec.uint8 Spec.uint8 (fun p : Fin 4 × Fin 5 => 100 * ((p.1 : ℕ) : ℤ)) (fun p : Fin 4 × Fin 5 => 90 * ((p.2 : ℕ) : ℤ))
  (.scalar 2) (by intro e h; cases h) true true

/-- `C130_shift_fits` -/
example := C130_shift_fits cfg .wrap none ⟨16, true⟩ ⟨16, true⟩ (fun p : Fin 4 × Fin 5 => ((p.1 : ℕ) : ℤ)) (fun p : Fin 4 × Fin 5 => ((p.2 : ℕ) : ℤ)) .none
  .auto false 0 false true true 512 1 true (.inr ⟨by decide, by decide⟩)

/-- `C130_shift_no_error_array` -/
example := C130_shift_no_error_array cfg .wrap none Spec.uint8 Spec.uint8 (fun p : Fin 4 × Fin 5 => 100 * ((p.1 : ℕ) : ℤ))
  (fun p : Fin 4 × Fin 5 => 90 * ((p.2 : ℕ) : ℤ)) (.scalar 2) (by intro e h; cases h) (.int 3) false 0 false true true 512 1 true (by norm_num [Spec.validUs])

/-- `C130_shift_same` -/
example := C130_shift_same cfg .wrap none Spec.uint8 Spec.uint8 (fun p : Fin 4 × Fin 5 => 100 * ((p.1 : ℕ) : ℤ))
  (fun p : Fin 4 × Fin 5 => 90 * ((p.2 : ℕ) : ℤ)) (.scalar 2) (by intro e h; cases h) .auto false 0 false true 512 1 true (by norm_num [Spec.validUs])

/-- `C130_uint8_negative` -/
example := C130_uint8_negative (ny := 4) (nx := 5) cfg true (.inl rfl)

/-- `C130_uint8_wrong_shift` -/
example := C130_uint8_wrong_shift cfg none trivial 0 512 1 true

/-- `C130_iterative_zoom_fits` -/
example := C130_iterative_zoom_fits true 9 ⟨16, true⟩ (fun p : Fin 4 × Fin 5 => ((p.1 : ℕ) : ℤ)) 1 (10, 10) 2 .min true true 0
  (by decide) (by decide)

/-- `C130_iterative_zoom_same`: unsigned images -/
example := C130_iterative_zoom_same true 9 Spec.uint8 (fun p : Fin 4 × Fin 5 => 50 * ((p.1 : ℕ) : ℤ)) 1 (10, 10) 2 .min true true
  (.inl ⟨rfl, rfl, by decide⟩)

/-- `C130_iterative_zoom_max_unsigned` -/
example := C130_iterative_zoom_max_unsigned true 9 Spec.uint8 rfl (fun p : Fin 4 × Fin 5 => 50 * ((p.1 : ℕ) : ℤ)) (by decide) 206 (10, 10) 2 true (3, 0) (2, 0)
  (by decide) (by decide) (by norm_num [Spec.uint8])

/-- `C27_cross_correlation_shifts` -/
example := C27_cross_correlation_shifts cfg none picNan (realArr odd1) none none (some 3) true true true true (by decide)

/-- `C78_errim_unused` -/
example := C78_errim_unused cfg none picNan (realArr pic2) (some errNan) none none (some errNan) none true true true (.inl rfl)

/-- `C53_zeromean_max`: a constant image -/
example := C53_zeromean_max (realArr fun _ : Fin 3 × Fin 4 => 5) (realArr fun _ : Fin 3 × Fin 4 => 7) (by
  have h : prep true (realArr fun _ : Fin 3 × Fin 4 => (5 : ℝ)) = fun _ => 0 := by
    rw [prep_real]; funext p; norm_num [Spec.mean]
  intro i; simp [h, Spec.xcorr])

/-- the correlation map of two images of ones -/
theorem ones_xcorr (i : Fin 3 × Fin 4) :
    Spec.xcorr (prep false (realArr fun _ : Fin 3 × Fin 4 => 1)) (prep false (realArr fun _ : Fin 3 × Fin 4 => 1)) i = 12 := by
  have h : prep false (realArr fun _ : Fin 3 × Fin 4 => (1 : ℝ)) = fun _ => 1 := by
    rw [prep_real]; funext p; simp
  simp only [h, Spec.xcorr]
  norm_num

theorem ones_peak : Np.IsFirstMax (Spec.xcorr (prep false (realArr fun _ : Fin 3 × Fin 4 => 1)) (prep false (realArr fun _ : Fin 3 × Fin 4 => 1)))
    (0, 0) := by
  have h : Spec.xcorr (prep false (realArr fun _ : Fin 3 × Fin 4 => 1)) (prep false (realArr fun _ : Fin 3 × Fin 4 => 1)) = fun _ => 12 :=
    funext ones_xcorr
  rw [h]
  have := Np.argmax_spec (fun _ : Fin 3 × Fin 4 => (12 : ℝ))
  refine ⟨fun _ => le_rfl, fun j _ => ?_⟩
  simp [Np.flat]

/-- `C53_maxoff` -/
example := C53_maxoff cfg none (realArr fun _ : Fin 3 × Fin 4 => 1) (realArr fun _ : Fin 3 × Fin 4 => 1) none none 2 false true false true (.inl rfl)
  (.inl ⟨(0, 0), by rw [ones_xcorr]; norm_num⟩)

/-- `C53_gaussfit_needs_agpy` -/
example := C53_gaussfit_needs_agpy cfg (realArr fun _ : Fin 3 × Fin 4 => 1) (realArr fun _ : Fin 3 × Fin 4 => 1) none none true false true (.inl rfl)
  (0, 0) ones_peak (by rw [ones_xcorr]; norm_num)

/-- `C53_gaussfit_values` -/
example := fun fit => C53_gaussfit_values cfg fit (realArr fun _ : Fin 3 × Fin 4 => 1) (realArr fun _ : Fin 3 × Fin 4 => 1) none none true false true (.inl rfl)
  (0, 0) ones_peak (by rw [ones_xcorr]; norm_num)

/-- `C53_gaussfit_formula` -/
example := fun fit => C53_gaussfit_formula cfg fit (realArr fun _ : Fin 3 × Fin 4 => 1) (realArr fun _ : Fin 3 × Fin 4 => 1) none none true false true (.inl rfl)
  (0, 0) ones_peak (by rw [ones_xcorr]; norm_num) _ _ rfl

/-- `C61_ndim` -/
example := fun o => have : ∀ d : Fin 2, NeZero ((![4, 5] : Fin 2 → ℕ) d) := by intro d; fin_cases d <;> exact ⟨by norm_num⟩
  C61_ndim cfg (D := 2) (D' := 1) (by norm_num) (s := ![4, 5]) (t := ![3]) o (fun _ => none) (fun _ => some 1)

end ImgReg.Cases
