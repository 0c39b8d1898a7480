import Verif.Cases.Basic
import Verif.Props.Chi2
import Verif.Props.Chi2More
import Verif.Props.Chi2Shift

/-! # Concrete cases of the theorems of `Props/Chi2`, `Props/Chi2More`, `Props/Chi2Shift` -/

namespace ImgReg.Cases
open ImgReg

variable (cfg : FFTConfig)

/-- `C21_correlate2d`, without `allow_huge` -/
example := C21_correlate2d cfg false (.inr (by norm_num)) pic pic2

/-- `C21_zero_lag` -/
example := C21_zero_lag cfg true (.inl rfl) pic pic2

/-- `C22_exchange` -/
example := C22_exchange cfg true (.inl rfl) pic pic2

/-- `C24_error_image`: NaN pixels in the image and the error image, a zero error -/
example := C24_error_image cfg true (.inl rfl) picNan (realArr pic2) errNan

/-- `C25_nonneg` -/
example := C25_nonneg cfg true (.inl rfl) picNan (realArr pic2) (.image errNan) true

/-- `C25_zero_at_true_shift`: with an error image -/
example := C25_zero_at_true_shift cfg true (.inl rfl) picNan 1 (-2) (.image (realArr errPic)) true
  (fun er h p => by injection h with h; rw [← h]; exact errPic_ne p)

/-- `C26_terms`: with an error image, reduced -/
example := C26_terms cfg true (.inl rfl) picNan (realArr pic2) (.image (realArr errPic)) true
  (fun er h p => by injection h with h; rw [← h]; exact errPic_ne p)

/-- `C26_term3_scalar` -/
example := C26_term3_scalar cfg true (.inl rfl) picNan (realArr pic2) 2 true

/-- `C27_chi2_shift`: 4×5 and 3×5 images -/
example := C27_chi2_shift cfg none (realArr pic) (realArr odd1) .none .auto false 0 false true true 512 1 true (by norm_num)

/-- `C29_scalar` -/
example := C29_scalar cfg true (.inl rfl) picNan (realArr pic2) 3 2 two_ne_zero three_ne_zero true

/-- `C29_image` -/
example := C29_image cfg true (.inl rfl) picNan (realArr pic2) errPic errPic_ne 2 two_ne_zero true

/-- `C30_roll` -/
example := C30_roll cfg true (.inl rfl) picNan (realArr pic2) (.scalar 2) 2 rfl true 3 (-7)

/-- `C26_terms_image`: NaN pixels in the image and the error image, a zero error -/
example := C26_terms_image cfg true (.inl rfl) picNan (realArr pic2) errNan false _ _ _ (fun _ => rfl) (fun _ => rfl) (fun _ => rfl)

/-- `C26_term3_none` -/
example := C26_term3_none cfg true (.inl rfl) picNan (realArr pic2) false

/-- `C34_grid_points`, automatic factor -/
example := C34_grid_points cfg none trivial picNan (realArr pic2) (.image errNan) .auto true 0 512 1 true (.inl rfl)
  (by norm_num [Spec.validUs])

/-- `C37_chi2_shift_extent`, factor 10 (above the number of rows) -/
example := C37_chi2_shift_extent cfg none trivial picNan (realArr pic2) (.image errNan) (.int 10) true 0 512 1 true (.inl rfl)
  (by norm_num [Spec.validUs])

/-- `C31_residual_any`, factor 2.5 -/
example := C31_residual_any cfg none trivial picNan (realArr pic2) (.scalar 2) 2 two_ne_zero rfl (.float 2.5) true 0 512 1 true (.inl rfl)
  (by norm_num [Spec.validUs]) true

/-- `C31_residual` -/
example := C31_residual cfg none trivial pic pic2 (.scalar 2) 2 two_ne_zero rfl (.int 3) 0 512 1 true (.inl rfl)
  (by norm_num [Spec.validUs]) true

/-- `C32_best_grid_point` -/
example := C32_best_grid_point cfg none trivial picNan (realArr pic2) (.image errNan) (.int 3) true 0 512 1 true (.inl rfl)
  (by norm_num [Spec.validUs])

/-- `C36_layout` -/
example := C36_layout cfg none trivial picNan (realArr pic2) (.image errNan) .auto true 0 512 1 true (.inl rfl)
  (by norm_num [Spec.validUs])

end ImgReg.Cases
