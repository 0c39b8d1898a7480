import Verif.Cases.Star
import Verif.Props.Register
import Verif.Props.RegisterMore
import Verif.Props.RegisterSymm
import Verif.Props.RegisterAgain

/-! # Concrete cases of the theorems of `Props/Register` and its continuations -/

namespace ImgReg.Cases
open ImgReg

variable (cfg : FFTConfig)

/-- `C44_recovers_roll` -/
example := fun zm => C44_recovers_roll cfg (star 4 5) 7 (-2) 10 (by norm_num) (.inr (by norm_num)) zm (star_identifiable 10 zm)

/-- `C45_grid_and_range` -/
example := C45_grid_and_range cfg picNan (realArr pic2) 10 (by norm_num) true none

/-- `C47_maxoff_limits` -/
example := C47_maxoff_limits cfg picNan (realArr pic2) 10 (by norm_num) true 3 (by norm_num)

/-- `C47_keeps_true_shift` -/
example := fun zm => C47_keeps_true_shift cfg (star 4 5) 1 (-2) 10 (by norm_num) (.inr (by norm_num)) zm (star_identifiable 10 zm)
  (by norm_num) (by norm_num) 5 (by norm_num [Spec.density]) (by norm_num [Spec.density])

/-- `C46_refinement_maximises` -/
example := C46_refinement_maximises cfg picNan (realArr pic2) 7 (by norm_num) (by norm_num) (by norm_num) true

/-- `C46_even_beats_half_pixels` -/
example := C46_even_beats_half_pixels cfg picNan (realArr pic2) 10 (by norm_num) ⟨5, rfl⟩ (by norm_num) (by norm_num) true

/-- `C48_layout` -/
example := C48_layout cfg picNan (realArr pic2) 7 (by norm_num) true (some 3)

/-- `C27_register_shape_mismatch` -/
example := C27_register_shape_mismatch cfg picNan (realArr odd1) (by decide) 7 true true true (some 3)

/-- `C48_shape_mismatch` -/
example := C48_shape_mismatch cfg picNan (realArr odd1) (by decide) 7 true true true (some 3)

/-- `C49_registered_image` -/
example := C49_registered_image cfg picNan (realArr pic2) 7 (by norm_num) true none

/-- `C49_half_image_roll` -/
example := fun zm => C49_half_image_roll cfg (star 4 5) 1 (-2) 10 (by norm_num) (.inr (by norm_num)) zm (star_identifiable 10 zm)
  (by norm_num) (by norm_num)

/-- `C134_roll_first`: the star and its copy, the first image moved by one more column -/
example := C134_roll_first cfg _ _ 10 (by norm_num) (.inr (by norm_num)) false _ _ _ _ (star_clear 10 (by norm_num)) 0 (-1) 0 0
  (by norm_num [abs_lt]) (by norm_num [abs_lt])

/-- `C88_registered_spectrum` -/
example := C88_registered_spectrum cfg pic pic2 7 (by norm_num) none

/-- `C88_register_images` -/
example := C88_register_images cfg picNan (realArr pic2) 7 (by norm_num) true none

/-- `C119_brightness_registered` -/
example := C119_brightness_registered cfg picNan (realArr pic2) 7 (by norm_num) true none 3 (-2) 1 5 (by norm_num) (by norm_num) (.inl rfl)

end ImgReg.Cases
