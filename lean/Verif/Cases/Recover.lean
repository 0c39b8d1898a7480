import Verif.Cases.Star
import Verif.Props.Chi2Recover
import Verif.Props.Chi2Boundary
import Verif.Props.Chi2Symm

/-! # Concrete cases of the theorems of `Props/Chi2Recover`, `Props/Chi2Boundary`, `Props/Chi2Symm` -/

namespace ImgReg.Cases
open ImgReg

variable (cfg : FFTConfig)

/-- `C33_recovers_roll`: even sizes, factor 3 -/
example := C33_recovers_roll cfg none trivial (star 4 6) (by norm_num) (by norm_num) (star_dft _) (star_dft _) 1 (-2) (.scalar 2) 2
  two_ne_zero rfl 3 (by norm_num) true 0 512 1 true (.inl rfl)
  (.inr ⟨⟨2, rfl⟩, ⟨2, rfl⟩, ⟨1, rfl⟩, by norm_num⟩) (.inr ⟨⟨3, rfl⟩, ⟨3, rfl⟩, ⟨1, rfl⟩, by norm_num⟩)

/-- `C33_recovers_subpixel`: odd sizes, moved by a third of a pixel -/
example := fun im2 h => C33_recovers_subpixel cfg cfg none trivial (star 3 5) im2 (by norm_num) (by norm_num) (star_dft _) (star_dft _)
  0 1 h (.scalar 2) 2 two_ne_zero rfl 3 (by norm_num) true 0 512 1 true (.inl rfl)

/-- `C33_odd_large_factor_never_whole` -/
example := C33_odd_large_factor_never_whole cfg none trivial (realArr odd1) (realArr odd2) .none ⟨1, rfl⟩ 7 (by norm_num) true 0 512 1 true
  (.inl rfl)

/-- `C34_window`, automatic factor -/
example := C34_window cfg none trivial picNan (realArr pic2) (.image errNan) .auto true 0 512 1 true (.inl rfl)
  (by norm_num [Spec.validUs])

/-- `C35_auto` -/
example := C35_auto cfg none trivial picNan (realArr pic2) (.image errNan) true 0 512 (by norm_num) 1 true (.inl rfl)

/-- `C38_scale_images` -/
example := C38_scale_images cfg none trivial picNan (realArr pic2) (.image errNan) (.int 3) true 0 512 1 true (.inl rfl)
  (by norm_num [Spec.validUs]) (by simp) (-2) (by norm_num)

/-- `C38_scale_err` -/
example := C38_scale_err cfg none trivial picNan (realArr pic2) (.float 2.5) true 0 512 1 true (.inl rfl)
  (by norm_num [Spec.validUs]) (by simp) 3 2 three_ne_zero two_ne_zero

/-- `C37_bounding_box`, the default one-sigma threshold -/
example := C37_bounding_box none pic 3 1 2 (by norm_num) (sigma_pos none trivial)

/-- `C37_zoomfactor` -/
example := C37_zoomfactor none pic 3 2 1 2 (by norm_num) (by norm_num) (sigma_pos none trivial)

/-- `C37_monotone` -/
example := C37_monotone none none pic 3 1 2 1 2 (by norm_num) (sigma_pos none trivial) le_rfl

/-- `C37_chi2_shift_nonneg` -/
example := C37_chi2_shift_nonneg cfg none trivial picNan (realArr pic2) (.image errNan) .auto true 0 512 1 true (.inl rfl)
  (by norm_num [Spec.validUs])

/-- `C95_only_the_map`: two settings of the `fft` options -/
example := fun n n' b b' chi2 h h' => C95_only_the_map ⟨true, b, n⟩ ⟨true, b', n'⟩ rfl .wrap .wrap none picNan (realArr pic2)
  picNan (realArr pic2) .none .none true true true true chi2 h h' (.int 3) 0 false true true 512 1

/-- `C95_grid`, whenever the map is computed -/
example := fun bd chi2 h => C95_grid cfg bd none trivial picNan (realArr pic2) .none (.int 3) true 0 512 1 true
  (by norm_num [Spec.validUs]) chi2 h

/-- `C95_layout` -/
example := fun bd chi2 h => C95_layout cfg bd none trivial picNan (realArr pic2) .none .auto true 0 512 1 true
  (by norm_num [Spec.validUs]) chi2 h

/-- `C95_shapes` -/
example := C95_shapes cfg .wrap none (realArr pic) (realArr odd1) .none .auto true 0 false true true 512 1 true (by decide)

/-- `C76_common_roll` -/
example := C76_common_roll cfg none picNan (realArr pic2) (.scalar 2) 2 rfl .auto true 0 false true true 512 1 true 3 (-7)

/-- `C77_exchange` -/
example := C77_exchange cfg none trivial (realArr odd1) (realArr odd2) ⟨1, rfl⟩ ⟨2, rfl⟩ (.scalar 2) 2 rfl (.int 3) (by simp) true 0
  512 1 true (.inl rfl) (by norm_num [Spec.validUs])

end ImgReg.Cases
