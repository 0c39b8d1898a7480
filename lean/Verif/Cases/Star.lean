import Verif.Cases.Basic
import Verif.Fourier
import Verif.Props.Chi2Recover
import Verif.Props.Register

/-! # A single bright pixel: all its frequencies are present -/

namespace ImgReg.Cases
open ImgReg

/-- one bright pixel -/
noncomputable def star (ny nx : ℕ) [NeZero ny] [NeZero nx] : Fin ny × Fin nx → ℝ := fun p => if p = 0 then 1 else 0

theorem star_dft {ny nx : ℕ} [NeZero ny] [NeZero nx] (k : Fin ny × Fin nx) : dft (fun p => (star ny nx p : ℂ)) k ≠ 0 := by
  have h1 : dft (fun p => (star ny nx p : ℂ)) k = 1 := by
    unfold dft star
    rw [Finset.sum_eq_single 0]
    · simp [FFTIndex.e_zero]
    · intro b _ hb; simp [hb]
    · simp
  rw [h1]; exact one_ne_zero

theorem star_identifiable (u : ℕ) (zm : Bool) :
    Spec.identifiable (Spec.candidates u) fun p => star 4 5 p - if zm then Spec.mean (star 4 5) else 0 := by
  refine identifiable_of_dft _ _ (by norm_num) (by norm_num) ?_ ?_ (Or.inl ?_)
  all_goals
    rw [dft_sub_const _ _ _ (by decide)]
    exact star_dft _

end ImgReg.Cases
