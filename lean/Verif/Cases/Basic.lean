import Verif.Numpy
import Mathlib.Tactic.NormNum
import Mathlib.Tactic.Positivity

/-!
# Concrete images used to show that the hypotheses of the theorems can be met

The files in `Verif/Cases` apply the theorems to concrete arguments: each `example` names the theorem it instantiates and proves all its
hypotheses; the conclusion is whatever the theorem gives.
-/

namespace ImgReg.Cases

open ImgReg

/-- a 4×5 image with a bright pixel -/
def pic : Fin 4 × Fin 5 → ℝ := fun p => if p = (1, 2) then 7 else (p.2 : ℕ)

/-- a second 4×5 image -/
def pic2 : Fin 4 × Fin 5 → ℝ := fun p => if p = (2, 3) then 6 else (p.1 : ℕ)

/-- the first image with a NaN pixel -/
def picNan : Fin 4 × Fin 5 → Option ℝ := fun p => if p = (3, 4) then none else some (pic p)

/-- an error image without zeros -/
def errPic : Fin 4 × Fin 5 → ℝ := fun p => 1 + (p.1 : ℕ)

theorem errPic_ne (p : Fin 4 × Fin 5) : errPic p ≠ 0 := by
  have : 0 < errPic p := by unfold errPic; positivity
  exact this.ne'

/-- an error image with a zero and a NaN pixel -/
def errNan : Fin 4 × Fin 5 → Option ℝ := fun p => if p = (0, 0) then none else if p = (0, 1) then some 0 else some 2

/-- two 3×5 images (odd sizes) -/
def odd1 : Fin 3 × Fin 5 → ℝ := fun p => if p = (1, 2) then 7 else (p.2 : ℕ)
def odd2 : Fin 3 × Fin 5 → ℝ := fun p => if p = (0, 3) then 5 else (p.1 : ℕ)

end ImgReg.Cases
