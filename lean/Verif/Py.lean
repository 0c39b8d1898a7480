import Mathlib.Data.Complex.Basic

/-!
# Python-level vocabulary of the model

Exceptions are values of `Except PyErr`.  A pixel that can be NaN is an `Option`: `none` is NaN.
Infinities and rounding are not modelled: the arithmetic is that of `ℝ` and `ℂ`.
-/

namespace ImgReg

/-- The Python exception classes the modelled code can raise. -/
inductive PyErr where
  | valueError | typeError | nameError | unboundLocalError | notImplementedError
  | zeroDivisionError | attributeError | keyError | indexError | importError | assertionError | overflowError | ioError | exception
  deriving DecidableEq, Repr

/-- Result of a Python call. -/
abbrev Py (α : Type) := Except PyErr α

/-- A real pixel, `none` = NaN. -/
abbrev Pix := Option ℝ

/-- A complex pixel, `none` = NaN (in either part). -/
abbrev CPix := Option ℂ

/-- An array of real or of complex dtype (the two are distinguishable to the caller). -/
inductive NdOut (ι : Type) where
  | real (a : ι → Pix)
  | cplx (a : ι → CPix)

/-- a finite real array, as numpy sees it -/
def realArr {ι : Type} (x : ι → ℝ) : ι → Pix := fun i => some (x i)

/-- a finite complex array, as numpy sees it -/
def cArr {ι : Type} (x : ι → ℂ) : ι → CPix := fun i => some (x i)

/-- a real array (possibly with NaNs) used where complex arithmetic follows -/
def toC {ι : Type} (x : ι → Pix) : ι → CPix := fun i => (x i).map (fun r => (r : ℂ))

/-- a finite real array used where complex arithmetic follows -/
def rArr {ι : Type} (x : ι → ℝ) : ι → CPix := fun i => some (x i : ℂ)

theorem toC_realArr {ι : Type} (x : ι → ℝ) : toC (realArr x) = rArr x := rfl

theorem rArr_eq_cArr {ι : Type} (x : ι → ℝ) : rArr x = cArr (fun i => (x i : ℂ)) := rfl

end ImgReg
