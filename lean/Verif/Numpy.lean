import Verif.Py
import Verif.Fourier
import Mathlib.Data.Real.Basic
import Mathlib.Algebra.Order.Floor.Ring

/-!
# The numpy operations the repository calls

Definitions follow numpy 1.20 (the reference the repository's `setup.cfg`/tests run against).
They are part of the trusted base: each is a transcription of numpy's documented behaviour.
-/

open Complex Finset
open scoped ComplexConjugate

namespace ImgReg.Np

open ImgReg

variable {ι : Type}

/-- `np.fft.fftfreq(n)*n`: numpy builds `results[:N] = arange(0,N)`,
`results[N:] = arange(-(n//2), 0)` with `N = (n-1)//2 + 1`. -/
def fftfreqInt (n : ℕ) (k : ℕ) : ℤ :=
  if k < (n - 1) / 2 + 1 then (k : ℤ) else -((n / 2 : ℕ) : ℤ) + ((k : ℤ) - (((n - 1) / 2 + 1 : ℕ) : ℤ))

/-- `np.fft.fftfreq(n)[k]`. -/
noncomputable def fftfreq (n : ℕ) (k : Fin n) : ℝ := (fftfreqInt n k : ℝ) * (1 / (n : ℝ))

/-- `np.fft.fftn` (one NaN input pixel makes every output pixel NaN). -/
noncomputable def fftn [AddCommGroup ι] [Fintype ι] [DecidableEq ι] [FFTIndex ι]
    (x : ι → CPix) : ι → CPix :=
  open Classical in
  if ∀ i, (x i).isSome then fun k => some (dft (fun i => (x i).getD 0) k) else fun _ => none

/-- `np.fft.ifftn`. -/
noncomputable def ifftn [AddCommGroup ι] [Fintype ι] [DecidableEq ι] [FFTIndex ι]
    (x : ι → CPix) : ι → CPix :=
  open Classical in
  if ∀ i, (x i).isSome then fun k => some (idft (fun i => (x i).getD 0) k) else fun _ => none

/-- `fftw3.Plan(direction='forward')`: the unnormalised sum with `exp(-2πi jk/n)`. -/
noncomputable def fftwForward [AddCommGroup ι] [Fintype ι] [DecidableEq ι] [FFTIndex ι]
    (x : ι → CPix) : ι → CPix :=
  open Classical in
  if ∀ i, (x i).isSome then fun k => some (∑ j, (x j).getD 0 * conj (e k j)) else fun _ => none

/-- `fftw3.Plan(direction='backward')`: the unnormalised sum with `exp(+2πi jk/n)`. -/
noncomputable def fftwBackward [AddCommGroup ι] [Fintype ι] [DecidableEq ι] [FFTIndex ι]
    (x : ι → CPix) : ι → CPix :=
  open Classical in
  if ∀ i, (x i).isSome then fun j => some (∑ k, (x k).getD 0 * e k j) else fun _ => none

/-- pointwise `a * b` of complex arrays; NaN propagates -/
noncomputable def mul (a b : ι → CPix) : ι → CPix := fun i => Option.map₂ (· * ·) (a i) (b i)

/-- pointwise `np.conj(a)` -/
noncomputable def conjA (a : ι → CPix) : ι → CPix := fun i => (a i).map conj

/-- `np.real` -/
noncomputable def real (a : ι → CPix) : ι → Pix := fun i => (a i).map Complex.re

/-- `np.abs` -/
noncomputable def abs (a : ι → CPix) : ι → Pix := fun i => (a i).map fun z => ‖z‖

/-- `np.any(np.isnan(a))` -/
def anyNaN {α : Type} (a : ι → Option α) : Prop := ∃ i, a i = none

/-- `np.nan_to_num(a)` for arrays without infinities: NaN becomes 0 -/
def nanToNum {α : Type} [Zero α] (a : ι → Option α) : ι → Option α := fun i => some ((a i).getD 0)

/-- `np.fft.ifftshift` of a 1-D axis: `np.roll(x, -(n//2))`, i.e. `out[i] = x[(i + n//2) % n]`. -/
def ifftshiftIdx {n : ℕ} [NeZero n] (i : Fin n) : Fin n := i + Fin.ofNat n (n / 2)

/-- `np.fft.fftshift` of a 1-D axis: `np.roll(x, n//2)`, i.e. `out[i] = x[(i - n//2) % n]`. -/
def fftshiftIdx {n : ℕ} [NeZero n] (i : Fin n) : Fin n := i - Fin.ofNat n (n / 2)

/-- `np.fft.ifftshift` of a 2-D array (all axes). -/
def ifftshift2 {α : Type} {m n : ℕ} [NeZero m] [NeZero n] (x : Fin m × Fin n → α) :
    Fin m × Fin n → α := fun i => x (ifftshiftIdx i.1, ifftshiftIdx i.2)

/-- `np.fft.fftshift` of a 2-D array (all axes). -/
def fftshift2 {α : Type} {m n : ℕ} [NeZero m] [NeZero n] (x : Fin m × Fin n → α) :
    Fin m × Fin n → α := fun i => x (fftshiftIdx i.1, fftshiftIdx i.2)

/-- `x[::-1,::-1]`. -/
def flip2 {α : Type} {m n : ℕ} (x : Fin m × Fin n → α) : Fin m × Fin n → α :=
  fun i => x (i.1.rev, i.2.rev)

/-- `np.linspace(a, b, num)[i]`: `a + i*(b-a)/(num-1)`; for `num = 1` numpy returns `[a]`. -/
noncomputable def linspace (a b : ℝ) (num : ℕ) (i : Fin num) : ℝ :=
  a + (i : ℕ) * ((b - a) / ((num - 1 : ℕ) : ℝ))

/-! ### simp lemmas for arrays without NaN -/

section lemmas
variable [AddCommGroup ι] [Fintype ι] [DecidableEq ι] [FFTIndex ι]

@[simp] theorem fftn_cArr (x : ι → ℂ) : fftn (cArr x) = cArr (dft x) := by
  unfold fftn cArr; simp

@[simp] theorem ifftn_cArr (x : ι → ℂ) : ifftn (cArr x) = cArr (idft x) := by
  unfold ifftn cArr; simp

@[simp] theorem fftn_rArr (x : ι → ℝ) : fftn (rArr x) = cArr (dft fun i => (x i : ℂ)) := by
  rw [rArr_eq_cArr, fftn_cArr]

@[simp] theorem ifftn_rArr (x : ι → ℝ) : ifftn (rArr x) = cArr (idft fun i => (x i : ℂ)) := by
  rw [rArr_eq_cArr, ifftn_cArr]

end lemmas

@[simp] theorem mul_cArr (x y : ι → ℂ) : mul (cArr x) (cArr y) = cArr (fun i => x i * y i) := by
  funext i; simp [mul, cArr]

@[simp] theorem conjA_cArr (x : ι → ℂ) : conjA (cArr x) = cArr (fun i => conj (x i)) := rfl

@[simp] theorem real_cArr (x : ι → ℂ) : real (cArr x) = realArr (fun i => (x i).re) := rfl

@[simp] theorem abs_cArr (x : ι → ℂ) : abs (cArr x) = realArr (fun i => ‖x i‖) := rfl

@[simp] theorem not_anyNaN_cArr (x : ι → ℂ) : ¬ anyNaN (cArr x) := by
  rintro ⟨i, hi⟩; simp [cArr] at hi

@[simp] theorem not_anyNaN_rArr (x : ι → ℝ) : ¬ anyNaN (rArr x) := by
  rintro ⟨i, hi⟩; simp [rArr] at hi

@[simp] theorem not_anyNaN_realArr (x : ι → ℝ) : ¬ anyNaN (realArr x) := by
  rintro ⟨i, hi⟩; simp [realArr] at hi

theorem nanToNum_cArr (x : ι → CPix) : nanToNum x = cArr (fun i => (x i).getD 0) := rfl

theorem eq_cArr_of_not_anyNaN {x : ι → CPix} (h : ¬ anyNaN x) :
    x = cArr (fun i => (x i).getD 0) := by
  funext i
  have : x i ≠ none := fun hc => h ⟨i, hc⟩
  obtain ⟨v, hv⟩ := Option.ne_none_iff_exists'.1 this
  simp [cArr, hv]

/-! ### facts about `fftfreq` -/

theorem fftfreqInt_modEq (n k : ℕ) (hk : k < n) : fftfreqInt n k ≡ (k : ℤ) [ZMOD n] := by
  unfold fftfreqInt
  split_ifs with h
  · rfl
  · have h2 : -((n / 2 : ℕ) : ℤ) + ((k : ℤ) - (((n - 1) / 2 + 1 : ℕ) : ℤ)) = (k : ℤ) - n := by
      omega
    rw [h2]
    simp [Int.ModEq]

theorem fftfreqInt_eq (n k : ℕ) (hk : k < n) :
    fftfreqInt n k = if 2 * k < n then (k : ℤ) else (k : ℤ) - n := by
  unfold fftfreqInt
  split_ifs <;> omega

theorem two_fftfreqInt_lt (n k : ℕ) (hk : k < n) : 2 * fftfreqInt n k < n := by
  rw [fftfreqInt_eq n k hk]; split_ifs <;> omega

theorem neg_le_two_fftfreqInt (n k : ℕ) (hk : k < n) : -(n : ℤ) ≤ 2 * fftfreqInt n k := by
  rw [fftfreqInt_eq n k hk]; split_ifs <;> omega

theorem fftfreqInt_zero (n : ℕ) : fftfreqInt n 0 = 0 := by
  simp [fftfreqInt]

theorem fin_neg_val {n : ℕ} [NeZero n] (k : Fin n) :
    ((-k : Fin n) : ℕ) = if (k : ℕ) = 0 then 0 else n - k := by
  have hk := k.isLt
  split_ifs with h
  · have : k = 0 := Fin.ext (by simpa using h)
    subst this; simp
  · have h1 : ((-k : Fin n) : ℕ) = (n - k) % n := by
      rw [Fin.neg_def]
    rw [h1, Nat.mod_eq_of_lt (by omega)]

theorem fftfreqInt_neg {n : ℕ} [NeZero n] (k : Fin n) (h : 2 * (k : ℕ) ≠ n) :
    fftfreqInt n ((-k : Fin n) : ℕ) = -fftfreqInt n k := by
  have hk := k.isLt
  rw [fftfreqInt_eq n _ (-k).isLt, fftfreqInt_eq n _ hk, fin_neg_val]
  split_ifs <;> omega

theorem fftfreq_eq (n : ℕ) (k : Fin n) : fftfreq n k = (fftfreqInt n k : ℝ) / n := by
  unfold fftfreq; ring

theorem fftfreq_neg {n : ℕ} [NeZero n] (k : Fin n) (h : 2 * (k : ℕ) ≠ n) :
    fftfreq n (-k) = -fftfreq n k := by
  rw [fftfreq_eq, fftfreq_eq, fftfreqInt_neg k h]; push_cast; ring

@[simp] theorem fftfreq_zero {n : ℕ} [NeZero n] : fftfreq n (0 : Fin n) = 0 := by
  simp [fftfreq, fftfreqInt_zero]

/-- integer multiples of the frequency give the character of the index group -/
theorem ex_int_mul_fftfreq {n : ℕ} [NeZero n] (z : ℤ) (k j : Fin n)
    (hz : z ≡ ((j : ℕ) : ℤ) [ZMOD n]) : ex (z * fftfreq n k) = e k j := by
  rw [fftfreq_eq, e_fin]
  have h := hz.mul (fftfreqInt_modEq n k k.isLt)
  have := ex_div_congr h
  push_cast at this
  rw [show (z : ℝ) * ((fftfreqInt n k : ℝ) / n) = (z : ℝ) * (fftfreqInt n k : ℝ) / n by ring, this]
  congr 1; ring

end ImgReg.Np
