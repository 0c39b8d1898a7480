import Verif.Numpy

/-!
# Dynamically shaped numpy arguments, `np.dot` and `np.interp`
(trusted transcriptions of numpy's documented behaviour, like `Verif/Numpy.lean`)
-/

open Complex Finset

namespace ImgReg

/-- A numpy array argument whose number of dimensions the callee inspects. -/
structure Arr where
  shape : List ℕ
  val : List ℕ → ℝ

namespace Arr
/-- `a.ndim` -/
def ndim (a : Arr) : ℕ := a.shape.length
/-- `a.shape[d]` -/
def dim (a : Arr) (d : ℕ) : ℕ := a.shape.getD d 0
/-- the array built from a 1-D vector -/
def ofVec {m : ℕ} (x : Fin m → ℝ) : Arr :=
  ⟨[m], fun l => if h : l.getD 0 0 < m then x ⟨l.getD 0 0, h⟩ else 0⟩
/-- entry `i` of a 1-D array -/
def at1 (a : Arr) (i : Fin (a.dim 0)) : ℝ := a.val [i]

@[simp] theorem ofVec_ndim {m : ℕ} (x : Fin m → ℝ) : (ofVec x).ndim = 1 := rfl
@[simp] theorem ofVec_dim {m : ℕ} (x : Fin m → ℝ) : (ofVec x).dim 0 = m := rfl
@[simp] theorem ofVec_val {m : ℕ} (x : Fin m → ℝ) (i : Fin m) : (ofVec x).val [i] = x i := by
  simp [ofVec]

end Arr

/-- A 2-D result whose size depends on the arguments. -/
structure Out2 where
  rows : ℕ
  cols : ℕ
  arr : NdOut (Fin rows × Fin cols)

/-- A 1-D result whose size depends on the arguments. -/
structure Out1 where
  size : ℕ
  arr : NdOut (Fin size)

namespace Np

/-- `np.dot(a, b)` of two 2-D complex arrays; a NaN factor makes the sum NaN -/
noncomputable def dot {m k n : ℕ} (a : Fin m × Fin k → CPix) (b : Fin k × Fin n → CPix) :
    Fin m × Fin n → CPix := fun i =>
  open Classical in
  if ∀ l, (a (i.1, l)).isSome ∧ (b (l, i.2)).isSome then
    some (∑ l, (a (i.1, l)).getD 0 * (b (l, i.2)).getD 0) else none

/-- `np.dot(v, b)` of a vector and a 2-D array -/
noncomputable def dotV {k n : ℕ} (a : Fin k → CPix) (b : Fin k × Fin n → CPix) :
    Fin n → CPix := fun i =>
  open Classical in
  if ∀ l, (a l).isSome ∧ (b (l, i)).isSome then
    some (∑ l, (a l).getD 0 * (b (l, i)).getD 0) else none

/-- `a.swapaxes(0,1)` -/
def swap {α : Type} {m n : ℕ} (a : Fin m × Fin n → α) : Fin n × Fin m → α := fun i => a (i.2, i.1)

@[simp] theorem dot_cArr {m k n : ℕ} (a : Fin m × Fin k → ℂ) (b : Fin k × Fin n → ℂ) :
    dot (cArr a) (cArr b) = cArr fun i => ∑ l, a (i.1, l) * b (l, i.2) := by
  funext i; simp [dot, cArr]

@[simp] theorem dotV_cArr {k n : ℕ} (a : Fin k → ℂ) (b : Fin k × Fin n → ℂ) :
    dotV (cArr a) (cArr b) = cArr fun i => ∑ l, a l * b (l, i) := by
  funext i; simp [dotV, cArr]

/-- the largest index `j` with `xp[j] ≤ x` (what numpy's binary search finds in an increasing
`xp`), if there is one -/
noncomputable def lastLE {n : ℕ} (xp : Fin n → ℝ) (x : ℝ) : Option (Fin n) :=
  open Classical in
  if h : (Finset.univ.filter fun j => xp j ≤ x).Nonempty then
    some ((Finset.univ.filter fun j => xp j ≤ x).max' h) else none

/-- `np.interp(x, xp, fp)` for increasing `xp`: `fp[0]` to the left of the table, `fp[-1]` to the
right, linear in between. -/
noncomputable def interp {n : ℕ} [NeZero n] (x : ℝ) (xp fp : Fin n → ℝ) : ℝ :=
  match lastLE xp x with
  | none => fp 0
  | some j =>
    if h : (j : ℕ) + 1 < n then
      (fp ⟨j + 1, h⟩ - fp j) / (xp ⟨j + 1, h⟩ - xp j) * (x - xp j) + fp j
    else fp j

theorem lastLE_eq {n : ℕ} {xp : Fin n → ℝ} (hmono : StrictMono xp) (j : Fin n) (x : ℝ)
    (h1 : xp j ≤ x) (h2 : ∀ h : (j : ℕ) + 1 < n, x < xp ⟨j + 1, h⟩) : lastLE xp x = some j := by
  classical
  unfold lastLE
  have hj : j ∈ Finset.univ.filter fun j => xp j ≤ x := by simp [h1]
  rw [dif_pos ⟨j, hj⟩]
  congr 1
  apply le_antisymm
  · apply Finset.max'_le
    intro i hi
    have hi' : xp i ≤ x := by simpa using hi
    by_contra hlt
    push Not at hlt
    have hlt' : (j : ℕ) + 1 < n := by have := i.isLt; have : (j:ℕ) < i := hlt; omega
    have h3 := h2 hlt'
    have h4 : xp ⟨j + 1, hlt'⟩ ≤ xp i := hmono.monotone (by show (j:ℕ) + 1 ≤ i; exact hlt)
    linarith
  · exact Finset.le_max' _ _ hj

/-- `np.interp` returns the table value at a table point -/
theorem interp_at {n : ℕ} [NeZero n] {xp : Fin n → ℝ} (hmono : StrictMono xp) (fp : Fin n → ℝ)
    (j : Fin n) : interp (xp j) xp fp = fp j := by
  unfold interp
  rw [lastLE_eq hmono j (xp j) le_rfl fun h => hmono (by show (j:ℕ) < j + 1; omega)]
  simp

end Np

end ImgReg
