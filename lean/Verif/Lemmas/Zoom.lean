import Verif.Model.Zoom
import Verif.Lemmas.Scale

/-! # Lemmas about the zoom grids -/

open Complex Finset

namespace ImgReg

/-- `o` points spaced by `1/usfac`, centred on `centre` -/
noncomputable def Spec.zoomGrid (centre usfac : ℝ) (o : ℕ) (i : Fin o) : ℝ :=
  centre + (((i : ℕ) : ℝ) - ((o : ℝ) - 1) / 2) / usfac

theorem linspace_grid (t us : ℝ) (o : ℕ) :
    Np.linspace (t - ((o : ℝ) - 1) / us / 2) (t + ((o : ℝ) - 1) / us / 2) o
      = Spec.zoomGrid t us o := by
  funext i
  unfold Np.linspace Spec.zoomGrid
  have ho : 1 ≤ o := by have := i.isLt; omega
  rw [Nat.cast_sub ho]
  by_cases h1 : o = 1
  · subst h1
    have : (i : ℕ) = 0 := by omega
    simp
  · have : (o : ℝ) - 1 ≠ 0 := by
      intro h; apply h1; have : (o : ℝ) = 1 := by linarith
      exact_mod_cast this
    push_cast
    have h2 : (t + ((o : ℝ) - 1) / us / 2 - (t - ((o : ℝ) - 1) / us / 2)) / ((o : ℝ) - 1) = 1 / us := by
      rw [div_eq_iff this]; ring
    rw [h2]; ring

theorem zoomAxis_some (t us : ℝ) (o : ℕ) : zoomAxis (some t) us o = Spec.zoomGrid t us o :=
  linspace_grid t us o

section one
variable {n : ℕ} [NeZero n]

theorem zoom1d_eq (cfg : FFTConfig) (x : Fin n → ℂ) (us : ℝ) (hus : us ≠ 0) (outsize : Option ℕ)
    (off : ℝ) (rx rr : Bool) :
    zoom1d cfg (cArr x) us outsize off rx rr
      = .ok (zoomReturn rx (Arr.ofVec (Spec.zoomGrid (((n : ℝ) - 1) / 2 + off) us (outsize.getD n)))
          ⟨outsize.getD n, retReal rr fun i =>
            interpC x (Spec.zoomGrid (((n : ℝ) - 1) / 2 + off) us (outsize.getD n) i)⟩) := by
  unfold zoom1d
  simp only [hus, if_false, linspace_grid, fourierInterp1d_vec]
  rfl

theorem zoomOnPixel1_eq (cfg : FFTConfig) (x : Fin n → ℂ) (cs : List ℝ) (us : ℝ) (hus : us ≠ 0)
    (outshape : Option ℕ) (h1 : outshape.getD n ≠ 1) (rr rx : Bool) :
    ∃ cube : Arr, cube.shape = [1, outshape.getD n] ∧
      (∀ i : Fin (outshape.getD n), cube.val [0, i] = zoomAxis cs[0]? us (outshape.getD n) i) ∧
      zoomOnPixel1 cfg (cArr x) cs us outshape rr rx
      = .ok (zoomReturn rx cube ⟨outshape.getD n, retReal rr fun i =>
            interpC x (zoomAxis cs[0]? us (outshape.getD n) i)⟩) := by
  refine ⟨⟨[1, outshape.getD n], fun l =>
      if h : l.getD 1 0 < outshape.getD n then zoomAxis cs[0]? us (outshape.getD n) ⟨l.getD 1 0, h⟩
      else 0⟩, rfl, ?_, ?_⟩
  · intro i
    simp
  · unfold zoomOnPixel1
    simp only [hus, false_and, if_false, h1, fourierInterp1d_vec]
    rfl

end one

section two
variable {ny nx : ℕ} [NeZero ny] [NeZero nx]

theorem zoomOnPixel2_eq (cfg : FFTConfig) (x : Fin ny × Fin nx → ℂ) (cs : List ℝ) (us : ℝ)
    (hus : us ≠ 0) (outshape : Option (ℕ × ℕ)) (m l : ℕ) (ho : outshape.getD (ny, nx) = (m, l))
    (hm : 0 < m) (hl : 0 < l) (rr rx : Bool) :
    ∃ cube : Arr, cube.shape = [2, m, l] ∧
      (∀ (i : Fin m) (j : Fin l), cube.val [0, i, j] = zoomAxis cs[0]? us m i ∧
        cube.val [1, i, j] = zoomAxis cs[1]? us l j) ∧
      zoomOnPixel2 cfg (cArr x) cs us outshape rr rx
      = .ok (zoomReturn rx cube ⟨m, l, retReal rr fun i =>
            interp2C x (zoomAxis cs[0]? us m i.1) (zoomAxis cs[1]? us l i.2)⟩) := by
  let cube : Arr := ⟨[2, m, l], fun li =>
      if li.getD 0 0 = 0 then (if h : li.getD 1 0 < m then zoomAxis cs[0]? us m ⟨li.getD 1 0, h⟩ else 0)
      else (if h : li.getD 2 0 < l then zoomAxis cs[1]? us l ⟨li.getD 2 0, h⟩ else 0)⟩
  have hval : ∀ (i : Fin m) (j : Fin l), cube.val [0, i, j] = zoomAxis cs[0]? us m i ∧
        cube.val [1, i, j] = zoomAxis cs[1]? us l j := by
    intro i j
    constructor
    · simp [cube]
    · simp [cube]
  refine ⟨cube, rfl, hval, ?_⟩
  unfold zoomOnPixel2
  simp only [hus, false_and, if_false]
  generalize outshape.getD (ny, nx) = p at ho ⊢
  subst ho
  have hnd : cube.ndim = 3 := rfl
  have hd0 : cube.dim 0 = 2 := rfl
  have hd1 : cube.dim 1 = m := rfl
  have hd2 : cube.dim 2 = l := rfl
  have := fourierInterp2d_ok cfg x (.nd cube) (by simp [checkOutInds, hnd, hd0])
    ⟨m, fun i => cube.val [0, i, 0]⟩ ⟨l, fun j => cube.val [1, 0, j]⟩
    (by simp only [coordY, hnd, if_true, hd2, hl.ne', if_false]; rfl)
    (by simp only [coordX, hnd, if_true, hd1, hm.ne', if_false]; rfl) rr
  show (fourierInterp2d cfg (cArr x) (.nd cube) rr >>= fun result =>
    pure (zoomReturn rx cube result)) = _
  rw [this]
  have h3 : (fun i : Fin m => cube.val [0, i, 0]) = fun i => zoomAxis cs[0]? us m i := by
    funext i; exact (hval i ⟨0, hl⟩).1
  have h4 : (fun j : Fin l => cube.val [1, 0, j]) = fun j => zoomAxis cs[1]? us l j := by
    funext j; exact (hval ⟨0, hm⟩ j).2
  have h3' := fun i => congrFun h3 i
  have h4' := fun i => congrFun h4 i
  simp only [h3', h4']
  rfl

end two

theorem zoomMiddle_ok (shape : List ℕ) (offs : List ℝ) (h : offs.length = shape.length)
    (mc : ℝ → ℝ) : zoomMiddle shape offs mc
      = .ok (List.zipWith (fun (k : ℕ) off => mc (((k : ℝ) - 1) / 2) + off) shape offs) := by
  unfold zoomMiddle
  rw [if_neg (by simp [h])]
  by_cases h0 : offs.length = 0
  · simp only [h0, if_true]
    have : shape = [] := by rw [← List.length_eq_zero_iff]; omega
    subst this; simp
  · simp [h0]

theorem zoomMiddle_nil (shape : List ℕ) (mc : ℝ → ℝ) :
    zoomMiddle shape [] mc = zoomMiddle shape (List.replicate shape.length 0) mc := by
  rw [zoomMiddle_ok shape (List.replicate shape.length 0) (by simp)]
  unfold zoomMiddle
  simp

end ImgReg
