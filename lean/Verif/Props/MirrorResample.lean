import Verif.Props.Mirror
import Verif.Props.UpRegister

/-!
# Mirrored images, resampled (C154)
-/

open Complex Finset
open scoped ComplexConjugate

namespace ImgReg

/-- the coordinate `t` of an axis of `n` pixels, counted from the other end, if `f` -/
def Spec.revAt (f : Bool) (n : ℕ) (t : ℝ) : ℝ := if f then (n : ℝ) - 1 - t else t

/-- a 4×6 image with one bright pixel -/
noncomputable def Spec.spot46 (p : Fin 4 × Fin 6) : ℝ := if p = (1, 2) then 8 else 0

/-! ## Lemmas -/

section
variable {ny nx : ℕ} [NeZero ny] [NeZero nx]

theorem interp2C_mirror (fy fx : Bool) (hy : fy = true → Odd ny) (hx : fx = true → Odd nx) (x : Fin ny × Fin nx → ℂ) (ty tx : ℝ) :
    interp2C (Spec.flip fy fx x) ty tx = interp2C x (Spec.revAt fy ny ty) (Spec.revAt fx nx tx) :=
  interp2C_flip' fy fx hy hx x ty tx

/-- the phase of the end pixel of an axis -/
theorem flipPhase_ex {n : ℕ} [NeZero n] (k : Fin n) (t : ℝ) :
    flipPhase true k * ex (-(Np.fftfreq n k * t)) = conj (ex (-(Np.fftfreq n k * ((n : ℝ) - 1 - t)))) := by
  simp only [flipPhase, if_true]
  have h1 := Np.ex_int_mul_fftfreq (((0 : Fin n).rev : ℕ) : ℤ) k (0 : Fin n).rev rfl
  have hv : (((0 : Fin n).rev : ℕ) : ℝ) = (n : ℝ) - 1 := by
    have : 0 < n := Nat.pos_of_ne_zero (NeZero.ne n)
    rw [Fin.val_rev]
    have h0 : ((0 : Fin n) : ℕ) = 0 := by simp
    rw [h0, Nat.cast_sub (by omega)]; simp
  rw [← h1, conj_ex, ← ex_add, Int.cast_natCast, hv]
  congr 1
  ring

/-- a real image, rotated by 180°: any sizes -/
theorem interp2C_rot (x : Fin ny × Fin nx → ℝ) (ty tx : ℝ) :
    interp2C (fun p => ((Spec.flip true true x p : ℝ) : ℂ)) ty tx
      = conj (interp2C (fun p => (x p : ℂ)) ((ny : ℝ) - 1 - ty) ((nx : ℝ) - 1 - tx)) := by
  unfold interp2C
  rw [map_sum]
  refine Finset.sum_congr rfl fun k _ => ?_
  have h1 : idft (fun p => ((Spec.flip true true x p : ℝ) : ℂ)) k
      = flipPhase true k.1 * flipPhase true k.2 * conj (idft (fun p => (x p : ℂ)) k) := by
    have h2 := idft_flip true true (fun p => (x p : ℂ)) k
    have h3 := idft_conj_neg (fun p : Fin ny × Fin nx => (x p : ℂ)) (-k)
    simp only [Complex.conj_ofReal, neg_neg] at h3
    have h4 : ((negK true k.1, negK true k.2) : Fin ny × Fin nx) = -k := rfl
    rw [h4, h3] at h2
    exact h2
  rw [h1, map_mul, map_mul, ← flipPhase_ex, ← flipPhase_ex]
  ring

/-- the default mode: one odd size, or a rotation -/
theorem interp2C_flip_re (fy fx : Bool) (ho : Odd ny ∨ Odd nx ∨ fy = fx) (x : Fin ny × Fin nx → ℝ) (ty tx : ℝ) :
    (interp2C (fun p => ((Spec.flip fy fx x p : ℝ) : ℂ)) ty tx).re
      = (interp2C (fun p => (x p : ℂ)) (Spec.revAt fy ny ty) (Spec.revAt fx nx tx)).re := by
  have one : ∀ (gy gx : Bool), (gy = true → Odd ny) → (gx = true → Odd nx) → ∀ (x : Fin ny × Fin nx → ℝ) (ty tx : ℝ),
      interp2C (fun p => ((Spec.flip gy gx x p : ℝ) : ℂ)) ty tx
        = interp2C (fun p => (x p : ℂ)) (Spec.revAt gy ny ty) (Spec.revAt gx nx tx) := fun gy gx hy hx x ty tx =>
    interp2C_mirror gy gx hy hx (fun p => (x p : ℂ)) ty tx
  have rot : ∀ (x : Fin ny × Fin nx → ℝ) (ty tx : ℝ), (interp2C (fun p => ((Spec.flip true true x p : ℝ) : ℂ)) ty tx).re
      = (interp2C (fun p => (x p : ℂ)) ((ny : ℝ) - 1 - ty) ((nx : ℝ) - 1 - tx)).re := by
    intro x ty tx
    rw [interp2C_rot, Complex.conj_re]
  have e1 : Spec.flip true true (Spec.flip true false x) = Spec.flip false true x := by
    funext p; simp [Spec.flip, Spec.rev]
  have e2 : Spec.flip true true (Spec.flip false true x) = Spec.flip true false x := by
    funext p; simp [Spec.flip, Spec.rev]
  cases fy <;> cases fx
  · exact congrArg Complex.re (one false false (fun h => by cases h) (fun h => by cases h) x ty tx)
  · rcases ho with ho | ho | ho
    · rw [← e1, rot, one true false (fun _ => ho) (fun h => by cases h)]
      simp [Spec.revAt]
    · exact congrArg Complex.re (one false true (fun h => by cases h) (fun _ => ho) x ty tx)
    · cases ho
  · rcases ho with ho | ho | ho
    · exact congrArg Complex.re (one true false (fun _ => ho) (fun h => by cases h) x ty tx)
    · rw [← e2, rot, one false true (fun h => by cases h) (fun _ => ho)]
      simp [Spec.revAt]
    · cases ho
  · exact rot x ty tx

theorem zoomGrid_rev (f : Bool) (n M : ℕ) (t us : ℝ) (i : Fin M) :
    Spec.revAt f n (Spec.zoomGrid (Spec.revAt f n t) us M i) = Spec.zoomGrid t us M (Spec.rev f i) := by
  cases f
  · rfl
  · simp only [Spec.revAt, Spec.rev, if_true, Spec.zoomGrid]
    have := i.isLt
    rw [Fin.val_rev, Nat.cast_sub (by omega)]
    push_cast
    rw [show (M : ℝ) - (((i : ℕ) : ℝ) + 1) - ((M : ℝ) - 1) / 2 = -(((i : ℕ) : ℝ) - ((M : ℝ) - 1) / 2) by ring, neg_div]
    ring

theorem revAt_revAt (f : Bool) (n : ℕ) (t : ℝ) : Spec.revAt f n (Spec.revAt f n t) = t := by
  cases f
  · rfl
  · simp only [Spec.revAt, if_true]; ring

/-! ## The properties -/

/-- C154: interpolating the flipped image at coordinates counted from the other end gives the same values: any complex image if the flipped axes have
odd size; a real image in the default (real) mode if one size is odd or both axes are flipped. -/
theorem C154_interp (cfg : FFTConfig) (fy fx : Bool) {m l : ℕ} (vy : Fin m → ℝ) (vx : Fin l → ℝ) :
    ((fy = true → Odd ny) → (fx = true → Odd nx) → ∀ (x : Fin ny × Fin nx → ℂ) (rr : Bool),
      fourierInterp2d cfg (cArr (Spec.flip fy fx x)) (pairInds (fun i => Spec.revAt fy ny (vy i)) fun i => Spec.revAt fx nx (vx i)) rr
        = fourierInterp2d cfg (cArr x) (pairInds vy vx) rr) ∧
    ((Odd ny ∨ Odd nx ∨ fy = fx) → ∀ x : Fin ny × Fin nx → ℝ,
      fourierInterp2d cfg (rArr (Spec.flip fy fx x)) (pairInds (fun i => Spec.revAt fy ny (vy i)) fun i => Spec.revAt fx nx (vx i)) true
        = fourierInterp2d cfg (rArr x) (pairInds vy vx) true) := by
  constructor
  · intro hy hx x rr
    rw [fourierInterp2d_ok cfg _ (pairInds _ _) rfl ⟨m, _⟩ ⟨l, _⟩ rfl rfl rr, fourierInterp2d_ok cfg _ (pairInds vy vx) rfl ⟨m, vy⟩ ⟨l, vx⟩ rfl rfl rr]
    simp only [interp2C_mirror fy fx hy hx, revAt_revAt]
  · intro ho x
    rw [rArr_eq_cArr, rArr_eq_cArr, fourierInterp2d_ok cfg _ (pairInds _ _) rfl ⟨m, _⟩ ⟨l, _⟩ rfl rfl true,
      fourierInterp2d_ok cfg _ (pairInds vy vx) rfl ⟨m, vy⟩ ⟨l, vx⟩ rfl rfl true]
    simp only [retReal_true, interp2C_flip_re fy fx ho, revAt_revAt]

/-- C154: `zoom_on_pixel` of the flipped image on the flipped target is the flipped zoom: any factor, any output size, any target. -/
theorem C154_zoom (cfg : FFTConfig) (fy fx : Bool) (ty tx us : ℝ) (hus : us ≠ 0) (M L : ℕ) (hM : 0 < M) (hL : 0 < L) :
    ((fy = true → Odd ny) → (fx = true → Odd nx) → ∀ (x : Fin ny × Fin nx → ℂ) (rr : Bool), ∃ r : NdOut (Fin M × Fin L),
      zoomOnPixel2 cfg (cArr x) [ty, tx] us (some (M, L)) rr false = .ok (.plain ⟨M, L, r⟩) ∧
      zoomOnPixel2 cfg (cArr (Spec.flip fy fx x)) [Spec.revAt fy ny ty, Spec.revAt fx nx tx] us (some (M, L)) rr false
        = .ok (.plain ⟨M, L, Spec.flipOut fy fx r⟩)) ∧
    ((Odd ny ∨ Odd nx ∨ fy = fx) → ∀ x : Fin ny × Fin nx → ℝ, ∃ r : NdOut (Fin M × Fin L),
      zoomOnPixel2 cfg (rArr x) [ty, tx] us (some (M, L)) true false = .ok (.plain ⟨M, L, r⟩) ∧
      zoomOnPixel2 cfg (rArr (Spec.flip fy fx x)) [Spec.revAt fy ny ty, Spec.revAt fx nx tx] us (some (M, L)) true false
        = .ok (.plain ⟨M, L, Spec.flipOut fy fx r⟩)) := by
  have run : ∀ (x : Fin ny × Fin nx → ℂ) (sy sx : ℝ) (rr : Bool), zoomOnPixel2 cfg (cArr x) [sy, sx] us (some (M, L)) rr false
      = .ok (.plain ⟨M, L, retReal rr fun q : Fin M × Fin L => interp2C x (Spec.zoomGrid sy us M q.1) (Spec.zoomGrid sx us L q.2)⟩) := by
    intro x sy sx rr
    obtain ⟨cube, _, _, hz⟩ := zoomOnPixel2_eq cfg x [sy, sx] us hus (some (M, L)) M L rfl hM hL rr false
    rw [hz]
    simp only [zoomReturn, List.getElem?_cons_zero, List.getElem?_cons_succ, zoomAxis_some]
    rfl
  constructor
  · intro hy hx x rr
    refine ⟨_, run x ty tx rr, ?_⟩
    rw [run]
    simp only [interp2C_mirror fy fx hy hx, zoomGrid_rev]
    cases rr <;> rfl
  · intro ho x
    refine ⟨_, by rw [rArr_eq_cArr]; exact run _ ty tx true, ?_⟩
    rw [rArr_eq_cArr, run]
    simp only [retReal_true, interp2C_flip_re fy fx ho, zoomGrid_rev]
    rfl

/-- C154: `zoomnd` (centred on the middle of the image plus `offsets`, default convention) of the flipped image with the offsets negated along the flipped axes
is the flipped zoom; real image, default mode. -/
theorem C154_zoomnd (cfg : FFTConfig) (fy fx : Bool) (ho : Odd ny ∨ Odd nx ∨ fy = fx) (oy ox us : ℝ) (hus : us ≠ 0) (M L : ℕ) (hM : 0 < M) (hL : 0 < L)
    (x : Fin ny × Fin nx → ℝ) : ∃ r : NdOut (Fin M × Fin L),
      zoomnd2 cfg (rArr x) [oy, ox] id us (some (M, L)) true false = .ok (.plain ⟨M, L, r⟩) ∧
      zoomnd2 cfg (rArr (Spec.flip fy fx x)) [Spec.sgn fy oy, Spec.sgn fx ox] id us (some (M, L)) true false
        = .ok (.plain ⟨M, L, Spec.flipOut fy fx r⟩) := by
  obtain ⟨r, h1, h2⟩ := (C154_zoom (ny := ny) (nx := nx) cfg fy fx (((ny : ℝ) - 1) / 2 + oy) (((nx : ℝ) - 1) / 2 + ox) us hus M L hM hL).2 ho x
  refine ⟨r, ?_, ?_⟩
  · rw [(C14_zoomnd_centre cfg (rArr x) oy ox us id (some (M, L)) true false).1]
    exact h1
  · rw [(C14_zoomnd_centre cfg (rArr (Spec.flip fy fx x)) _ _ us id (some (M, L)) true false).1, ← h2]
    have e : ∀ (f : Bool) (n : ℕ) (o : ℝ), ((n : ℝ) - 1) / 2 + Spec.sgn f o = Spec.revAt f n (((n : ℝ) - 1) / 2 + o) := by
      intro f n o
      cases f
      · rfl
      · simp only [Spec.sgn, Spec.revAt, if_true]; ring
    simp only [id, e]

/-- C154: `upsample_image` at its default size: the flipped image, sampled with shift `upsample_factor - 1 - shift` along the flipped axes, gives the flipped
result - any complex image if the flipped axes have odd size; rotated by 180°, a real image of any size gives the conjugate. -/
theorem C154_upsample (cfg : FFTConfig) (us : ℕ) (hus : 0 < us) (xs ys : ℝ) :
    (∀ (fy fx : Bool) (_ : fy = true → Odd ny) (_ : fx = true → Odd nx) (x : Fin ny × Fin nx → ℂ), ∃ A : Fin (ny * us) × Fin (nx * us) → ℂ,
      upsampleImage cfg (cArr x) us .none xs ys = .ok ⟨ny * us, nx * us, cArr A⟩ ∧
      upsampleImage cfg (cArr (Spec.flip fy fx x)) us .none (Spec.revAt fx us xs) (Spec.revAt fy us ys)
        = .ok ⟨ny * us, nx * us, cArr (Spec.flip fy fx A)⟩) ∧
    ∀ x : Fin ny × Fin nx → ℝ, ∃ A : Fin (ny * us) × Fin (nx * us) → ℂ,
      upsampleImage cfg (rArr x) us .none xs ys = .ok ⟨ny * us, nx * us, cArr A⟩ ∧
      upsampleImage cfg (rArr (Spec.flip true true x)) us .none (us - 1 - xs) (us - 1 - ys)
        = .ok ⟨ny * us, nx * us, cArr fun q => conj (Spec.flip true true A q)⟩ := by
  have h0 : (us : ℝ) ≠ 0 := by exact_mod_cast hus.ne'
  have key : ∀ (f : Bool) (n : ℕ) (s : ℝ) (i : Fin (n * us)),
      Spec.revAt f n ((((i : ℕ) : ℝ) - Spec.revAt f us s) / us) = (((Spec.rev f i : ℕ) : ℝ) - s) / us := by
    intro f n s i
    cases f
    · rfl
    · simp only [Spec.revAt, Spec.rev, if_true]
      have := i.isLt
      rw [Fin.val_rev, Nat.cast_sub (by omega)]
      push_cast
      field_simp
      ring
  constructor
  · intro fy fx hy hx x
    refine ⟨_, upsampleImage_eq cfg x us hus .none xs ys, ?_⟩
    refine (upsampleImage_eq cfg _ us hus .none _ _).trans ?_
    simp only [interp2C_mirror fy fx hy hx]
    congr 2
    funext q
    refine congrArg some ?_
    show interp2C x (Spec.revAt fy ny ((((q.1 : ℕ) : ℝ) - Spec.revAt fy us ys) / us)) (Spec.revAt fx nx ((((q.2 : ℕ) : ℝ) - Spec.revAt fx us xs) / us))
      = interp2C x ((((Spec.rev fy q.1 : ℕ) : ℝ) - ys) / us) ((((Spec.rev fx q.2 : ℕ) : ℝ) - xs) / us)
    rw [key fy ny ys q.1, key fx nx xs q.2]
    rfl
  · intro x
    refine ⟨_, by rw [rArr_eq_cArr]; exact upsampleImage_eq cfg _ us hus .none xs ys, ?_⟩
    rw [rArr_eq_cArr]
    refine (upsampleImage_eq cfg _ us hus .none _ _).trans ?_
    simp only [interp2C_rot]
    congr 2
    funext q
    refine congrArg some ?_
    have k1 := key true ny ys q.1
    have k2 := key true nx xs q.2
    simp only [Spec.revAt, Spec.rev, if_true] at k1 k2
    show conj (interp2C (fun p => (x p : ℂ)) ((ny : ℝ) - 1 - (((q.1 : ℕ) : ℝ) - ((us : ℝ) - 1 - ys)) / us) ((nx : ℝ) - 1 - (((q.2 : ℕ) : ℝ) - ((us : ℝ) - 1 - xs)) / us))
      = conj (interp2C (fun p => (x p : ℂ)) ((((q.1.rev : ℕ) : ℝ) - ys) / us) ((((q.2.rev : ℕ) : ℝ) - xs) / us))
    rw [k1, k2]
    rfl

end

/-! ### one dimension -/

theorem interpC_eq_row {n : ℕ} [NeZero n] (x : Fin n → ℂ) (t : ℝ) : interpC x t = interp2C (fun p : Fin 1 × Fin n => x p.2) 0 t := by
  rw [interp2C_sep]
  congr 1
  funext j
  have := interpC_int (fun _ : Fin 1 => x j) 0
  rw [Int.cast_zero] at this
  exact this.symm

/-- C154 for `zoom1d`: the reversed array with the offset negated gives the reversed zoom: any complex array of odd size, any real array in the default mode. -/
theorem C154_zoom1d {n : ℕ} [NeZero n] (cfg : FFTConfig) (off us : ℝ) (hus : us ≠ 0) (N : ℕ) :
    (Odd n → ∀ (x : Fin n → ℂ) (rr : Bool), ∃ y : Fin N → ℂ,
      zoom1d cfg (cArr x) us (some N) off false rr = .ok (.plain ⟨N, retReal rr y⟩) ∧
      zoom1d cfg (cArr fun i => x i.rev) us (some N) (-off) false rr = .ok (.plain ⟨N, retReal rr fun i => y i.rev⟩)) ∧
    ∀ x : Fin n → ℝ, ∃ y : Fin N → ℝ,
      zoom1d cfg (rArr x) us (some N) off false true = .ok (.plain ⟨N, .real (realArr y)⟩) ∧
      zoom1d cfg (rArr fun i => x i.rev) us (some N) (-off) false true = .ok (.plain ⟨N, .real (realArr fun i => y i.rev)⟩) := by
  have run : ∀ (x : Fin n → ℂ) (o : ℝ) (rr : Bool), zoom1d cfg (cArr x) us (some N) o false rr
      = .ok (.plain ⟨N, retReal rr fun q : Fin N => interpC x (Spec.zoomGrid (((n : ℝ) - 1) / 2 + o) us N q)⟩) := by
    intro x o rr
    rw [zoom1d_eq cfg x us hus]
    rfl
  have hg : ∀ i : Fin N, Spec.revAt true n (Spec.zoomGrid (((n : ℝ) - 1) / 2 + -off) us N i) = Spec.zoomGrid (((n : ℝ) - 1) / 2 + off) us N i.rev := by
    intro i
    have h := zoomGrid_rev true n N (((n : ℝ) - 1) / 2 + off) us i
    simp only [Spec.revAt, Spec.rev, if_true] at h ⊢
    rw [← h]
    congr 2
    ring
  constructor
  · intro ho x rr
    refine ⟨_, run x off rr, ?_⟩
    rw [run]
    have : ∀ t, interpC (fun i => x i.rev) t = interpC x (Spec.revAt true n t) := by
      intro t
      rw [interpC_eq_row, interpC_eq_row x]
      exact interp2C_mirror false true (fun h => by cases h) (fun _ => ho) (fun p : Fin 1 × Fin n => x p.2) 0 t
    simp only [this, hg]
  · intro x
    refine ⟨_, by rw [rArr_eq_cArr]; exact run _ off true, ?_⟩
    rw [rArr_eq_cArr, run]
    have : ∀ t, (interpC (fun i => ((x i.rev : ℝ) : ℂ)) t).re = (interpC (fun i => (x i : ℂ)) (Spec.revAt true n t)).re := by
      intro t
      rw [interpC_eq_row, interpC_eq_row (fun i => (x i : ℂ))]
      exact interp2C_flip_re false true (Or.inl ⟨0, rfl⟩) (fun p : Fin 1 × Fin n => x p.2) 0 t
    simp only [retReal_true, this, hg]

/-! ## Cases that meet the conditions -/

/-- a 4×6 image with one bright pixel, rotated by 180°: both even sizes -/
example (cfg : FFTConfig) : ∃ r : NdOut (Fin 9 × Fin 8),
    zoomOnPixel2 cfg (rArr (Spec.spot46)) [1, 2] (5 / 2) (some (9, 8)) true false = .ok (.plain ⟨9, 8, r⟩) ∧
    zoomOnPixel2 cfg (rArr (Spec.flip true true Spec.spot46)) [Spec.revAt true 4 1, Spec.revAt true 6 2] (5 / 2) (some (9, 8)) true false
      = .ok (.plain ⟨9, 8, Spec.flipOut true true r⟩) ∧ Spec.revAt true 4 1 = 2 ∧ Spec.revAt true 6 2 = 3 := by
  obtain ⟨r, h1, h2⟩ := (C154_zoom (ny := 4) (nx := 6) cfg true true 1 2 (5 / 2) (by norm_num) 9 8 (by norm_num) (by norm_num)).2 (Or.inr (Or.inr rfl)) Spec.spot46
  exact ⟨r, h1, h2, by norm_num [Spec.revAt], by norm_num [Spec.revAt]⟩

/-- upsampled by 2, a 5×6 image flipped upside-down: row shift 1 instead of 0 -/
example (cfg : FFTConfig) (x : Fin 5 × Fin 6 → ℂ) : ∃ A : Fin 10 × Fin 12 → ℂ,
    upsampleImage cfg (cArr x) 2 .none 0 0 = .ok ⟨10, 12, cArr A⟩ ∧
    upsampleImage cfg (cArr (Spec.flip true false x)) 2 .none 0 1 = .ok ⟨10, 12, cArr (Spec.flip true false A)⟩ := by
  obtain ⟨A, h1, h2⟩ := (C154_upsample (ny := 5) (nx := 6) cfg 2 (by norm_num) 0 0).1 true false (fun _ => ⟨2, by norm_num⟩) (fun h => by cases h) x
  refine ⟨A, h1, ?_⟩
  have e1 : Spec.revAt false 2 0 = 0 := rfl
  have e2 : Spec.revAt true 2 0 = 1 := by norm_num [Spec.revAt]
  rw [e1, e2] at h2
  exact h2

end ImgReg
