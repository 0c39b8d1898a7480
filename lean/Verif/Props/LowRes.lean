import Verif.Props.Downsample
import Verif.Props.Stack
import Verif.Props.Again
import Verif.Props.RandomRegister

/-!
# Registering at low resolution (C150): `downsample` and moves
-/

open Finset

namespace ImgReg

section
variable {ny nx m n : ℕ} [NeZero ny] [NeZero nx] [NeZero m] [NeZero n]

/-- The numpy array `a` shows the image `x`. -/
def Spec.shows {ny nx : ℕ} (a : NArr2) (x : Fin ny × Fin nx → Pix) : Prop :=
  a.rows = ny ∧ a.cols = nx ∧ ∀ p, a.val p.1 p.2 = x p

/-- The pixels of an image of `ny × nx` pixels in block `q` of `f × f` pixels. -/
def Spec.block (f : ℕ) (q : Fin m × Fin n) : Finset (Fin ny × Fin nx) :=
  Finset.univ.filter fun p => (p.1 : ℕ) / f = q.1 ∧ (p.2 : ℕ) / f = q.2

/-- a pixel of block `q` -/
def blk {ny m : ℕ} (f : ℕ) (hy : ny = m * f) (r : Fin m) (i : Fin f) : Fin ny :=
  ⟨(i : ℕ) + (r : ℕ) * f, by
    have := r.2; have := i.2
    calc (i : ℕ) + (r : ℕ) * f < f + (r : ℕ) * f := by omega
      _ = ((r : ℕ) + 1) * f := by ring
      _ ≤ m * f := Nat.mul_le_mul_right _ (by omega)
      _ = ny := hy.symm⟩

theorem blk_wrap {ny m : ℕ} [NeZero ny] [NeZero m] (f : ℕ) (hy : ny = m * f) (r : Fin m) (i : Fin f) (k : ℤ) :
    Spec.wrap ny (((blk f hy r i : ℕ) : ℤ) - f * k) = blk f hy (Spec.wrap m (((r : ℕ) : ℤ) - k)) i := by
  rw [Spec.wrap_eq_iff]
  have h := Spec.wrap_modEq m (((r : ℕ) : ℤ) - k)
  obtain ⟨t, ht⟩ := h.dvd
  refine (Int.modEq_iff_dvd.2 ⟨-t, ?_⟩)
  simp only [blk]
  push_cast
  rw [hy]
  push_cast
  linear_combination (-(f : ℤ)) * ht

/-- C150: moving an image by a multiple of `f` and downsampling it by `f` is downsampling it and moving the result — for every estimator, and for images
with NaNs, of which `f` divides both axes. -/
theorem C150_roll (f : ℕ) (hf : 0 < f) (hy : ny = m * f) (hx : nx = n * f) (est : List Pix → Pix) (x : Fin ny × Fin nx → Pix) (ky kx : ℤ)
    (a b : NArr2) (ha : Spec.shows a x) (hb : Spec.shows b (Spec.roll2 (f * ky) (f * kx) x)) :
    ∃ (g : Fin m × Fin n → Pix) (a' b' : NArr2), downsample a f est = .ok a' ∧ downsample b f est = .ok b' ∧
      Spec.shows a' g ∧ Spec.shows b' (Spec.roll2 ky kx g) := by
  obtain ⟨oa, h1, r1, c1, v1⟩ := C54_downsample_estimator a f hf est
  obtain ⟨ob, h2, r2, c2, v2⟩ := C54_downsample_estimator b f hf est
  rw [ha.1, hy, Nat.mul_div_cancel _ hf] at r1
  rw [ha.2.1, hx, Nat.mul_div_cancel _ hf] at c1
  rw [hb.1, hy, Nat.mul_div_cancel _ hf] at r2
  rw [hb.2.1, hx, Nat.mul_div_cancel _ hf] at c2
  refine ⟨fun q => oa.val q.1 q.2, oa, ob, h1, h2, ⟨r1, c1, fun p => rfl⟩, r2, c2, fun q => ?_⟩
  unfold Spec.roll2
  beta_reduce
  rw [v2, v1]
  congr 1
  simp only [List.flatMap_def]
  congr 1
  refine List.map_congr_left fun j hj => List.map_congr_left fun i hi => ?_
  rw [List.mem_range] at hi hj
  have e2 := hb.2.2 (blk f hy q.1 ⟨i, hi⟩, blk f hx q.2 ⟨j, hj⟩)
  unfold Spec.roll2 at e2
  rw [blk_wrap, blk_wrap] at e2
  have e1 := ha.2.2 (blk f hy (Spec.wrap m (((q.1 : ℕ) : ℤ) - ky)) ⟨i, hi⟩, blk f hx (Spec.wrap n (((q.2 : ℕ) : ℤ) - kx)) ⟨j, hj⟩)
  exact e2.trans e1.symm

theorem meanOver_congr {ι : Type} [DecidableEq ι] (s : Finset ι) (v w : ι → Pix) (h : ∀ a ∈ s, v a = w a) :
    Spec.meanOver s v = Spec.meanOver s w := by
  unfold Spec.meanOver
  have h1 : (∃ a ∈ s, v a ≠ none) ↔ ∃ a ∈ s, w a ≠ none :=
    exists_congr fun a => and_congr_right fun ha => by rw [h a ha]
  have h2 : (s.filter fun a => (v a).isSome) = s.filter fun a => (w a).isSome :=
    Finset.filter_congr fun a ha => by rw [h a ha]
  have h3 : ∑ a ∈ s.filter (fun a => (w a).isSome), (v a).getD 0 = ∑ a ∈ s.filter (fun a => (w a).isSome), (w a).getD 0 :=
    Finset.sum_congr rfl fun a ha => by rw [h a (Finset.mem_filter.1 ha).1]
  simp only [h1, h2, h3]

omit [NeZero ny] [NeZero nx] [NeZero m] [NeZero n] in
theorem blk_mem (f : ℕ) (hf : 0 < f) (hy : ny = m * f) (hx : nx = n * f) (q : Fin m × Fin n) (h : Fin ny × Fin nx → ℝ) :
    ∑ p ∈ Spec.block f q, h p = ∑ i : Fin f, ∑ j : Fin f, h (blk f hy q.1 i, blk f hx q.2 j) := by
  rw [← Finset.sum_product']
  symm
  have dv : ∀ (r i : ℕ), i < f → (i + r * f) / f = r := by
    intro r i hi
    rw [Nat.add_mul_div_right _ _ hf, Nat.div_eq_of_lt hi, zero_add]
  have md : ∀ (r p : ℕ), p / f = r → p % f + r * f = p := by
    rintro r p rfl
    rw [mul_comm]; exact Nat.mod_add_div p f
  refine Finset.sum_bij' (fun ij _ => (blk f hy q.1 ij.1, blk f hx q.2 ij.2))
    (fun p _ => (⟨(p.1 : ℕ) % f, Nat.mod_lt _ hf⟩, ⟨(p.2 : ℕ) % f, Nat.mod_lt _ hf⟩)) ?_ ?_ ?_ ?_ ?_
  · intro ij _
    simp only [Spec.block, Finset.mem_filter, Finset.mem_univ, true_and, blk]
    exact ⟨dv _ _ ij.1.2, dv _ _ ij.2.2⟩
  · intro p _; simp
  · intro ij _
    refine Prod.ext (Fin.ext ?_) (Fin.ext ?_)
    · simp only [blk, Nat.add_mul_mod_self_right]; exact Nat.mod_eq_of_lt ij.1.2
    · simp only [blk, Nat.add_mul_mod_self_right]; exact Nat.mod_eq_of_lt ij.2.2
  · intro p hp
    simp only [Spec.block, Finset.mem_filter, Finset.mem_univ, true_and] at hp
    refine Prod.ext (Fin.ext ?_) (Fin.ext ?_)
    · simp only [blk]; exact md _ _ hp.1
    · simp only [blk]; exact md _ _ hp.2
  · intro _ _; rfl

/-- The image of the means of the `f × f` blocks. -/
noncomputable def Spec.lowRes (f : ℕ) (x : Fin ny × Fin nx → ℝ) (q : Fin m × Fin n) : ℝ := (∑ p ∈ Spec.block f q, x p) / (f : ℝ) ^ 2

omit [NeZero ny] [NeZero nx] [NeZero m] [NeZero n] in
/-- C150: without NaNs, the low-resolution image holds the means of the blocks. -/
theorem C150_blocks (f : ℕ) (hf : 0 < f) (hy : ny = m * f) (hx : nx = n * f) (x : Fin ny × Fin nx → ℝ) (a : NArr2) (ha : Spec.shows a (realArr x)) :
    ∃ a' : NArr2, downsample a f Np.nanmean = .ok a' ∧
      Spec.shows a' (realArr (Spec.lowRes (m := m) (n := n) f x)) := by
  obtain ⟨oa, h1, r1, c1, v1⟩ := C54_downsample a f hf
  rw [ha.1, hy, Nat.mul_div_cancel _ hf] at r1
  rw [ha.2.1, hx, Nat.mul_div_cancel _ hf] at c1
  refine ⟨oa, h1, r1, c1, fun q => ?_⟩
  have key : ∀ i j (hi : i < f) (hj : j < f), a.val ((q.1 : ℕ) * f + i) ((q.2 : ℕ) * f + j) = some (x (blk f hy q.1 ⟨i, hi⟩, blk f hx q.2 ⟨j, hj⟩)) := by
    intro i j hi hj
    have := ha.2.2 (blk f hy q.1 ⟨i, hi⟩, blk f hx q.2 ⟨j, hj⟩)
    rw [add_comm _ i, add_comm _ j]
    exact this
  have hm := meanOver_finite f hf (fun i j => if h : i < f ∧ j < f then x (blk f hy q.1 ⟨i, h.1⟩, blk f hx q.2 ⟨j, h.2⟩) else 0)
  rw [v1, meanOver_congr _ _ _ ?_, hm]
  · show some _ = some _
    congr 1
    unfold Spec.imageMean Spec.lowRes
    rw [blk_mem f hf hy hx q x, Finset.sum_range, sq]
    congr 1
    refine Finset.sum_congr rfl fun i _ => ?_
    rw [Finset.sum_range]
    refine Finset.sum_congr rfl fun j _ => ?_
    exact dif_pos ⟨i.2, j.2⟩
  · intro p hp
    rw [Finset.mem_product, Finset.mem_range, Finset.mem_range] at hp
    rw [key p.1 p.2 hp.1 hp.2]
    rw [dif_pos hp]

theorem lowRes_roll (f : ℕ) (hf : 0 < f) (hy : ny = m * f) (hx : nx = n * f) (x : Fin ny × Fin nx → ℝ) (ky kx : ℤ) :
    Spec.lowRes (m := m) (n := n) f (Spec.roll2 (f * ky) (f * kx) x) = Spec.roll2 ky kx (Spec.lowRes f x) := by
  funext q
  unfold Spec.lowRes Spec.roll2
  beta_reduce
  rw [blk_mem f hf hy hx, blk_mem f hf hy hx]
  simp only [blk_wrap]

omit [NeZero ny] [NeZero nx] [NeZero m] [NeZero n] in
theorem lowRes_sub (f : ℕ) (x y : Fin ny × Fin nx → ℝ) (q : Fin m × Fin n) :
    Spec.lowRes f (fun p => x p - y p) q = Spec.lowRes f x q - Spec.lowRes f y q := by
  unfold Spec.lowRes
  rw [Finset.sum_sub_distrib, sub_div]

omit [NeZero ny] [NeZero nx] [NeZero m] [NeZero n] in
theorem block_card (f : ℕ) (hf : 0 < f) (hy : ny = m * f) (hx : nx = n * f) (q : Fin m × Fin n) :
    ((Spec.block f q : Finset (Fin ny × Fin nx)).card : ℝ) = (f : ℝ) ^ 2 := by
  have := blk_mem f hf hy hx q (fun _ => 1)
  simpa [sq] using this

omit [NeZero ny] [NeZero nx] [NeZero m] [NeZero n] in
theorem block_cover (f : ℕ) (hf : 0 < f) (hy : ny = m * f) (hx : nx = n * f) (h : Fin ny × Fin nx → ℝ) :
    ∑ q : Fin m × Fin n, ∑ p ∈ Spec.block f q, h p = ∑ p, h p := by
  have hlt : ∀ {a b : ℕ} (p : Fin a), a = b * f → (p : ℕ) / f < b := by
    intro a b p e
    rw [Nat.div_lt_iff_lt_mul hf, ← e]; exact p.2
  rw [← Finset.sum_fiberwise (Finset.univ : Finset (Fin ny × Fin nx))
    (fun p => ((⟨(p.1 : ℕ) / f, hlt p.1 hy⟩, ⟨(p.2 : ℕ) / f, hlt p.2 hx⟩) : Fin m × Fin n)) h]
  refine Finset.sum_congr rfl fun q _ => Finset.sum_congr ?_ fun _ _ => rfl
  ext p
  simp [Spec.block, Prod.ext_iff, Fin.ext_iff]

omit [NeZero ny] [NeZero nx] [NeZero m] [NeZero n] in
theorem lowRes_energy (f : ℕ) (hf : 0 < f) (hy : ny = m * f) (hx : nx = n * f) (x : Fin ny × Fin nx → ℝ) :
    (f : ℝ) ^ 2 * ∑ q, Spec.lowRes (m := m) (n := n) f x q ^ 2 ≤ ∑ p, x p ^ 2 := by
  rw [← block_cover f hf hy hx, Finset.mul_sum]
  refine Finset.sum_le_sum fun q _ => ?_
  have := sq_sum_le_card_mul_sum_sq (s := Spec.block f q) (f := x)
  rw [block_card f hf hy hx q] at this
  unfold Spec.lowRes
  rw [div_pow, mul_div_assoc', div_le_iff₀ (by positivity)]
  nlinarith

omit [NeZero m] [NeZero n] in
/-- C150: the mean is kept, the values stay between the bounds of the image, and every disturbance shrinks by `f` at least:
`f²·Σ low² ≤ Σ x²`. -/
theorem C150_mean_range_energy (f : ℕ) (hf : 0 < f) (hy : ny = m * f) (hx : nx = n * f) (x : Fin ny × Fin nx → ℝ) (a : NArr2)
    (ha : Spec.shows a (realArr x)) :
    ∃ (low : Fin m × Fin n → ℝ) (a' : NArr2), downsample a f Np.nanmean = .ok a' ∧ Spec.shows a' (realArr low) ∧
      Spec.mean low = Spec.mean x ∧ (∀ lo hi : ℝ, (∀ p, lo ≤ x p ∧ x p ≤ hi) → ∀ q, lo ≤ low q ∧ low q ≤ hi) ∧
      (f : ℝ) ^ 2 * ∑ q, low q ^ 2 ≤ ∑ p, x p ^ 2 := by
  obtain ⟨a', h1, h2⟩ := C150_blocks f hf hy hx x a ha
  have hf2 : (0 : ℝ) < (f : ℝ) ^ 2 := by positivity
  refine ⟨_, a', h1, h2, ?_, ?_, ?_⟩
  · unfold Spec.mean Spec.lowRes
    rw [← Finset.sum_div, block_cover f hf hy hx]
    subst hy hx
    push_cast [Fintype.card_prod, Fintype.card_fin]
    rw [div_div]
    congr 1
    ring
  · intro lo hi h q
    unfold Spec.lowRes
    rw [le_div_iff₀ hf2, div_le_iff₀ hf2, ← block_card f hf hy hx q]
    constructor
    · have := Finset.card_nsmul_le_sum (Spec.block f q) x lo fun p _ => (h p).1
      rw [nsmul_eq_mul] at this; linarith
    · have := Finset.sum_le_card_nsmul (Spec.block f q) x hi fun p _ => (h p).2
      rw [nsmul_eq_mul] at this; linarith
  · exact lowRes_energy f hf hy hx x

theorem lowRes_near (f : ℕ) (hf : 0 < f) (hy : ny = m * f) (hx : nx = n * f) (S x : Fin ny × Fin nx → ℝ) (ky kx : ℤ) (ν : ℝ) (hν : 0 ≤ ν)
    (h : Real.sqrt (∑ p, (x p - Spec.roll2 (f * ky) (f * kx) S p) ^ 2) ≤ f * ν) :
    Real.sqrt (∑ q, (Spec.lowRes (m := m) (n := n) f x q - Spec.roll2 ky kx (Spec.lowRes f S) q) ^ 2) ≤ ν := by
  have hf2 : (0 : ℝ) < (f : ℝ) ^ 2 := by positivity
  rw [← lowRes_roll f hf hy hx]
  simp only [← lowRes_sub]
  have key : (f : ℝ) ^ 2 * ∑ q, Spec.lowRes (m := m) (n := n) f (fun p => x p - Spec.roll2 (f * ky) (f * kx) S p) q ^ 2
      ≤ ∑ p, (x p - Spec.roll2 (f * ky) (f * kx) S p) ^ 2 :=
    lowRes_energy f hf hy hx _
  rw [Real.sqrt_le_left (by positivity)] at h
  rw [Real.sqrt_le_left hν]
  have : (f : ℝ) ^ 2 * ∑ q, Spec.lowRes (m := m) (n := n) f (fun p => x p - Spec.roll2 (f * ky) (f * kx) S p) q ^ 2 ≤ (f : ℝ) ^ 2 * ν ^ 2 := by
    rw [← mul_pow]; exact key.trans h
  exact le_of_mul_le_mul_left this hf2

omit [NeZero ny] [NeZero nx] [NeZero m] [NeZero n] in
theorem consistent_scale {ι : Type} (f : ℕ) (hf : 0 < f) (hy : ny = m * f) (hx : nx = n * f) (ky kx : ι → ℤ) (ry rx : ι → ι → ℤ)
    (h : Spec.consistent m n ky kx ry rx) :
    Spec.consistent ny nx (fun k => f * ky k) (fun k => f * kx k) (fun i j => f * ry i j) fun i j => f * rx i j := by
  have md : ∀ {N M : ℕ} (a b : ℤ), N = M * f → a ≡ b [ZMOD M] → f * a ≡ f * b [ZMOD N] := by
    intro N M a b e h
    rw [e]; push_cast
    rw [mul_comm (M : ℤ)]
    exact h.mul_left'
  have lo : ∀ {N M : ℕ} (r : ℤ), N = M * f → -(M : ℤ) ≤ 2 * r → -(N : ℤ) ≤ 2 * (f * r) := by
    intro N M r e h
    rw [e]; push_cast; nlinarith
  have hi : ∀ {N M : ℕ} (r : ℤ), N = M * f → 2 * r < M → 2 * (f * r) < N := by
    intro N M r e h
    have : (0 : ℤ) < f := by exact_mod_cast hf
    rw [e]; push_cast; nlinarith
  obtain ⟨h1, h2, h3⟩ := h
  refine ⟨fun i j => ?_, fun i j k => ?_, fun i j => ?_⟩
  · obtain ⟨a1, a2, a3, b1, b2, b3⟩ := h1 i j
    refine ⟨?_, lo _ hx a2, hi _ hx a3, ?_, lo _ hy b2, hi _ hy b3⟩
    · have := md _ _ hx a1; rwa [mul_sub] at this
    · have := md _ _ hy b1; rwa [mul_sub] at this
  · have a := md _ _ hx (h2 i j k).1
    have b := md _ _ hy (h2 i j k).2
    rw [mul_add] at a b
    exact ⟨a, b⟩
  · have a := md _ _ hx (h3 i j).1
    have b := md _ _ hy (h3 i j).2
    rw [mul_neg] at a b
    exact ⟨a, b⟩

/-- C150, `register_images` at low resolution. Exposures `im k` of a scene `S`, each at most `f·ν` (root of the sum of squares) away from the scene
moved by `f·(ky k, kx k)` pixels; `a` is the low-resolution scene (mean-subtracted if `zeromean`), and the modulus of its autocorrelation at every
other candidate displacement stays below its value at 0 by more than `2·(2·‖a‖·ν + ν²)`. Then all the exposures can be downsampled by `f`, every pair of
low-resolution exposures is registered, and `f` times the answers are the displacements of the full-resolution exposures: modulo the size of the
frame, in the range `-n ≤ 2·r < n`, and consistent. -/
theorem C150_register {ι : Type} (cfg : FFTConfig) (f : ℕ) (hf : 0 < f) (hy : ny = m * f) (hx : nx = n * f)
    (S : Fin ny × Fin nx → ℝ) (ky kx : ι → ℤ) (im : ι → Fin ny × Fin nx → ℝ) (ν : ℝ) (hν : 0 ≤ ν)
    (hn : ∀ k, Real.sqrt (∑ p, (im k p - Spec.roll2 (f * ky k) (f * kx k) S p) ^ 2) ≤ f * ν)
    (usfac : ℕ) (hu : 1 ≤ usfac) (hsz : usfac = 1 ∨ (2 ≤ m ∧ 2 ≤ n)) (zm : Bool)
    (a : Fin m × Fin n → ℝ) (ha : ∀ q, a q = Spec.lowRes f S q - if zm then Spec.mean (Spec.lowRes (m := m) (n := n) f S) else 0)
    (hmargin : ∀ t ∈ Spec.candidates usfac, ∀ u ∈ Spec.candidates usfac,
      ¬ ((∃ z : ℤ, t = z * m) ∧ ∃ z : ℤ, u = z * n) →
      ‖Spec.cc a a t u‖ + 2 * (2 * Real.sqrt (∑ p, a p ^ 2) * ν + ν ^ 2) < ∑ p, a p ^ 2)
    (arr : ι → NArr2) (harr : ∀ k, Spec.shows (arr k) (realArr (im k))) :
    ∃ (low : ι → Fin m × Fin n → ℝ) (ry rx : ι → ι → ℤ),
      (∀ k, ∃ a', downsample (arr k) f Np.nanmean = .ok a' ∧ Spec.shows a' (realArr (low k))) ∧
      (∀ i j, registerImages cfg (realArr (low i)) (realArr (low j)) usfac false false zm none = .ok [.num (rx i j), .num (ry i j)]) ∧
      Spec.consistent ny nx (fun k => f * ky k) (fun k => f * kx k) (fun i j => f * ry i j) fun i j => f * rx i j := by
  obtain ⟨ry, rx, h1, h2, -⟩ := C145_register_stack cfg cfg (Spec.lowRes (m := m) (n := n) f S) ky kx
    (fun k q => Spec.lowRes f (im k) q - Spec.roll2 (ky k) (kx k) (Spec.lowRes f S) q) usfac hu hsz zm a ha ν
    (fun k => lowRes_near f hf hy hx S (im k) (ky k) (kx k) ν hν (hn k)) hmargin
  refine ⟨fun k => Spec.lowRes f (im k), ry, rx, fun k => C150_blocks f hf hy hx (im k) (arr k) (harr k), fun i j => ?_,
    consistent_scale f hf hy hx ky kx ry rx h2⟩
  have e : ∀ k, Spec.exposure (Spec.lowRes f S) (ky k) (kx k) (fun q => Spec.lowRes f (im k) q - Spec.roll2 (ky k) (kx k) (Spec.lowRes f S) q)
      = Spec.lowRes (m := m) (n := n) f (im k) := by
    intro k; funext q; unfold Spec.exposure; ring
  have := h1 i j
  rw [e, e] at this
  exact this

/-- C150, `chi2_shift` at low resolution (`upsample_factor=1`, a scalar error): the same if the low-resolution scene differs from every other roll of
itself by more than `6·ν`. -/
theorem C150_chi2 {ι : Type} (cfg : FFTConfig) (st : Stats) (hst : Spec.validStats st) (f : ℕ) (hf : 0 < f) (hy : ny = m * f) (hx : nx = n * f)
    (S : Fin ny × Fin nx → ℝ) (ky kx : ι → ℤ) (im : ι → Fin ny × Fin nx → ℝ) (ν : ℝ) (hν : 0 ≤ ν)
    (hn : ∀ k, Real.sqrt (∑ p, (im k p - Spec.roll2 (f * ky k) (f * kx k) S p) ^ 2) ≤ f * ν) (hm : 2 ≤ m)
    (err : ErrArg m n) (s : ℝ) (hs : s ≠ 0) (he : Spec.isScalarErr err s)
    (hmargin : ∀ gy gx : ℤ, ¬ (gy ≡ 0 [ZMOD m] ∧ gx ≡ 0 [ZMOD n]) →
      6 * ν < Real.sqrt (∑ q, (Spec.roll2 gy gx (Spec.lowRes (m := m) (n := n) f S) q - Spec.lowRes f S q) ^ 2))
    (nf : ℝ) (mas : ℕ) (mns : ℝ) (ah : Bool) (hfit : Spec.fits ah m n)
    (arr : ι → NArr2) (harr : ∀ k, Spec.shows (arr k) (realArr (im k))) :
    ∃ (low : ι → Fin m × Fin n → ℝ) (ry rx : ι → ι → ℤ),
      (∀ k, ∃ a', downsample (arr k) f Np.nanmean = .ok a' ∧ Spec.shows a' (realArr (low k))) ∧
      (∀ i j, chi2Shift cfg st (realArr (low i)) (realArr (low j)) err (.int 1) false nf false false false mas mns ah
        = .ok [.num (rx i j), .num (ry i j)]) ∧
      Spec.consistent ny nx (fun k => f * ky k) (fun k => f * kx k) (fun i j => f * ry i j) fun i j => f * rx i j := by
  obtain ⟨ry, rx, h1, h2, -⟩ := C145_chi2_stack cfg cfg st hst hm (Spec.lowRes (m := m) (n := n) f S) ky kx
    (fun k q => Spec.lowRes f (im k) q - Spec.roll2 (ky k) (kx k) (Spec.lowRes f S) q) err s hs he ν
    (fun k => lowRes_near f hf hy hx S (im k) (ky k) (kx k) ν hν (hn k)) hmargin nf mas mns ah hfit
  refine ⟨fun k => Spec.lowRes f (im k), ry, rx, fun k => C150_blocks f hf hy hx (im k) (arr k) (harr k), fun i j => ?_,
    consistent_scale f hf hy hx ky kx ry rx h2⟩
  have e : ∀ k, Spec.exposure (Spec.lowRes f S) (ky k) (kx k) (fun q => Spec.lowRes f (im k) q - Spec.roll2 (ky k) (kx k) (Spec.lowRes f S) q)
      = Spec.lowRes (m := m) (n := n) f (im k) := by
    intro k; funext q; unfold Spec.exposure; ring
  have := h1 i j
  rw [e, e] at this
  exact this

/-- C150: what counts as disturbance for a displacement that is not a multiple of `f`: an exposure moved by `f·k + e` and disturbed by `noise` is
away from the scene moved by `f·k` by at most the change of the scene when it moves by the remainder `e`, plus the noise — so `C150_register` and
`C150_chi2` find the displacement up to the remainder. -/
theorem C150_remainder (f : ℕ) (S noise : Fin ny × Fin nx → ℝ) (ky kx ey ex : ℤ) :
    Real.sqrt (∑ p, (Spec.exposure S (f * ky + ey) (f * kx + ex) noise p - Spec.roll2 (f * ky) (f * kx) S p) ^ 2)
      ≤ Real.sqrt (∑ p, (Spec.roll2 ey ex S p - S p) ^ 2) + Real.sqrt (∑ p, noise p ^ 2) := by
  have h := l2_sub_le (fun p => ((Spec.exposure S (f * ky + ey) (f * kx + ex) noise p : ℝ) : ℂ))
    (fun p => ((Spec.roll2 (f * ky + ey) (f * kx + ex) S p : ℝ) : ℂ)) (fun p => ((Spec.roll2 (f * ky) (f * kx) S p : ℝ) : ℂ))
  have e1 : (fun p => ((Spec.exposure S (f * ky + ey) (f * kx + ex) noise p : ℝ) : ℂ) - ((Spec.roll2 (f * ky + ey) (f * kx + ex) S p : ℝ) : ℂ))
      = fun p => ((noise p : ℝ) : ℂ) := by
    funext p; unfold Spec.exposure; push_cast; ring
  have e2 : (fun p => ((Spec.roll2 (f * ky + ey) (f * kx + ex) S p : ℝ) : ℂ) - ((Spec.roll2 (f * ky) (f * kx) S p : ℝ) : ℂ))
      = fun p => ((Spec.roll2 (f * ky) (f * kx) (fun q => Spec.roll2 ey ex S q - S q) p : ℝ) : ℂ) := by
    funext p
    rw [← roll2_add, ← Complex.ofReal_sub]
    rfl
  have e3 : (fun p => ((Spec.exposure S (f * ky + ey) (f * kx + ex) noise p : ℝ) : ℂ) - ((Spec.roll2 (f * ky) (f * kx) S p : ℝ) : ℂ))
      = fun p => ((Spec.exposure S (f * ky + ey) (f * kx + ex) noise p - Spec.roll2 (f * ky) (f * kx) S p : ℝ) : ℂ) := by
    funext p; push_cast; ring
  rw [e1, e2, e3, l2_real, l2_real, l2_real, roll2_energy] at h
  exact h.trans (le_of_eq (add_comm _ _))

theorem lowRes_spot (f : ℕ) (hf : 0 < f) (A : ℝ) :
    Spec.lowRes f (Spec.spot ny nx A) = Spec.spot m n (A / (f : ℝ) ^ 2) := by
  funext q
  unfold Spec.lowRes Spec.spot
  by_cases hq : q = 0
  · subst hq
    rw [if_pos rfl, Finset.sum_eq_single 0]
    · rw [if_pos rfl]
    · intro b _ hb; rw [if_neg hb]
    · intro h; exact absurd (by simp [Spec.block, hf]) h
  · rw [if_neg hq, Finset.sum_eq_zero, zero_div]
    intro p hp
    refine if_neg fun h0 => hq ?_
    subst h0
    simp only [Spec.block, Finset.mem_filter, Finset.mem_univ, true_and, Prod.fst_zero, Prod.snd_zero, Fin.val_zero, Nat.zero_div] at hp
    exact Prod.ext (Fin.ext hp.1.symm) (Fin.ext hp.2.symm)

/-- C150 (a case that meets the conditions): a bright pixel of height `A`, exposures of it moved by multiples of `f` and disturbed by less than
`A/(5f)`. -/
theorem C150_register_example {ι : Type} (cfg : FFTConfig) (f : ℕ) (hf : 0 < f) (hy : ny = m * f) (hx : nx = n * f) (A : ℝ) (hA : 0 < A)
    (ky kx : ι → ℤ) (noise : ι → Fin ny × Fin nx → ℝ) (hn : ∀ k, Real.sqrt (∑ p, noise k p ^ 2) ≤ A / (5 * f))
    (arr : ι → NArr2) (harr : ∀ k, Spec.shows (arr k) (realArr (Spec.exposure (Spec.spot ny nx A) (f * ky k) (f * kx k) (noise k)))) :
    ∃ (low : ι → Fin m × Fin n → ℝ) (ry rx : ι → ι → ℤ),
      (∀ k, ∃ a', downsample (arr k) f Np.nanmean = .ok a' ∧ Spec.shows a' (realArr (low k))) ∧
      (∀ i j, registerImages cfg (realArr (low i)) (realArr (low j)) 1 false false false none = .ok [.num (rx i j), .num (ry i j)]) ∧
      Spec.consistent ny nx (fun k => f * ky k) (fun k => f * kx k) (fun i j => f * ry i j) fun i j => f * rx i j := by
  have hf' : (0 : ℝ) < f := by exact_mod_cast hf
  have hA' : 0 < A / (f : ℝ) ^ 2 := by positivity
  refine C150_register cfg f hf hy hx (Spec.spot ny nx A) ky kx _ (A / (f : ℝ) ^ 2 / 5) (by positivity) (fun k => ?_) 1 le_rfl (.inl rfl) false
    (Spec.spot m n (A / (f : ℝ) ^ 2)) (fun q => by rw [lowRes_spot f hf]; simp) (spot_margin _ hA') arr harr
  have e : ∀ p, Spec.exposure (Spec.spot ny nx A) (f * ky k) (f * kx k) (noise k) p - Spec.roll2 (f * ky k) (f * kx k) (Spec.spot ny nx A) p
      = noise k p := by
    intro p; unfold Spec.exposure; ring
  simp only [e]
  refine (hn k).trans (le_of_eq ?_)
  field_simp

/-- every image is shown by an array -/
def Spec.arrayOf {ny nx : ℕ} (x : Fin ny × Fin nx → Pix) : NArr2 :=
  ⟨ny, nx, fun r c => if h : r < ny ∧ c < nx then x (⟨r, h.1⟩, ⟨c, h.2⟩) else none⟩

theorem arrayOf_shows {ny nx : ℕ} (x : Fin ny × Fin nx → Pix) : Spec.shows (Spec.arrayOf x) x :=
  ⟨rfl, rfl, fun p => by simp [Spec.arrayOf]⟩

/-- C150: a 4 × 6 image with NaNs, moved by (2, -4) and downsampled by 2, is the downsampled image moved by (1, -2) -/
example (x : Fin 4 × Fin 6 → Pix) : ∃ (g : Fin 2 × Fin 3 → Pix) (a' b' : NArr2),
    downsample (Spec.arrayOf x) 2 Np.nanmean = .ok a' ∧ downsample (Spec.arrayOf (Spec.roll2 2 (-4) x)) 2 Np.nanmean = .ok b' ∧
      Spec.shows a' g ∧ Spec.shows b' (Spec.roll2 1 (-2) g) :=
  C150_roll 2 (by norm_num) rfl rfl Np.nanmean x 1 (-2) _ _ (arrayOf_shows x) (arrayOf_shows _)

/-- C150: the mean and the noise of a 4 × 6 image -/
example (x : Fin 4 × Fin 6 → ℝ) : ∃ (low : Fin 2 × Fin 3 → ℝ) (a' : NArr2), downsample (Spec.arrayOf (realArr x)) 2 Np.nanmean = .ok a' ∧
    Spec.shows a' (realArr low) ∧ Spec.mean low = Spec.mean x ∧ 4 * ∑ q, low q ^ 2 ≤ ∑ p, x p ^ 2 := by
  obtain ⟨low, a', h1, h2, h3, -, h5⟩ := C150_mean_range_energy (m := 2) (n := 3) 2 (by norm_num) rfl rfl x _ (arrayOf_shows _)
  exact ⟨low, a', h1, h2, h3, by norm_num at h5; exact h5⟩

/-- C150: a bright pixel in an 8 × 12 frame, moved by (4, -4) and back, registered at a quarter of the size -/
example (cfg : FFTConfig) (noise : Fin 2 → Fin 8 × Fin 12 → ℝ) (hn : ∀ k, Real.sqrt (∑ p, noise k p ^ 2) ≤ 100 / (5 * (4 : ℕ))) :=
  C150_register_example (m := 2) (n := 3) cfg 4 (by norm_num) rfl rfl 100 (by norm_num) ![0, 1] ![0, -1] noise hn
    (fun k => Spec.arrayOf _) fun k => arrayOf_shows _

end

end ImgReg
