import Verif.Props.RegisterNoise
import Verif.Props.RegisterSymm
import Verif.Props.Recipe
import Verif.Props.Again
import Verif.Lemmas.InexactChi2

/-!
# A stack of noisy exposures of one scene (C145)

Every exposure shows the same scene, moved by whole pixels, with its own disturbance — the reference too (C96 and C98 need a noise-free reference).
-/

open Complex Finset
open scoped ComplexConjugate

namespace ImgReg

section
variable {ny nx : ℕ} [NeZero ny] [NeZero nx]

/-- Exposure of the scene `f`: moved by `(dy, dx)` whole pixels, plus a disturbance. -/
def Spec.exposure (f : Fin ny × Fin nx → ℝ) (dy dx : ℤ) (n : Fin ny × Fin nx → ℝ) (p : Fin ny × Fin nx) : ℝ := Spec.roll2 dy dx f p + n p

theorem cc_add_left (a b c : Fin ny × Fin nx → ℝ) (t u : ℝ) :
    Spec.cc (fun p => a p + b p) c t u = Spec.cc a c t u + Spec.cc b c t u := by
  unfold Spec.cc
  rw [← Finset.sum_add_distrib]
  refine Finset.sum_congr rfl fun p _ => ?_
  push_cast; ring

theorem roll2_energy (dy dx : ℤ) (a : Fin ny × Fin nx → ℝ) : ∑ p, Spec.roll2 dy dx a p ^ 2 = ∑ p, a p ^ 2 := by
  rw [← Spec.roll2_sum dy dx (fun p => a p ^ 2)]
  rfl

/-- what `register_images` sees of an exposure -/
theorem prep_exposure (zm : Bool) (f n : Fin ny × Fin nx → ℝ) (dy dx : ℤ) :
    prep zm (realArr (Spec.exposure f dy dx n))
      = fun p => Spec.roll2 dy dx (fun p => f p - if zm then Spec.mean f else 0) p + (n p - if zm then Spec.mean n else 0) := by
  rw [prep_real]
  funext p
  have e : Spec.mean (Spec.exposure f dy dx n) = Spec.mean f + Spec.mean n := by
    unfold Spec.mean Spec.exposure
    rw [Finset.sum_add_distrib, Spec.roll2_sum, add_div]
  rw [e]
  unfold Spec.exposure Spec.roll2
  split_ifs <;> ring

/-- two exposures -/
theorem register_exposures (cfg : FFTConfig) (f n m : Fin ny × Fin nx → ℝ) (cy cx dy dx : ℤ) (usfac : ℕ)
    (hu : 1 ≤ usfac) (hsz : usfac = 1 ∨ (2 ≤ ny ∧ 2 ≤ nx)) (zm : Bool)
    (a : Fin ny × Fin nx → ℝ) (ha : ∀ p, a p = f p - if zm then Spec.mean f else 0) (ν : ℝ)
    (hn : Real.sqrt (∑ p, n p ^ 2) ≤ ν) (hm : Real.sqrt (∑ p, m p ^ 2) ≤ ν)
    (hmargin : ∀ t ∈ Spec.candidates usfac, ∀ u ∈ Spec.candidates usfac,
      ¬ ((∃ z : ℤ, t = z * ny) ∧ ∃ z : ℤ, u = z * nx) →
      ‖Spec.cc a a t u‖ + 2 * (2 * Real.sqrt (∑ p, a p ^ 2) * ν + ν ^ 2) < ∑ p, a p ^ 2) :
    ∃ rx ry : ℤ,
      registerImages cfg (realArr (Spec.exposure f cy cx n)) (realArr (Spec.exposure f dy dx m)) usfac false false zm none
        = .ok [.num rx, .num ry] ∧
      rx ≡ dx - cx [ZMOD nx] ∧ -(nx : ℤ) ≤ 2 * rx ∧ 2 * rx < nx ∧
      ry ≡ dy - cy [ZMOD ny] ∧ -(ny : ℤ) ≤ 2 * ry ∧ 2 * ry < ny := by
  obtain ⟨ey, -, my, ly, ry, -⟩ := exists_rep ny (dy - cy)
  obtain ⟨ex, -, mx, lx, rx, -⟩ := exists_rep nx (dx - cx)
  refine ⟨ex, ey, ?_, mx, lx, rx, my, ly, ry⟩
  rw [registerImages_same]
  have ha' : (fun p => f p - if zm then Spec.mean f else 0) = a := by funext p; rw [ha]
  have h1 := prep_exposure zm f n cy cx
  have h2 := prep_exposure zm f m dy dx
  rw [ha'] at h1 h2
  set n' : Fin ny × Fin nx → ℝ := fun p => n p - if zm then Spec.mean n else 0 with hn'
  set m' : Fin ny × Fin nx → ℝ := fun p => m p - if zm then Spec.mean m else 0 with hm'
  have hr : Spec.roll2 dy dx a = Spec.roll2 cy cx (Spec.roll2 ey ex a) := by
    rw [roll2_add]
    refine roll2_congr ?_ ?_ a
    · have := my.add_left cy; rw [add_sub_cancel] at this; exact this.symm
    · have := mx.add_left cx; rw [add_sub_cancel] at this; exact this.symm
  set S := Real.sqrt (∑ p, a p ^ 2) with hS
  have hS0 : 0 ≤ S := Real.sqrt_nonneg _
  have hn2 : Real.sqrt (∑ p, n' p ^ 2) ≤ ν := (Real.sqrt_le_sqrt (sum_sub_mean_le n zm)).trans hn
  have hm2 : Real.sqrt (∑ p, m' p ^ 2) ≤ ν := (Real.sqrt_le_sqrt (sum_sub_mean_le m zm)).trans hm
  have hν : 0 ≤ ν := (Real.sqrt_nonneg _).trans hn
  have hcc : ∀ t u : ℝ, ∃ e : ℂ, ‖e‖ ≤ 2 * S * ν + ν ^ 2 ∧
      Spec.cc (fun p => Spec.roll2 cy cx a p + n' p) (fun p => Spec.roll2 dy dx a p + m' p) t u
      = Spec.cc a a (t + ey) (u + ex) + e := by
    intro t u
    have k1 := cc_le (Spec.roll2 cy cx a) m' t u
    have k2 := cc_le n' (Spec.roll2 dy dx a) t u
    have k3 := cc_le n' m' t u
    rw [roll2_energy] at k1 k2
    have k1' := k1.trans (mul_le_mul_of_nonneg_left hm2 hS0)
    have k2' := k2.trans (mul_le_mul_of_nonneg_right hn2 hS0)
    have k3' := k3.trans (mul_le_mul hn2 hm2 (Real.sqrt_nonneg _) hν)
    refine ⟨Spec.cc (Spec.roll2 cy cx a) m' t u + (Spec.cc n' (Spec.roll2 dy dx a) t u + Spec.cc n' m' t u), ?_, ?_⟩
    · have := norm_add₃_le (a := Spec.cc (Spec.roll2 cy cx a) m' t u) (b := Spec.cc n' (Spec.roll2 dy dx a) t u) (c := Spec.cc n' m' t u)
      rw [add_assoc] at this
      nlinarith
    · rw [cc_add, cc_add_left, cc_add_left]
      have : Spec.cc (Spec.roll2 cy cx a) (Spec.roll2 dy dx a) t u = Spec.cc a a (t + ey) (u + ex) := by
        rw [hr, cc_common_roll]
        exact cc_shifted a _ ey ex t u (Spec.roll2_eq_cshift a ey ex)
      rw [this]; ring
  obtain ⟨fit, hfit, hrow, hcol⟩ := fit_recovers_of_peak ⟨cfg.hasFftw, false, 1⟩ (fun p => Spec.roll2 cy cx a p + n' p)
    (fun p => Spec.roll2 dy dx a p + m' p) ey ex usfac hu hsz
    (fun t u t' u' ht hu' hp hne => by
      obtain ⟨e1, b1, q1⟩ := hcc t u
      obtain ⟨e2, b2, q2⟩ := hcc t' u'
      rw [q1, q2]
      have h1 := hmargin _ ht _ hu' hne
      have h2 : ‖Spec.cc a a (t' + ey) (u' + ex)‖ = ∑ p, a p ^ 2 := by
        have := cc_eq a a 0 0 (t' + ey) (u' + ex) (fun p => by
          have := cshift_int 0 0 a p
          simp only [Int.cast_zero] at this
          rw [this]
          unfold Spec.roll2
          simp only [sub_zero, Spec.wrap_val]) (by simpa using hp)
        exact this
      have h5 := norm_add_le (Spec.cc a a (t + ey) (u + ex)) e1
      have h6 := norm_sub_le (Spec.cc a a (t' + ey) (u' + ex) + e2) e2
      rw [add_sub_cancel_right, h2] at h6
      linarith)
    ⟨ly, ry⟩ ⟨lx, rx⟩ none (by intro k hk; cases hk)
  rw [registerBody_ok cfg _ _ usfac false false zm none fit (by rw [h1, h2]; exact hfit), hrow, hcol]
  simp

/-- The exposures agree on their mutual displacements: whatever two of them are compared, the answer is the difference of the two displacements
modulo the size of the frame, in the range `-n ≤ 2·r < n`; so the answers add up around every chain of exposures. -/
def Spec.consistent {ι : Type} (ny nx : ℕ) (dy dx : ι → ℤ) (ry rx : ι → ι → ℤ) : Prop :=
  (∀ i j, rx i j ≡ dx j - dx i [ZMOD nx] ∧ -(nx : ℤ) ≤ 2 * rx i j ∧ 2 * rx i j < nx ∧
    ry i j ≡ dy j - dy i [ZMOD ny] ∧ -(ny : ℤ) ≤ 2 * ry i j ∧ 2 * ry i j < ny) ∧
  (∀ i j k, rx i j + rx j k ≡ rx i k [ZMOD nx] ∧ ry i j + ry j k ≡ ry i k [ZMOD ny]) ∧
  (∀ i j, rx j i ≡ -rx i j [ZMOD nx] ∧ ry j i ≡ -ry i j [ZMOD ny])

theorem consistent_of {ι : Type} {n : ℕ} {d : ι → ℤ} {r : ι → ι → ℤ} (h : ∀ i j, r i j ≡ d j - d i [ZMOD n]) :
    (∀ i j k, r i j + r j k ≡ r i k [ZMOD n]) ∧ ∀ i j, r j i ≡ -r i j [ZMOD n] := by
  constructor
  · intro i j k
    have := (h i j).add (h j k)
    rw [show d j - d i + (d k - d j) = d k - d i by ring] at this
    exact this.trans (h i k).symm
  · intro i j
    have := (h i j).neg
    rw [show -(d j - d i) = d i - d j by ring] at this
    exact (h j i).trans this.symm

theorem Spec.consistent.mk' {ι : Type} {ny nx : ℕ} {dy dx : ι → ℤ} {ry rx : ι → ι → ℤ}
    (h : ∀ i j, rx i j ≡ dx j - dx i [ZMOD nx] ∧ -(nx : ℤ) ≤ 2 * rx i j ∧ 2 * rx i j < nx ∧
      ry i j ≡ dy j - dy i [ZMOD ny] ∧ -(ny : ℤ) ≤ 2 * ry i j ∧ 2 * ry i j < ny) : Spec.consistent ny nx dy dx ry rx := by
  have hx := consistent_of fun i j => (h i j).1
  have hy := consistent_of fun i j => (h i j).2.2.2.1
  exact ⟨h, fun i j k => ⟨hx.1 i j k, hy.1 i j k⟩, fun i j => ⟨hx.2 i j, hy.2 i j⟩⟩

/-- aligning an exposure with the reference -/
theorem align_exposure (cfg : FFTConfig) (f n : Fin ny × Fin nx → ℝ) (cy cx dy dx ry rx : ℤ) (hx : rx ≡ dx - cx [ZMOD nx])
    (hy : ry ≡ dy - cy [ZMOD ny]) (ra : Bool) :
    shift2d cfg (rArr (Spec.exposure f dy dx n)) (-(rx : ℝ)) (-(ry : ℝ)) 0 ra true
      = .real (realArr fun p => Spec.roll2 cy cx f p + Spec.roll2 (cy - dy) (cx - dx) n p) := by
  have h := C02_shift2d_integer_roll cfg (Spec.exposure f dy dx n) (-rx) (-ry) ra
  push_cast at h
  rw [h]
  refine congrArg (fun z => NdOut.real (realArr z)) ?_
  have hx' : -rx ≡ cx - dx [ZMOD nx] := by have := hx.neg; rwa [neg_sub] at this
  have hy' : -ry ≡ cy - dy [ZMOD ny] := by have := hy.neg; rwa [neg_sub] at this
  rw [roll2_congr hy' hx']
  have : Spec.roll2 cy cx f = Spec.roll2 (cy - dy) (cx - dx) (Spec.roll2 dy dx f) := by
    rw [roll2_add]; simp
  rw [this]
  rfl

/-- C145, `register_images`: in a stack of exposures of one scene `f`, exposure `k` moved by whole pixels `(dy k, dx k)` and disturbed by
`noise k` of norm at most `ν`, with `a` the scene (mean-subtracted if `zeromean`): if the modulus of the autocorrelation of `a` at every other
candidate displacement stays below its value at 0 by more than `2·(2·‖a‖·ν + ν²)`, then every pair of exposures is registered exactly, the
answers are consistent, and the exposures shifted back by the answers relative to any reference `i` (with `shift2d`, as in the README) show the scene
exactly where exposure `i` has it, each with its own disturbance, so their sum is the scene, unsmeared, plus the disturbances. -/
theorem C145_register_stack {ι : Type} (cfg cfg' : FFTConfig) (f : Fin ny × Fin nx → ℝ) (dy dx : ι → ℤ) (noise : ι → Fin ny × Fin nx → ℝ)
    (usfac : ℕ) (hu : 1 ≤ usfac) (hsz : usfac = 1 ∨ (2 ≤ ny ∧ 2 ≤ nx)) (zm : Bool)
    (a : Fin ny × Fin nx → ℝ) (ha : ∀ p, a p = f p - if zm then Spec.mean f else 0) (ν : ℝ)
    (hn : ∀ k, Real.sqrt (∑ p, noise k p ^ 2) ≤ ν)
    (hmargin : ∀ t ∈ Spec.candidates usfac, ∀ u ∈ Spec.candidates usfac,
      ¬ ((∃ z : ℤ, t = z * ny) ∧ ∃ z : ℤ, u = z * nx) →
      ‖Spec.cc a a t u‖ + 2 * (2 * Real.sqrt (∑ p, a p ^ 2) * ν + ν ^ 2) < ∑ p, a p ^ 2) :
    ∃ ry rx : ι → ι → ℤ,
      (∀ i j, registerImages cfg (realArr (Spec.exposure f (dy i) (dx i) (noise i))) (realArr (Spec.exposure f (dy j) (dx j) (noise j)))
        usfac false false zm none = .ok [.num (rx i j), .num (ry i j)]) ∧
      Spec.consistent ny nx dy dx ry rx ∧
      ∀ i j ra, shift2d cfg' (rArr (Spec.exposure f (dy j) (dx j) (noise j))) (-(rx i j : ℝ)) (-(ry i j : ℝ)) 0 ra true
        = .real (realArr fun p => Spec.roll2 (dy i) (dx i) f p + Spec.roll2 (dy i - dy j) (dx i - dx j) (noise j) p) := by
  choose rx ry h1 h2 using fun i j => register_exposures cfg f (noise i) (noise j) (dy i) (dx i) (dy j) (dx j) usfac hu hsz zm a ha ν
    (hn i) (hn j) hmargin
  exact ⟨ry, rx, h1, .mk' h2, fun i j ra => align_exposure cfg' f (noise j) _ _ _ _ _ _ (h2 i j).1 (h2 i j).2.2.2.1 ra⟩

omit [NeZero ny] [NeZero nx] in
theorem r2_add_le (a b : Fin ny × Fin nx → ℝ) : r2 (fun p => a p + b p) ≤ r2 a + r2 b := by
  have := l2_add (fun p => (a p : ℂ)) (fun p => (b p : ℂ))
  rw [l2_ofReal, l2_ofReal] at this
  rw [← l2_ofReal]
  simpa using this

theorem r2_roll (dy dx : ℤ) (a : Fin ny × Fin nx → ℝ) : r2 (Spec.roll2 dy dx a) = r2 a := by
  unfold r2; rw [roll2_energy]

omit [NeZero ny] [NeZero nx] in
theorem r2_neg (a : Fin ny × Fin nx → ℝ) : r2 (fun p => -a p) = r2 a := by unfold r2; simp

/-- two exposures -/
theorem chi2_exposures (cfg : FFTConfig) (st : Stats) (hst : Spec.validStats st)
    (f n m : Fin ny × Fin nx → ℝ) (hy : 2 ≤ ny) (cy cx dy dx : ℤ)
    (err : ErrArg ny nx) (s : ℝ) (hs : s ≠ 0) (he : Spec.isScalarErr err s) (ν : ℝ)
    (hn : Real.sqrt (∑ p, n p ^ 2) ≤ ν) (hm : Real.sqrt (∑ p, m p ^ 2) ≤ ν)
    (hmargin : ∀ gy gx : ℤ, ¬ (gy ≡ 0 [ZMOD ny] ∧ gx ≡ 0 [ZMOD nx]) → 6 * ν < Real.sqrt (∑ p, (Spec.roll2 gy gx f p - f p) ^ 2))
    (nf : ℝ) (mas : ℕ) (mns : ℝ) (ah : Bool) (hf : Spec.fits ah ny nx) :
    ∃ rx ry : ℤ,
      chi2Shift cfg st (realArr (Spec.exposure f cy cx n)) (realArr (Spec.exposure f dy dx m)) err (.int 1) false nf false false
        false mas mns ah = .ok [.num rx, .num ry] ∧
      rx ≡ dx - cx [ZMOD nx] ∧ -(nx : ℤ) ≤ 2 * rx ∧ 2 * rx < nx ∧
      ry ≡ dy - cy [ZMOD ny] ∧ -(ny : ℤ) ≤ 2 * ry ∧ 2 * ry < ny := by
  set im1 := Spec.exposure f cy cx n with him1
  set w : Fin ny × Fin nx → ℝ := fun p => m p - Spec.roll2 (dy - cy) (dx - cx) n p with hw
  have hroll : ∀ ey ex : ℤ, Spec.roll2 ey ex im1 = fun p => Spec.roll2 (ey + cy) (ex + cx) f p + Spec.roll2 ey ex n p := by
    intro ey ex
    rw [← roll2_add ey cy ex cx f]
    rfl
  have him2 : Spec.exposure f dy dx m = fun p => Spec.roll2 (dy - cy) (dx - cx) im1 p + w p := by
    funext p
    rw [hroll, hw]
    simp only [sub_add_cancel, Spec.exposure]
    ring
  have hn' : r2 n ≤ ν := hn
  have hm' : r2 m ≤ ν := hm
  have hwν : r2 w ≤ 2 * ν := by
    have := r2_add_le m (fun p => -Spec.roll2 (dy - cy) (dx - cx) n p)
    rw [r2_neg, r2_roll] at this
    have e : (fun p => m p + -Spec.roll2 (dy - cy) (dx - cx) n p) = w := by funext p; rw [hw]; ring
    rw [e] at this
    linarith
  obtain ⟨rx, ry, h, h'⟩ := C96_roll_with_noise cfg st hst im1 w hy (dy - cy) (dx - cx) err (fun _ => s) (fun _ => hs) (.inl ⟨s, he, fun _ => rfl⟩)
    (fun ey ex hne => by
      have hs2 : 0 < s ^ 2 := by positivity
      rw [← Finset.sum_div, ← Finset.sum_div, ← mul_div_assoc, div_lt_div_iff_of_pos_right hs2]
      have hne' : ¬ (ey - (dy - cy) ≡ 0 [ZMOD ny] ∧ ex - (dx - cx) ≡ 0 [ZMOD nx]) := by
        rintro ⟨g1, g2⟩
        refine hne ⟨?_, ?_⟩
        · have := g1.add_right (dy - cy); simpa using this
        · have := g2.add_right (dx - cx); simpa using this
      have hbig := hmargin _ _ hne'
      set D : Fin ny × Fin nx → ℝ := fun p => Spec.roll2 ey ex im1 p - Spec.roll2 (dy - cy) (dx - cx) im1 p with hD
      -- the scene part is the difference of two exposures minus the disturbances
      have e1 : r2 (fun p => Spec.roll2 (ey - (dy - cy)) (ex - (dx - cx)) f p - f p)
          = r2 (fun p => D p + (-Spec.roll2 ey ex n p + Spec.roll2 (dy - cy) (dx - cx) n p)) := by
        rw [← r2_roll dy dx]
        congr 1
        funext p
        rw [hD]
        simp only [hroll]
        have q1 : Spec.roll2 dy dx (fun p => Spec.roll2 (ey - (dy - cy)) (ex - (dx - cx)) f p - f p) p
            = Spec.roll2 dy dx (Spec.roll2 (ey - (dy - cy)) (ex - (dx - cx)) f) p - Spec.roll2 dy dx f p := rfl
        rw [q1, roll2_add, show dy + (ey - (dy - cy)) = ey + cy by ring, show dx + (ex - (dx - cx)) = ex + cx by ring,
          sub_add_cancel, sub_add_cancel]
        ring
      have e2 := r2_add_le D (fun p => -Spec.roll2 ey ex n p + Spec.roll2 (dy - cy) (dx - cx) n p)
      have e3 := r2_add_le (fun p => -Spec.roll2 ey ex n p) (Spec.roll2 (dy - cy) (dx - cx) n)
      rw [r2_neg, r2_roll, r2_roll] at e3
      have hbig' : 6 * ν < r2 (fun p => Spec.roll2 (ey - (dy - cy)) (ex - (dx - cx)) f p - f p) := hbig
      rw [e1] at hbig'
      have hlt : 2 * r2 w < r2 D := by linarith
      have h0 := r2_nonneg w
      have hsq : (2 * r2 w) ^ 2 < r2 D ^ 2 := by
        have := r2_nonneg D
        nlinarith
      have s1 : r2 w ^ 2 = ∑ p, w p ^ 2 := Real.sq_sqrt (Finset.sum_nonneg fun p _ => sq_nonneg _)
      have s2 : r2 D ^ 2 = ∑ p, D p ^ 2 := Real.sq_sqrt (Finset.sum_nonneg fun p _ => sq_nonneg _)
      rw [mul_pow, s1, s2] at hsq
      linarith)
    nf mas mns ah hf
  rw [← him2] at h
  exact ⟨rx, ry, h, h'⟩

/-- C145, `chi2_shift` with `upsample_factor=1` and a scalar error: if the scene differs from every other roll of itself by more than `6·ν` (root of
the sum of squares), then every pair of exposures is registered exactly, the answers are consistent, and the exposures shifted back by them are
aligned exactly. -/
theorem C145_chi2_stack {ι : Type} (cfg cfg' : FFTConfig) (st : Stats) (hst : Spec.validStats st) (hy : 2 ≤ ny)
    (f : Fin ny × Fin nx → ℝ) (dy dx : ι → ℤ) (noise : ι → Fin ny × Fin nx → ℝ)
    (err : ErrArg ny nx) (s : ℝ) (hs : s ≠ 0) (he : Spec.isScalarErr err s) (ν : ℝ)
    (hn : ∀ k, Real.sqrt (∑ p, noise k p ^ 2) ≤ ν)
    (hmargin : ∀ gy gx : ℤ, ¬ (gy ≡ 0 [ZMOD ny] ∧ gx ≡ 0 [ZMOD nx]) → 6 * ν < Real.sqrt (∑ p, (Spec.roll2 gy gx f p - f p) ^ 2))
    (nf : ℝ) (mas : ℕ) (mns : ℝ) (ah : Bool) (hf : Spec.fits ah ny nx) :
    ∃ ry rx : ι → ι → ℤ,
      (∀ i j, chi2Shift cfg st (realArr (Spec.exposure f (dy i) (dx i) (noise i))) (realArr (Spec.exposure f (dy j) (dx j) (noise j)))
        err (.int 1) false nf false false false mas mns ah = .ok [.num (rx i j), .num (ry i j)]) ∧
      Spec.consistent ny nx dy dx ry rx ∧
      ∀ i j ra, shift2d cfg' (rArr (Spec.exposure f (dy j) (dx j) (noise j))) (-(rx i j : ℝ)) (-(ry i j : ℝ)) 0 ra true
        = .real (realArr fun p => Spec.roll2 (dy i) (dx i) f p + Spec.roll2 (dy i - dy j) (dx i - dx j) (noise j) p) := by
  choose rx ry h1 h2 using fun i j => chi2_exposures cfg st hst f (noise i) (noise j) hy (dy i) (dx i) (dy j) (dx j) err s hs he ν
    (hn i) (hn j) hmargin nf mas mns ah hf
  exact ⟨ry, rx, h1, .mk' h2, fun i j ra => align_exposure cfg' f (noise j) _ _ _ _ _ _ (h2 i j).1 (h2 i j).2.2.2.1 ra⟩

/-! ### a single bright pixel -/

/-- A scene with one bright pixel of height `A`. -/
def Spec.spot (ny nx : ℕ) [NeZero ny] [NeZero nx] (A : ℝ) (p : Fin ny × Fin nx) : ℝ := if p = 0 then A else 0

theorem spot_energy (A : ℝ) : ∑ p, Spec.spot ny nx A p ^ 2 = A ^ 2 := by
  unfold Spec.spot
  simp [apply_ite (· ^ 2)]

theorem spot_roll_zero (A : ℝ) (gy gx : ℤ) (h : ¬ (gy ≡ 0 [ZMOD ny] ∧ gx ≡ 0 [ZMOD nx])) : Spec.roll2 gy gx (Spec.spot ny nx A) 0 = 0 := by
  unfold Spec.roll2 Spec.spot
  refine if_neg fun h0 => h ?_
  have w : ∀ (n : ℕ) [NeZero n] (d : ℤ), Spec.wrap n ((((0 : Fin n) : ℕ) : ℤ) - d) = 0 → d ≡ 0 [ZMOD n] := by
    intro n _ d hw
    rw [Spec.wrap_eq_iff] at hw
    have := hw.neg
    simpa using this
  exact ⟨w ny gy (congrArg Prod.fst h0), w nx gx (congrArg Prod.snd h0)⟩

/-- the autocorrelation of a single bright pixel -/
theorem spot_margin (A : ℝ) (hA : 0 < A) (t : ℝ) (ht : t ∈ Spec.candidates 1) (u : ℝ) (hu : u ∈ Spec.candidates 1)
    (hne : ¬ ((∃ z : ℤ, t = z * ny) ∧ ∃ z : ℤ, u = z * nx)) :
    ‖Spec.cc (Spec.spot ny nx A) (Spec.spot ny nx A) t u‖ + 2 * (2 * Real.sqrt (∑ p, Spec.spot ny nx A p ^ 2) * (A / 5) + (A / 5) ^ 2)
      < ∑ p, Spec.spot ny nx A p ^ 2 := by
  have int : ∀ t ∈ Spec.candidates 1, ∃ z : ℤ, t = z := by
    rintro t (⟨z, hz⟩ | ⟨h, -⟩)
    · exact ⟨z, by simpa using hz⟩
    · omega
  obtain ⟨j, rfl⟩ := int t ht
  obtain ⟨k, rfl⟩ := int u hu
  have hne' : ¬ (j ≡ 0 [ZMOD ny] ∧ k ≡ 0 [ZMOD nx]) := by
    rintro ⟨g1, g2⟩
    obtain ⟨z, hz⟩ := Int.modEq_zero_iff_dvd.1 g1
    obtain ⟨w, hw⟩ := Int.modEq_zero_iff_dvd.1 g2
    exact hne ⟨⟨z, by rw [hz]; push_cast; ring⟩, ⟨w, by rw [hw]; push_cast; ring⟩⟩
  have h0 : Spec.cc (Spec.spot ny nx A) (Spec.spot ny nx A) j k = 0 := by
    unfold Spec.cc
    refine Finset.sum_eq_zero fun p _ => ?_
    rw [cshift_int]
    by_cases hp : p = 0
    · rw [hp, spot_roll_zero A j k hne']; simp
    · rw [show Spec.spot ny nx A p = 0 from if_neg hp]; simp
  rw [h0, norm_zero, spot_energy, Real.sqrt_sq hA.le]
  nlinarith

/-- C145 (a case that meets the conditions): a bright pixel of height `A`, every exposure disturbed by less than a fifth of that height. -/
theorem C145_register_stack_example {ι : Type} (cfg cfg' : FFTConfig) (A : ℝ) (hA : 0 < A) (dy dx : ι → ℤ) (noise : ι → Fin ny × Fin nx → ℝ)
    (hn : ∀ k, Real.sqrt (∑ p, noise k p ^ 2) ≤ A / 5) :
    ∃ ry rx : ι → ι → ℤ,
      (∀ i j, registerImages cfg (realArr (Spec.exposure (Spec.spot ny nx A) (dy i) (dx i) (noise i)))
        (realArr (Spec.exposure (Spec.spot ny nx A) (dy j) (dx j) (noise j))) 1 false false false none = .ok [.num (rx i j), .num (ry i j)]) ∧
      Spec.consistent ny nx dy dx ry rx := by
  obtain ⟨ry, rx, h1, h2, -⟩ := C145_register_stack cfg cfg' (Spec.spot ny nx A) dy dx noise 1 le_rfl (.inl rfl) false (Spec.spot ny nx A)
    (fun p => by simp) (A / 5) hn (spot_margin A hA)
  exact ⟨ry, rx, h1, h2⟩

/-- C145 (a case that meets the conditions), `chi2_shift`: a bright pixel of height `A`, every exposure disturbed by less than a sixth of it. -/
theorem C145_chi2_stack_example {ι : Type} (cfg cfg' : FFTConfig) (st : Stats) (hst : Spec.validStats st) (hy : 2 ≤ ny) (A : ℝ) (hA : 0 < A)
    (dy dx : ι → ℤ) (noise : ι → Fin ny × Fin nx → ℝ) (hn : ∀ k, Real.sqrt (∑ p, noise k p ^ 2) ≤ A / 7)
    (nf : ℝ) (mas : ℕ) (mns : ℝ) (ah : Bool) (hf : Spec.fits ah ny nx) :
    ∃ ry rx : ι → ι → ℤ,
      (∀ i j, chi2Shift cfg st (realArr (Spec.exposure (Spec.spot ny nx A) (dy i) (dx i) (noise i)))
        (realArr (Spec.exposure (Spec.spot ny nx A) (dy j) (dx j) (noise j))) .none (.int 1) false nf false false false mas mns ah
        = .ok [.num (rx i j), .num (ry i j)]) ∧
      Spec.consistent ny nx dy dx ry rx := by
  obtain ⟨ry, rx, h1, h2, -⟩ := C145_chi2_stack cfg cfg' st hst hy (Spec.spot ny nx A) dy dx noise .none 1 one_ne_zero rfl (A / 7) hn
    (fun gy gx hne => by
      refine Real.lt_sqrt_of_sq_lt ?_
      have h0 := spot_roll_zero A gy gx hne
      have := Finset.single_le_sum (f := fun p => (Spec.roll2 gy gx (Spec.spot ny nx A) p - Spec.spot ny nx A p) ^ 2)
        (fun p _ => sq_nonneg _) (Finset.mem_univ (0 : Fin ny × Fin nx))
      simp only [h0, show Spec.spot ny nx A 0 = A from if_pos rfl] at this
      nlinarith)
    nf mas mns ah hf
  exact ⟨ry, rx, h1, h2⟩

end

end ImgReg
