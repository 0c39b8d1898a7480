import Verif.Props.CrossCorrSymm
import Verif.Props.RegisterNoise

/-!
# Accuracy of `cross_correlation_shifts` (C121)

How large the sub-pixel correction can be, and what noise does to the answer.
-/

open Finset

namespace ImgReg

section
variable {ny nx : ℕ} [NeZero ny] [NeZero nx]

/-! ### the size of the correction -/

omit [NeZero ny] [NeZero nx] in
/-- the local derivatives at an interior maximum -/
theorem localFit_peak (c : Fin ny × Fin nx → ℝ) (loc : Fin ny × Fin nx) (hmax : ∀ j, c j ≤ c loc)
    (hy : 1 ≤ (loc.1 : ℕ)) (hy' : (loc.1 : ℕ) + 2 ≤ ny) (hx : 1 ≤ (loc.2 : ℕ)) (hx' : (loc.2 : ℕ) + 2 ≤ nx) :
    2 * |(Spec.localFit c loc).fx| ≤ -(Spec.localFit c loc).X ∧ 2 * |(Spec.localFit c loc).fy| ≤ -(Spec.localFit c loc).Y := by
  have hc := ext0_in c loc
  have e1 := ext0_eq c (y := ((loc.1 : ℕ) : ℤ)) (x := ((loc.2 : ℕ) : ℤ) + 1) (loc.1, ⟨(loc.2 : ℕ) + 1, by omega⟩) rfl (by simp)
  have e2 := ext0_eq c (y := ((loc.1 : ℕ) : ℤ)) (x := ((loc.2 : ℕ) : ℤ) - 1) (loc.1, ⟨(loc.2 : ℕ) - 1, by omega⟩) rfl (by simp; omega)
  have e3 := ext0_eq c (y := ((loc.1 : ℕ) : ℤ) + 1) (x := ((loc.2 : ℕ) : ℤ)) (⟨(loc.1 : ℕ) + 1, by omega⟩, loc.2) (by simp) rfl
  have e4 := ext0_eq c (y := ((loc.1 : ℕ) : ℤ) - 1) (x := ((loc.2 : ℕ) : ℤ)) (⟨(loc.1 : ℕ) - 1, by omega⟩, loc.2) (by simp; omega) rfl
  have m1 := hmax (loc.1, ⟨(loc.2 : ℕ) + 1, by omega⟩)
  have m2 := hmax (loc.1, ⟨(loc.2 : ℕ) - 1, by omega⟩)
  have m3 := hmax (⟨(loc.1 : ℕ) + 1, by omega⟩, loc.2)
  have m4 := hmax (⟨(loc.1 : ℕ) - 1, by omega⟩, loc.2)
  unfold Spec.localFit Spec.curvX Spec.curvY Spec.slopeX Spec.slopeY
  simp only
  rw [if_pos (by omega), if_pos (by omega), e1, e2, e3, e4, hc]
  constructor
  · rcases abs_cases ((c (loc.1, ⟨(loc.2 : ℕ) + 1, by omega⟩) - c (loc.1, ⟨(loc.2 : ℕ) - 1, by omega⟩)) / 2) with h | h <;>
      linarith [h.1]
  · rcases abs_cases ((c (⟨(loc.1 : ℕ) + 1, by omega⟩, loc.2) - c (⟨(loc.1 : ℕ) - 1, by omega⟩, loc.2)) / 2) with h | h <;>
      linarith [h.1]

/-- C121: at a peak in the interior of the correlation map, the sub-pixel correction along x is at most
`(X² + |M|·|Y|)/(2·|X·Y - M²|)` and along y `(Y² + |M|·|X|)/(2·|X·Y - M²|)`, where `X`, `Y` are the curvatures of the map at the peak and `M`
its mixed derivative. In particular a round peak (`X = Y`, `M = 0`) is corrected by at most half a pixel. -/
theorem C121_step_bound (cfg : FFTConfig) (agpy : Agpy ny nx) (im1 im2 : Fin ny × Fin nx → Pix)
    (e1 e2 : Option (Fin ny × Fin nx → Pix)) (zm ah : Bool) (hf : Spec.fits ah ny nx)
    (loc : Fin ny × Fin nx) (hloc : Np.IsFirstMax (Spec.xcorr (prep zm im1) (prep zm im2)) loc)
    (h0 : Spec.xcorr (prep zm im1) (prep zm im2) loc ≠ 0)
    (hy : 1 ≤ (loc.1 : ℕ)) (hy' : (loc.1 : ℕ) + 2 ≤ ny) (hx : 1 ≤ (loc.2 : ℕ)) (hx' : (loc.2 : ℕ) + 2 ≤ nx)
    (q : Spec.LocalFit) (hq : q = Spec.localFit (Spec.ccMap (prep zm im1) (prep zm im2)) loc)
    (hdet : q.M ^ 2 - q.X * q.Y ≠ 0) :
    ∃ rx ry : ℝ, crossCorrelationShifts cfg agpy im1 im2 e1 e2 none false false zm ah = .ok [.fin rx, .fin ry] ∧
      |rx - (Spec.ccRef nx - ((loc.2 : ℕ) : ℝ))| ≤ (q.X ^ 2 + |q.M| * |q.Y|) / (2 * |q.X * q.Y - q.M ^ 2|) ∧
      |ry - (Spec.ccRef ny - ((loc.1 : ℕ) : ℝ))| ≤ (q.Y ^ 2 + |q.M| * |q.X|) / (2 * |q.X * q.Y - q.M ^ 2|) ∧
      (q.X = q.Y → q.M = 0 → |rx - (Spec.ccRef nx - ((loc.2 : ℕ) : ℝ))| ≤ 1 / 2 ∧ |ry - (Spec.ccRef ny - ((loc.1 : ℕ) : ℝ))| ≤ 1 / 2) := by
  have h := C51_formula cfg agpy im1 im2 e1 e2 zm ah hf loc hloc h0 (fun h => by rw [h] at hy; exact absurd hy (by simp))
    (fun h => by rw [h] at hx; exact absurd hx (by simp)) q hq
  rw [if_neg hdet] at h
  have hm : ∀ j, Spec.ccMap (prep zm im1) (prep zm im2) j ≤ Spec.ccMap (prep zm im1) (prep zm im2) loc := fun j =>
    div_le_div_of_nonneg_right (hloc.1 j) size_pos.le
  obtain ⟨p1, p2⟩ := localFit_peak _ loc hm hy hy' hx hx'
  rw [← hq] at p1 p2
  obtain ⟨X, Y, M, fx, fy⟩ := q
  simp only at h p1 p2 hdet ⊢
  have hd : 0 < |X * Y - M ^ 2| := abs_pos.2 fun hc => hdet (by linarith)
  have hX : |X| = -X := abs_of_nonpos (by linarith [abs_nonneg fx])
  have hY : |Y| = -Y := abs_of_nonpos (by linarith [abs_nonneg fy])
  have key : ∀ A B f g r R : ℝ, 2 * |f| ≤ -A → 2 * |g| ≤ -B → r = R - (A * f + M * g) / (M ^ 2 - X * Y) →
      |r - R| ≤ (A ^ 2 + |M| * |B|) / (2 * |X * Y - M ^ 2|) := by
    intro A B f g r R ha hb hr
    rw [hr, sub_sub_cancel_left, abs_neg, abs_div, show M ^ 2 - X * Y = -(X * Y - M ^ 2) by ring, abs_neg,
      div_le_div_iff₀ hd (by positivity)]
    have h1 : |A * f + M * g| ≤ |A| * |f| + |M| * |g| := by
      refine (abs_add_le _ _).trans ?_
      rw [abs_mul, abs_mul]
    have hA : |A| = -A := abs_of_nonpos (by linarith [abs_nonneg f])
    have hB : |B| = -B := abs_of_nonpos (by linarith [abs_nonneg g])
    have h2 : 2 * |A * f + M * g| ≤ A ^ 2 + |M| * |B| := by
      have t1 : |A| * (2 * |f|) ≤ |A| * |A| := mul_le_mul_of_nonneg_left (by rw [hA]; exact ha) (abs_nonneg _)
      have t2 : |M| * (2 * |g|) ≤ |M| * |B| := mul_le_mul_of_nonneg_left (by rw [hB]; exact hb) (abs_nonneg _)
      rw [abs_mul_abs_self] at t1
      nlinarith
    nlinarith
  have k1 := key X Y fx fy _ (Spec.ccRef nx - ((loc.2 : ℕ) : ℝ)) p1 p2 rfl
  have k2 := key Y X fy fx _ (Spec.ccRef ny - ((loc.1 : ℕ) : ℝ)) p2 p1 rfl
  refine ⟨_, _, h, k1, k2, fun hxy hm0 => ?_⟩
  subst hxy hm0
  have hne : X ^ 2 ≠ 0 := fun hc => hdet (by nlinarith)
  have e : (X ^ 2 + |(0 : ℝ)| * |X|) / (2 * |X * X - 0 ^ 2|) = 1 / 2 := by
    rw [abs_zero, zero_mul, add_zero, show X * X - 0 ^ 2 = X ^ 2 by ring, abs_of_nonneg (sq_nonneg X)]
    rw [mul_comm, ← div_div, div_self hne]
  rw [e] at k1 k2
  exact ⟨k1, k2⟩

/-! ### noise -/

/-- squared distance between an image and itself moved by `(s, t)` -/
noncomputable def Spec.selfDist (im : Fin ny × Fin nx → ℝ) (s t : ℤ) : ℝ := ∑ p, (im p - im (Spec.move s t p)) ^ 2

theorem xcorr_add (a b c : Fin ny × Fin nx → ℝ) (i : Fin ny × Fin nx) :
    Spec.xcorr a (fun p => b p + c p) i = Spec.xcorr a b i + Spec.xcorr a c i := by
  unfold Spec.xcorr
  rw [← Finset.sum_add_distrib]
  exact Finset.sum_congr rfl fun p _ => by ring

theorem xcorr_abs_le (a b : Fin ny × Fin nx → ℝ) (i : Fin ny × Fin nx) :
    |Spec.xcorr a b i| ≤ Real.sqrt (∑ p, a p ^ 2) * Real.sqrt (∑ p, b p ^ 2) := by
  unfold Spec.xcorr
  rw [← Spec.sum_move ((Spec.zeroLag ny : ℤ) - ((i.1 : ℕ) : ℤ)) ((Spec.zeroLag nx : ℤ) - ((i.2 : ℕ) : ℤ)) fun p => b p ^ 2]
  rw [← Real.sqrt_mul (Finset.sum_nonneg fun p _ => sq_nonneg _)]
  exact Real.abs_le_sqrt (Finset.sum_mul_sq_le_sq_mul_sq _ _ _)

omit [NeZero ny] [NeZero nx] in
theorem ext0_add (b c : Fin ny × Fin nx → ℝ) (y x : ℤ) :
    Spec.ext0 (fun i => b i + c i) y x = Spec.ext0 b y x + Spec.ext0 c y x := by
  unfold Spec.ext0
  split_ifs
  · rfl
  · rw [add_zero]

omit [NeZero ny] [NeZero nx] in
theorem ext0_abs_le (c : Fin ny × Fin nx → ℝ) (δ : ℝ) (h0 : 0 ≤ δ) (h : ∀ i, |c i| ≤ δ) (y x : ℤ) : |Spec.ext0 c y x| ≤ δ := by
  unfold Spec.ext0
  split_ifs
  · exact h _
  · rw [abs_zero]; exact h0

omit [NeZero ny] [NeZero nx] in
/-- the local derivatives of a disturbed map -/
theorem localFit_add (b c : Fin ny × Fin nx → ℝ) (loc : Fin ny × Fin nx) (δ : ℝ) (h0 : 0 ≤ δ) (h : ∀ i, |c i| ≤ δ)
    (hy' : (loc.1 : ℕ) + 2 ≤ ny) (hx' : (loc.2 : ℕ) + 2 ≤ nx) :
    let q := Spec.localFit (fun i => b i + c i) loc
    let q0 := Spec.localFit b loc
    |q.X - q0.X| ≤ 4 * δ ∧ |q.Y - q0.Y| ≤ 4 * δ ∧ |q.M - q0.M| ≤ δ ∧ |q.fx - q0.fx| ≤ δ ∧ |q.fy - q0.fy| ≤ δ := by
  have hb := fun y x => abs_le.1 (ext0_abs_le c δ h0 h y x)
  unfold Spec.localFit Spec.curvX Spec.curvY Spec.slopeX Spec.slopeY Spec.mixed
  simp only [ext0_add]
  rw [if_pos (by omega), if_pos (by omega), if_pos (by omega), if_pos (by omega)]
  generalize ((loc.1 : ℕ) : ℤ) = y
  generalize ((loc.2 : ℕ) : ℤ) = x
  have b0 := hb y x
  have b1 := hb y (x + 1)
  have b2 := hb y (x - 1)
  have b3 := hb (y + 1) x
  have b4 := hb (y - 1) x
  have b5 := hb (y + 1) (x + 1)
  have b6 := hb (y + 1) (x - 1)
  have b7 := hb (y - 1) (x + 1)
  have b8 := hb (y - 1) (x - 1)
  refine ⟨abs_le.2 ⟨?_, ?_⟩, abs_le.2 ⟨?_, ?_⟩, abs_le.2 ⟨?_, ?_⟩, abs_le.2 ⟨?_, ?_⟩, abs_le.2 ⟨?_, ?_⟩⟩ <;> linarith

/-- the correction computed from disturbed derivatives -/
theorem step_close (D E T ε N X Y M f g M0 : ℝ) (hN : 0 < N) (hε : 0 ≤ ε) (hT : |M0| = T) (hD : 4 * ε < D) (hE : 4 * ε < E)
    (hX : |N * X + D| ≤ 4 * ε) (hY : |N * Y + E| ≤ 4 * ε) (hM : |N * M - M0| ≤ ε) (hf : |N * f| ≤ ε) (hg : |N * g| ≤ ε)
    (hpos : 0 < (D - 4 * ε) * (E - 4 * ε) - (T + ε) ^ 2) :
    M ^ 2 - X * Y ≠ 0 ∧
      |(X * f + M * g) / (M ^ 2 - X * Y)| ≤ ε * (D + T + 5 * ε) / ((D - 4 * ε) * (E - 4 * ε) - (T + ε) ^ 2) := by
  have e : ∀ u v w z : ℝ, N * u * (N * v) + N * w * (N * z) = N ^ 2 * (u * v + w * z) := fun u v w z => by ring
  have hden : (D - 4 * ε) * (E - 4 * ε) - (T + ε) ^ 2 ≤ N ^ 2 * (X * Y - M ^ 2) := by
    obtain ⟨x1, x2⟩ := abs_le.1 hX
    obtain ⟨y1, y2⟩ := abs_le.1 hY
    have hm : |N * M| ≤ T + ε := by
      calc |N * M| = |M0 + (N * M - M0)| := by congr 1; ring
        _ ≤ |M0| + |N * M - M0| := abs_add_le _ _
        _ ≤ T + ε := by linarith
    have h1 : (D - 4 * ε) * (E - 4 * ε) ≤ (-(N * X)) * (-(N * Y)) :=
      mul_le_mul (by linarith) (by linarith) (by linarith) (by linarith)
    have h2 : (N * M) ^ 2 ≤ (T + ε) ^ 2 := by
      rw [← sq_abs]
      exact pow_le_pow_left₀ (abs_nonneg _) hm 2
    nlinarith
  have hm : |N * M| ≤ T + ε := by
    calc |N * M| = |M0 + (N * M - M0)| := by congr 1; ring
      _ ≤ |M0| + |N * M - M0| := abs_add_le _ _
      _ ≤ T + ε := by linarith
  have hx : |N * X| ≤ D + 4 * ε := by
    obtain ⟨x1, x2⟩ := abs_le.1 hX
    rw [abs_le]; constructor <;> linarith
  have hnum : |N ^ 2 * (X * f + M * g)| ≤ ε * (D + T + 5 * ε) := by
    rw [← e]
    refine (abs_add_le _ _).trans ?_
    rw [abs_mul (N * X), abs_mul (N * M)]
    have h1 := mul_le_mul hx hf (abs_nonneg _) (by linarith)
    have h2 := mul_le_mul hm hg (abs_nonneg _) (by linarith [abs_nonneg M0])
    linarith
  have hN2 : (0 : ℝ) < N ^ 2 := by positivity
  have hXY : 0 < X * Y - M ^ 2 := by
    by_contra hc
    have := mul_nonpos_of_nonneg_of_nonpos hN2.le (not_lt.1 hc)
    linarith
  refine ⟨fun hc => by linarith, ?_⟩
  rw [show (X * f + M * g) / (M ^ 2 - X * Y) = -((N ^ 2 * (X * f + M * g)) / (N ^ 2 * (X * Y - M ^ 2))) by
    rw [mul_div_mul_left _ _ hN2.ne', ← div_neg, neg_sub], abs_neg, abs_div, abs_of_pos (mul_pos hN2 hXY)]
  exact div_le_div₀ ((abs_nonneg _).trans hnum) hnum hpos hden

/-- C121: accuracy under noise. Let `im2` be `im1` rolled by `(dy, dx)` (the peak not on the border of the map) plus any disturbance
`noise`; let `ε = ‖im1‖·‖noise‖` (root sums of squares) and `D(s, t)` the squared distance between `im1` and `im1` moved by `(s, t)`. If
every `D(s, t)` other than for multiples of the image size exceeds `4ε`, and `(T + ε)² < (D(0,1) - 4ε)·(D(1,0) - 4ε)` with
`T = |D(1,-1) - D(1,1)|/4`, then `cross_correlation_shifts` returns two finite numbers, which differ from the noise-free answer (`dx`, `dy`, plus
half a pixel along axes of odd size) by at most `ε·(D(0,1) + T + 5ε)/((D(0,1) - 4ε)·(D(1,0) - 4ε) - (T + ε)²)` along x, and the same with
`D(1,0)` in the numerator along y. In particular the error goes to 0 with the noise. -/
theorem C121_noise (cfg : FFTConfig) (agpy : Agpy ny nx) (im1 noise : Fin ny × Fin nx → ℝ) (dy dx : ℤ)
    (hy1 : dy + 1 ≤ ((ny - 1) / 2 : ℕ)) (hy2 : ((ny - 1) / 2 : ℕ) + 2 ≤ ny + dy)
    (hx1 : dx + 1 ≤ ((nx - 1) / 2 : ℕ)) (hx2 : ((nx - 1) / 2 : ℕ) + 2 ≤ nx + dx)
    (e1 e2 : Option (Fin ny × Fin nx → Pix)) (zm ah : Bool) (hf : Spec.fits ah ny nx)
    (ε : ℝ) (hε : ε = Real.sqrt (∑ p, im1 p ^ 2) * Real.sqrt (∑ p, noise p ^ 2))
    (hmargin : ∀ s t : ℤ, ¬ ((ny : ℤ) ∣ s ∧ (nx : ℤ) ∣ t) → 4 * ε < Spec.selfDist im1 s t)
    (T : ℝ) (hT : T = |Spec.selfDist im1 1 (-1) - Spec.selfDist im1 1 1| / 4)
    (Δ : ℝ) (hΔ : Δ = (Spec.selfDist im1 0 1 - 4 * ε) * (Spec.selfDist im1 1 0 - 4 * ε) - (T + ε) ^ 2) (hpos : 0 < Δ) :
    ∃ rx ry : ℝ, crossCorrelationShifts cfg agpy (realArr im1) (realArr fun p => Spec.roll2 dy dx im1 p + noise p) e1 e2 none
        false false zm ah = .ok [.fin rx, .fin ry] ∧
      |rx - (dx + if nx % 2 = 1 then 1 / 2 else 0)| ≤ ε * (Spec.selfDist im1 0 1 + T + 5 * ε) / Δ ∧
      |ry - (dy + if ny % 2 = 1 then 1 / 2 else 0)| ≤ ε * (Spec.selfDist im1 1 0 + T + 5 * ε) / Δ := by
  have hε0 : 0 ≤ ε := by rw [hε]; positivity
  have hT0 : 0 ≤ T := by rw [hT]; positivity
  set a := prep zm (realArr im1) with hadef
  have ha : ∀ p, a p = im1 p - if zm then Spec.mean im1 else 0 := by intro p; rw [hadef, prep_real]
  set n' : Fin ny × Fin nx → ℝ := fun p => noise p - if zm then Spec.mean noise else 0 with hn'
  have hb : prep zm (realArr fun p => Spec.roll2 dy dx im1 p + noise p) = fun p => Spec.roll2 dy dx a p + n' p := by
    rw [prep_real]
    funext p
    have e : Spec.mean (fun p => Spec.roll2 dy dx im1 p + noise p) = Spec.mean im1 + Spec.mean noise := by
      unfold Spec.mean
      rw [Finset.sum_add_distrib, Spec.roll2_sum, add_div]
    have e2 : Spec.roll2 dy dx a p = Spec.roll2 dy dx im1 p - if zm then Spec.mean im1 else 0 := by
      unfold Spec.roll2; rw [ha]
    rw [e, e2, hn']
    split_ifs <;> ring
  have hsd : ∀ s t, ∑ p, (a p - a (Spec.move s t p)) ^ 2 = Spec.selfDist im1 s t := by
    intro s t
    unfold Spec.selfDist
    refine Finset.sum_congr rfl fun p _ => ?_
    rw [ha, ha]; ring
  have hν : ∀ i, |Spec.xcorr a n' i| ≤ ε := by
    intro i
    refine (xcorr_abs_le a n' i).trans ?_
    rw [hε]
    refine mul_le_mul (Real.sqrt_le_sqrt ?_) (Real.sqrt_le_sqrt (sum_sub_mean_le noise zm)) (Real.sqrt_nonneg _) (Real.sqrt_nonneg _)
    have := sum_sub_mean_le im1 zm
    simpa only [ha] using this
  let loc : Fin ny × Fin nx := (⟨((Spec.zeroLag ny : ℤ) - dy).toNat, by unfold Spec.zeroLag; omega⟩,
    ⟨((Spec.zeroLag nx : ℤ) - dx).toNat, by unfold Spec.zeroLag; omega⟩)
  have ly : ((loc.1 : ℕ) : ℤ) = Spec.zeroLag ny - dy := by
    simp only [loc]; rw [Int.toNat_of_nonneg]; unfold Spec.zeroLag; omega
  have lx : ((loc.2 : ℕ) : ℤ) = Spec.zeroLag nx - dx := by
    simp only [loc]; rw [Int.toNat_of_nonneg]; unfold Spec.zeroLag; omega
  have zy : Spec.zeroLag ny = (ny - 1) / 2 := rfl
  have zx : Spec.zeroLag nx = (nx - 1) / 2 := rfl
  have b1 : 1 ≤ (loc.1 : ℕ) := by omega
  have b2 : (loc.1 : ℕ) + 2 ≤ ny := by omega
  have b3 : 1 ≤ (loc.2 : ℕ) := by omega
  have b4 : (loc.2 : ℕ) + 2 ≤ nx := by omega
  have hx0 : Spec.xcorr a (Spec.roll2 dy dx a) loc = Spec.autocorr a 0 0 := by
    rw [xcorr_roll, ly, lx]
    congr 1 <;> ring
  have hpeak : ∀ j, j ≠ loc → Spec.xcorr a (fun p => Spec.roll2 dy dx a p + n' p) j
      < Spec.xcorr a (fun p => Spec.roll2 dy dx a p + n' p) loc := by
    intro j hj
    rw [xcorr_add, xcorr_add, hx0, xcorr_roll]
    have hnd : ¬ ((ny : ℤ) ∣ (Spec.zeroLag ny : ℤ) - ((j.1 : ℕ) : ℤ) - dy ∧ (nx : ℤ) ∣ (Spec.zeroLag nx : ℤ) - ((j.2 : ℕ) : ℤ) - dx) := by
      rintro ⟨h1, h2⟩
      apply hj
      have key : ∀ (n : ℕ) [NeZero n] (i l : Fin n) (d : ℤ), ((l : ℕ) : ℤ) = Spec.zeroLag n - d →
          (n : ℤ) ∣ (Spec.zeroLag n : ℤ) - ((i : ℕ) : ℤ) - d → i = l := by
        intro n _ i l d hl hd
        apply Fin.eq_of_modEq
        refine Int.modEq_iff_dvd.2 ?_
        rw [hl, show (Spec.zeroLag n : ℤ) - d - ((i : ℕ) : ℤ) = Spec.zeroLag n - ((i : ℕ) : ℤ) - d by ring]
        exact hd
      exact Prod.ext (key ny _ _ _ ly h1) (key nx _ _ _ lx h2)
    have h1 := hmargin _ _ hnd
    rw [← hsd, sq_dist] at h1
    have h2 := abs_le.1 (hν j)
    have h3 := abs_le.1 (hν loc)
    linarith
  have hN := size_pos (ny := ny) (nx := nx)
  have hne : Spec.xcorr a (fun p => Spec.roll2 dy dx a p + n' p) loc ≠ 0 := by
    rw [xcorr_add, hx0]
    have ndy : ¬ ((ny : ℤ) ∣ 1 ∧ (nx : ℤ) ∣ 0) := by
      rintro ⟨h, -⟩
      have := Int.le_of_dvd (by norm_num) h
      omega
    have h1 := hmargin _ _ ndy
    rw [← hsd, sq_dist] at h1
    have h3 := abs_le.1 (hν loc)
    have h4 : -Spec.autocorr a 0 0 ≤ Spec.autocorr a 1 0 := by
      have : ∑ p, (a p + a (Spec.move 1 0 p)) ^ 2 = 2 * (Spec.autocorr a 0 0 + Spec.autocorr a 1 0) := by
        have hs := Spec.sum_move 1 0 fun p => a p ^ 2
        unfold Spec.autocorr
        simp only [move_zero]
        rw [← Finset.sum_add_distrib, Finset.mul_sum]
        have : ∑ p, (a p + a (Spec.move 1 0 p)) ^ 2 = ∑ p, a p ^ 2 + ∑ p, a (Spec.move 1 0 p) ^ 2 + ∑ p, 2 * (a p * a (Spec.move 1 0 p)) := by
          rw [← Finset.sum_add_distrib, ← Finset.sum_add_distrib]
          exact Finset.sum_congr rfl fun p _ => by ring
        rw [this, hs, ← Finset.sum_add_distrib, ← Finset.sum_add_distrib]
        exact Finset.sum_congr rfl fun p _ => by ring
      have hn : 0 ≤ ∑ p, (a p + a (Spec.move 1 0 p)) ^ 2 := Finset.sum_nonneg fun p _ => sq_nonneg _
      linarith
    intro hc
    linarith
  have hmax : Np.IsFirstMax (Spec.xcorr a (fun p => Spec.roll2 dy dx a p + n' p)) loc := by
    have := Np.argmax_spec (Spec.xcorr a (fun p => Spec.roll2 dy dx a p + n' p))
    rwa [Np.argmax_eq_of_unique hpeak] at this
  have hform := C51_formula cfg agpy (realArr im1) (realArr fun p => Spec.roll2 dy dx im1 p + noise p) e1 e2 zm ah hf loc
    (by rw [hb]; exact hmax) (by rw [hb]; exact hne)
    (fun h => by rw [h] at b1; exact absurd b1 (by simp)) (fun h => by rw [h] at b3; exact absurd b3 (by simp)) _ rfl
  rw [← hadef, hb] at hform
  have hcm : Spec.ccMap a (fun p => Spec.roll2 dy dx a p + n' p)
      = fun i => Spec.ccMap a (Spec.roll2 dy dx a) i + Spec.ccMap a n' i := by
    funext i
    unfold Spec.ccMap
    rw [xcorr_add, add_div]
  have hν' : ∀ i, |Spec.ccMap a n' i| ≤ ε / ((ny * nx : ℕ) : ℝ) := by
    intro i
    unfold Spec.ccMap
    rw [abs_div, abs_of_pos hN]
    exact div_le_div_of_nonneg_right (hν i) hN.le
  have hadd := localFit_add (Spec.ccMap a (Spec.roll2 dy dx a)) (Spec.ccMap a n') loc (ε / ((ny * nx : ℕ) : ℝ)) (by positivity) hν' b2 b4
  rw [← hcm, roll_localFit a dy dx loc ly lx b1 b2 b3 b4] at hadd
  generalize Spec.localFit (Spec.ccMap a (fun p => Spec.roll2 dy dx a p + n' p)) loc = q at hform hadd
  obtain ⟨X, Y, M, fx, fy⟩ := q
  simp only at hform hadd
  have d01 := (sq_dist a 0 1).symm.trans (hsd 0 1)
  have d10 := (sq_dist a 1 0).symm.trans (hsd 1 0)
  have d11 := (sq_dist a 1 1).symm.trans (hsd 1 1)
  have d1n := (sq_dist a 1 (-1)).symm.trans (hsd 1 (-1))
  have m01 := hmargin 0 1 (by
    rintro ⟨-, h⟩
    have := Int.le_of_dvd (by norm_num) h
    omega)
  have m10 := hmargin 1 0 (by
    rintro ⟨h, -⟩
    have := Int.le_of_dvd (by norm_num) h
    omega)
  have c1 : ((loc.2 : ℕ) : ℝ) = (Spec.zeroLag nx : ℝ) - dx := by exact_mod_cast lx
  have c2 : ((loc.1 : ℕ) : ℝ) = (Spec.zeroLag ny : ℝ) - dy := by exact_mod_cast ly
  obtain ⟨hX, hY, hM, hfx, hfy⟩ := hadd
  rw [sub_zero] at hfx hfy
  generalize ((ny * nx : ℕ) : ℝ) = N at hN hX hY hM hfx hfy
  have sc : ∀ u v c : ℝ, |u - v / N| ≤ c / N → |N * u - v| ≤ c := by
    intro u v c h
    rw [show N * u - v = N * (u - v / N) by field_simp, abs_mul, abs_of_pos hN]
    calc N * |u - v / N| ≤ N * (c / N) := mul_le_mul_of_nonneg_left h hN.le
      _ = c := by field_simp
  have sc0 : ∀ u c : ℝ, |u| ≤ c / N → |N * u| ≤ c := by
    intro u c h
    have := sc u 0 c (by rwa [zero_div, sub_zero])
    rwa [sub_zero] at this
  have X1 := sc _ _ (4 * ε) (hX.trans_eq (mul_div_assoc _ _ _).symm)
  have Y1 := sc _ _ (4 * ε) (hY.trans_eq (mul_div_assoc _ _ _).symm)
  have M1 := sc _ _ _ hM
  have f1 := sc0 _ _ hfx
  have g1 := sc0 _ _ hfy
  rw [show N * X - 2 * (Spec.autocorr a 0 1 - Spec.autocorr a 0 0) = N * X + Spec.selfDist im1 0 1 by rw [← d01]; ring] at X1
  rw [show N * Y - 2 * (Spec.autocorr a 1 0 - Spec.autocorr a 0 0) = N * Y + Spec.selfDist im1 1 0 by rw [← d10]; ring] at Y1
  have hT' : |(Spec.autocorr a 1 1 - Spec.autocorr a 1 (-1)) / 2| = T := by
    rw [hT, ← d1n, ← d11, show (4 : ℝ) = |4| by norm_num, ← abs_div]
    congr 1; ring
  obtain ⟨n0, k1⟩ := step_close _ _ T ε N X Y M fx fy _ hN hε0 hT' m01 m10 X1 Y1 M1 f1 g1 (by rw [← hΔ]; exact hpos)
  obtain ⟨-, k2⟩ := step_close _ _ T ε N Y X M fy fx _ hN hε0 hT' m10 m01 Y1 X1 M1 g1 f1 (by
    rw [mul_comm (Spec.selfDist im1 1 0 - 4 * ε), ← hΔ]; exact hpos)
  rw [← hΔ] at k1
  rw [mul_comm (Spec.selfDist im1 1 0 - 4 * ε), ← hΔ, mul_comm Y X] at k2
  rw [if_neg n0, c1, c2] at hform
  refine ⟨_, _, hform, ?_, ?_⟩
  · rw [show Spec.ccRef nx - ((Spec.zeroLag nx : ℝ) - dx) - (X * fx + M * fy) / (M ^ 2 - X * Y)
      - (dx + if nx % 2 = 1 then 1 / 2 else 0) = -((X * fx + M * fy) / (M ^ 2 - X * Y)) by unfold Spec.ccRef; ring, abs_neg]
    exact k1
  · rw [show Spec.ccRef ny - ((Spec.zeroLag ny : ℝ) - dy) - (Y * fy + M * fx) / (M ^ 2 - X * Y)
      - (dy + if ny % 2 = 1 then 1 / 2 else 0) = -((Y * fy + M * fx) / (M ^ 2 - X * Y)) by unfold Spec.ccRef; ring, abs_neg]
    exact k2

theorem selfDist_point (c : Fin ny × Fin nx) (s t : ℤ) (h : ¬ ((ny : ℤ) ∣ s ∧ (nx : ℤ) ∣ t)) :
    Spec.selfDist (fun p => if p = c then (1 : ℝ) else 0) s t = 2 := by
  have hm : ∀ p : Fin ny × Fin nx, Spec.move s t p ≠ p := by
    intro p hp
    have hp1 : Spec.wrap ny (((p.1 : ℕ) : ℤ) + s) = p.1 := congrArg Prod.fst hp
    have hp2 : Spec.wrap nx (((p.2 : ℕ) : ℤ) + t) = p.2 := congrArg Prod.snd hp
    have key : ∀ (n : ℕ) [NeZero n] (i : Fin n) (d : ℤ), Spec.wrap n (((i : ℕ) : ℤ) + d) = i → (n : ℤ) ∣ d := by
      intro n _ i d hd
      have h2 := Spec.wrap_modEq n (((i : ℕ) : ℤ) + d)
      rw [hd] at h2
      have := Int.modEq_iff_dvd.1 h2
      rwa [add_sub_cancel_left] at this
    exact h ⟨key ny _ _ hp1, key nx _ _ hp2⟩
  unfold Spec.selfDist
  have e : ∀ p, ((if p = c then (1 : ℝ) else 0) - if Spec.move s t p = c then 1 else 0) ^ 2
      = (if p = c then 1 else 0) + if Spec.move s t p = c then 1 else 0 := by
    intro p
    by_cases h1 : p = c
    · rw [if_pos h1, if_neg (by rw [← h1]; exact hm p)]; norm_num
    · by_cases h2 : Spec.move s t p = c
      · rw [if_neg h1, if_pos h2]; norm_num
      · rw [if_neg h1, if_neg h2]; norm_num
  simp only [e, Finset.sum_add_distrib]
  rw [Spec.sum_move s t fun p => if p = c then (1 : ℝ) else 0]
  simp only [Finset.sum_ite_eq', Finset.mem_univ, if_true]
  norm_num

/-- C121, non-vacuity of `C121_noise`: a 6×5 star rolled by (1, 0), with a disturbance of 1/20 in one pixel: the answer is within
0.04 pixels of (1/2, 1) (half a pixel along x because of the odd size). -/
example (cfg : FFTConfig) (zm : Bool) (c d : Fin 6 × Fin 5) :
    ∃ rx ry : ℝ, crossCorrelationShifts cfg none (realArr fun p : Fin 6 × Fin 5 => if p = c then (1 : ℝ) else 0)
        (realArr fun p => Spec.roll2 1 0 (fun p : Fin 6 × Fin 5 => if p = c then (1 : ℝ) else 0) p + if p = d then 1 / 20 else 0) none none none
        false false zm false = .ok [.fin rx, .fin ry] ∧ |rx - 1 / 2| ≤ 1 / 25 ∧ |ry - 1| ≤ 1 / 25 := by
  have hε : Real.sqrt (∑ p : Fin 6 × Fin 5, (if p = c then (1 : ℝ) else 0) ^ 2)
      * Real.sqrt (∑ p : Fin 6 × Fin 5, (if p = d then (1 / 20 : ℝ) else 0) ^ 2) = 1 / 20 := by
    simp only [ite_pow, Finset.sum_ite_eq', Finset.mem_univ, if_true, one_pow, Real.sqrt_one, one_mul, ne_eq, OfNat.ofNat_ne_zero,
      not_false_eq_true, zero_pow]
    rw [Real.sqrt_sq (by norm_num)]
  have d01 := selfDist_point c 0 1 (by norm_num)
  have d10 := selfDist_point c 1 0 (by norm_num)
  have d11 := selfDist_point c 1 1 (by norm_num)
  have d1n := selfDist_point c 1 (-1) (by norm_num)
  obtain ⟨rx, ry, h, hx, hy⟩ := C121_noise cfg none (fun p : Fin 6 × Fin 5 => if p = c then (1 : ℝ) else 0)
    (fun p => if p = d then 1 / 20 else 0) 1 0 (by norm_num) (by norm_num) (by norm_num) (by norm_num) none none zm false (Or.inr (by norm_num)) (1 / 20) hε.symm
    (fun s t hst => by rw [selfDist_point c s t hst]; norm_num) 0 (by rw [d11, d1n]; norm_num) (323 / 100 + 3 / 400)
    (by rw [d01, d10]; norm_num) (by norm_num)
  refine ⟨rx, ry, h, ?_, ?_⟩
  · rw [d01] at hx
    norm_num at hx ⊢
    linarith
  · rw [d10] at hy
    norm_num at hy ⊢
    linarith

/-- correlating with a point at the zero lag gives back the first image -/
theorem xcorr_point (a : Fin ny × Fin nx → ℝ) (c : Fin ny × Fin nx) (h1 : (c.1 : ℕ) = Spec.zeroLag ny) (h2 : (c.2 : ℕ) = Spec.zeroLag nx) :
    Spec.xcorr a (fun p => if p = c then 1 else 0) = a := by
  funext i
  unfold Spec.xcorr
  have hi : Spec.move ((Spec.zeroLag ny : ℤ) - ((i.1 : ℕ) : ℤ)) ((Spec.zeroLag nx : ℤ) - ((i.2 : ℕ) : ℤ)) i = c := by
    unfold Spec.move
    rw [add_sub_cancel, add_sub_cancel, ← h1, ← h2, Spec.wrap_val, Spec.wrap_val]
  beta_reduce
  rw [Finset.sum_eq_single i, if_pos hi, mul_one]
  · intro p _ hp
    rw [if_neg, mul_zero]
    intro hc
    exact hp ((Spec.move_bijective _ _).1 (hc.trans hi.symm))
  · exact fun h => absurd (Finset.mem_univ i) h

end

/-- the image used in `C121_step_unbounded` -/
noncomputable def Spec.ridge (η : ℝ) (p : Fin 5 × Fin 5) : ℝ :=
  if p = (2, 2) then 1 else if p = (2, 3) then 1 / 2 else if p = (1, 2) ∨ p = (3, 2) then 1 - η else 0

theorem ridge_fit (η : ℝ) : Spec.localFit (Spec.ccMap (Spec.ridge η) (fun p => if p = ((2, 2) : Fin 5 × Fin 5) then 1 else 0)) (2, 2)
    = ⟨-(3 / 50), -(2 * η / 25), 0, 1 / 100, 0⟩ := by
  have hx : Spec.xcorr (Spec.ridge η) (fun p => if p = ((2, 2) : Fin 5 × Fin 5) then 1 else 0) = Spec.ridge η :=
    xcorr_point _ _ rfl rfl
  have hc : Spec.ccMap (Spec.ridge η) (fun p => if p = ((2, 2) : Fin 5 × Fin 5) then 1 else 0) = fun i => Spec.ridge η i / 25 := by
    funext i; unfold Spec.ccMap; rw [hx]; norm_num
  rw [hc]
  have e : ∀ (y x : ℤ) (i : Fin 5 × Fin 5), y = ((i.1 : ℕ) : ℤ) → x = ((i.2 : ℕ) : ℤ) →
      Spec.ext0 (fun i => Spec.ridge η i / 25) y x = Spec.ridge η i / 25 := fun y x i hy hx => ext0_eq _ i hy hx
  unfold Spec.localFit Spec.curvX Spec.curvY Spec.slopeX Spec.slopeY Spec.mixed
  simp only
  rw [if_pos (by norm_num), if_pos (by norm_num)]
  rw [e _ _ (2, 3) (by norm_num) (by norm_num), e _ _ (2, 1) (by norm_num) (by norm_num), e _ _ (2, 2) rfl rfl,
    e _ _ (3, 2) (by norm_num) (by norm_num), e _ _ (1, 2) (by norm_num) (by norm_num), e _ _ (3, 3) (by norm_num) (by norm_num),
    e _ _ (1, 1) (by norm_num) (by norm_num), e _ _ (3, 1) (by norm_num) (by norm_num), e _ _ (1, 3) (by norm_num) (by norm_num)]
  simp only [Spec.ridge]
  congr 1 <;> simp <;> ring

/-- C121: the "sub-pixel" correction is not bounded. For every `B` there are two 5×5 images with a unique, positive, interior peak of their
correlation (at offset 0) for which the returned x shift is more than `B` pixels away from the peak. (The correction divides the slope
along x by the curvature along *y*, see C51, so a ridge along y throws the answer off along x.) -/
theorem C121_step_unbounded (cfg : FFTConfig) (agpy : Agpy 5 5) (B : ℝ) :
    ∃ im1 im2 : Fin 5 × Fin 5 → ℝ, (∀ p, 0 ≤ im1 p ∧ im1 p ≤ 1) ∧ (∀ p, 0 ≤ im2 p ∧ im2 p ≤ 1) ∧
      (∀ j, j ≠ ((2, 2) : Fin 5 × Fin 5) → Spec.xcorr im1 im2 j < Spec.xcorr im1 im2 (2, 2)) ∧
      ∃ rx ry : ℝ, crossCorrelationShifts cfg agpy (realArr im1) (realArr im2) none none none false false false false
        = .ok [.fin rx, .fin ry] ∧ B < |rx| := by
  obtain ⟨η, h0, h1, hB⟩ : ∃ η : ℝ, 0 < η ∧ η < 1 ∧ B + 1 / 2 < 1 / (8 * η) := by
    refine ⟨1 / (8 * (|B| + 1)), by positivity, ?_, ?_⟩
    · rw [div_lt_one (by positivity)]; linarith [abs_nonneg B]
    · have : 8 * (1 / (8 * (|B| + 1))) = 1 / (|B| + 1) := by field_simp
      rw [this, one_div_one_div]
      linarith [le_abs_self B]
  have hx : Spec.xcorr (Spec.ridge η) (fun p => if p = ((2, 2) : Fin 5 × Fin 5) then 1 else 0) = Spec.ridge η :=
    xcorr_point _ _ rfl rfl
  have hp : ∀ f : Fin 5 × Fin 5 → ℝ, prep false (realArr f) = f := by intro f; rw [prep_real]; simp
  have hpk : ∀ j, j ≠ ((2, 2) : Fin 5 × Fin 5) → Spec.ridge η j < Spec.ridge η (2, 2) := by
    intro j hj
    unfold Spec.ridge
    rw [if_neg hj, if_pos rfl]
    split_ifs <;> linarith
  have hform := C51_formula cfg agpy (realArr (Spec.ridge η)) (realArr fun p => if p = ((2, 2) : Fin 5 × Fin 5) then 1 else 0) none none false false
    (Or.inr (by norm_num)) (2, 2) (by
      rw [hp, hp, hx]
      have := Np.argmax_spec (Spec.ridge η)
      rwa [Np.argmax_eq_of_unique hpk] at this) (by rw [hp, hp, hx]; simp [Spec.ridge]) (by decide) (by decide) _ rfl
  rw [hp, hp] at hform
  have hq := ridge_fit η
  rw [hq] at hform
  simp only at hform
  rw [if_neg (by simp; exact h0.ne')] at hform
  refine ⟨Spec.ridge η, fun p => if p = (2, 2) then 1 else 0, ?_, ?_, ?_, _, _, hform, ?_⟩
  · intro p
    unfold Spec.ridge
    split_ifs <;> constructor <;> linarith
  · intro p
    dsimp only
    split_ifs <;> norm_num
  · rw [hx]; exact hpk
  · have hr : Spec.ccRef 5 = 5 / 2 := by norm_num [Spec.ccRef, Spec.zeroLag]
    rw [hr, show ((5 : ℝ) / 2 - (((2 : Fin 5) : ℕ) : ℝ) - (-(3 / 50) * (1 / 100) + 0 * 0) / (0 ^ 2 - -(3 / 50) * -(2 * η / 25)))
      = 1 / 2 - 1 / (8 * η) by norm_num; field_simp; ring]
    rw [abs_sub_comm]
    exact lt_of_lt_of_le (by linarith) (le_abs_self _)

/-- C121, non-vacuity of `C121_step_bound`: the image of `C121_step_unbounded` with `η = 1/2`. The derivatives of its correlation map are
`X = -3/50`, `Y = -1/25`, `M = 0`, so the correction along x is at most 3/4 and along y at most 1/3 of a pixel. -/
example (cfg : FFTConfig) (agpy : Agpy 5 5) : ∃ rx ry : ℝ,
    crossCorrelationShifts cfg agpy (realArr (Spec.ridge (1 / 2))) (realArr fun p => if p = ((2, 2) : Fin 5 × Fin 5) then 1 else 0) none none none
      false false false false = .ok [.fin rx, .fin ry] ∧ |rx - 1 / 2| ≤ 3 / 4 ∧ |ry - 1 / 2| ≤ 1 / 3 := by
  have hx : Spec.xcorr (Spec.ridge (1 / 2)) (fun p => if p = ((2, 2) : Fin 5 × Fin 5) then 1 else 0) = Spec.ridge (1 / 2) :=
    xcorr_point _ _ rfl rfl
  have hp : ∀ f : Fin 5 × Fin 5 → ℝ, prep false (realArr f) = f := by intro f; rw [prep_real]; simp
  have hpk : ∀ j, j ≠ ((2, 2) : Fin 5 × Fin 5) → Spec.ridge (1 / 2) j < Spec.ridge (1 / 2) (2, 2) := by
    intro j hj
    unfold Spec.ridge
    rw [if_neg hj, if_pos rfl]
    split_ifs <;> norm_num
  have hq : Spec.localFit (Spec.ccMap (Spec.ridge (1 / 2)) (fun p => if p = ((2, 2) : Fin 5 × Fin 5) then 1 else 0)) (2, 2)
      = ⟨-(3 / 50), -(2 * (1 / 2) / 25), 0, 1 / 100, 0⟩ := ridge_fit _
  obtain ⟨rx, ry, h, b1, b2, -⟩ := C121_step_bound cfg agpy (realArr (Spec.ridge (1 / 2)))
    (realArr fun p => if p = ((2, 2) : Fin 5 × Fin 5) then 1 else 0) none none false false (Or.inr (by norm_num)) (2, 2) (by
      rw [hp, hp, hx]
      have := Np.argmax_spec (Spec.ridge (1 / 2))
      rwa [Np.argmax_eq_of_unique hpk] at this) (by rw [hp, hp, hx]; simp [Spec.ridge]) (by decide) (by decide) (by decide) (by decide)
    ⟨-(3 / 50), -(2 * (1 / 2) / 25), 0, 1 / 100, 0⟩ (by rw [hp, hp]; exact hq.symm) (by norm_num)
  have hr : Spec.ccRef 5 = 5 / 2 := by norm_num [Spec.ccRef, Spec.zeroLag]
  rw [hr] at b1 b2
  norm_num at b1 b2
  refine ⟨rx, ry, h, ?_, ?_⟩
  · convert b1 using 2
  · convert b2 using 2

end ImgReg
