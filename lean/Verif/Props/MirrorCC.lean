import Verif.Props.Mirror
import Verif.Props.CrossCorrSymm

/-!
# Mirroring the images (C139): `register_images` and `cross_correlation_shifts`
-/

open Complex Finset
open scoped ComplexConjugate

namespace ImgReg

section
variable {ny nx : ℕ} [NeZero ny] [NeZero nx]

theorem cshift_flip (fy fx : Bool) (hy : fy = true → Odd ny) (hx : fx = true → Odd nx) (t u : ℝ) (b : Fin ny × Fin nx → ℝ) :
    cshift (Spec.sgn fy t) (Spec.sgn fx u) (Spec.flip fy fx b) = Spec.flip fy fx (cshift t u b) := by
  unfold cshift
  have := filt_flip fy fx (fun k => ex (-(freq2 (Spec.sgn fx u) (Spec.sgn fy t) k))) fun i => (b i : ℂ)
  simp only [freq2_negK fy fx hy hx] at this
  exact this

theorem cc_flip (fy fx : Bool) (hy : fy = true → Odd ny) (hx : fx = true → Odd nx) (a b : Fin ny × Fin nx → ℝ) (t u : ℝ) :
    Spec.cc (Spec.flip fy fx a) (Spec.flip fy fx b) (Spec.sgn fy t) (Spec.sgn fx u) = Spec.cc a b t u := by
  unfold Spec.cc
  rw [cshift_flip fy fx hy hx]
  exact sum_flip fy fx fun p : Fin ny × Fin nx => (a p : ℂ) * conj (cshift t u b p)

theorem cc_rot180 (a b : Fin ny × Fin nx → ℝ) (t u : ℝ) :
    Spec.cc (Spec.flip true true a) (Spec.flip true true b) (-t) (-u) = conj (Spec.cc a b t u) := by
  have hs : cshift (-t) (-u) (Spec.flip true true b) = Spec.flip true true fun p => conj (cshift t u b p) := by
    unfold cshift
    have h := filt_flip true true (fun k => ex (-(freq2 (-u) (-t) k))) fun i => (b i : ℂ)
    refine h.trans ?_
    congr 1
    funext p
    have e4 : (fun k : Fin ny × Fin nx => ex (-freq2 (-u) (-t) (negK true k.1, negK true k.2)))
        = fun k => conj ((fun k => ex (-freq2 u t k)) (negK true k.1, negK true k.2)) := by
      funext k
      rw [conj_ex]; congr 1; unfold freq2; ring
    rw [e4]; exact filt_conj (fun k => ex (-freq2 u t k)) _ p
  unfold Spec.cc
  rw [hs, map_sum]
  refine Eq.trans ?_ (sum_flip true true fun p : Fin ny × Fin nx => conj ((a p : ℂ) * conj (cshift t u b p)))
  refine Finset.sum_congr rfl fun p _ => ?_
  simp only [map_mul, Complex.conj_ofReal, Spec.flip]

theorem sgn_sgn (f : Bool) (t : ℝ) : Spec.sgn f (Spec.sgn f t) = t := by cases f <;> simp [Spec.sgn]

omit [NeZero ny] [NeZero nx] in
theorem Spec.ClearMatch.flip {F : ℝ → ℝ → ℝ} {usfac : ℕ} {row2 col2 t0 u0 : ℝ} (fy fx : Bool)
    (h : Spec.ClearMatch F ny nx usfac row2 col2 t0 u0) :
    Spec.ClearMatch (fun t u => F (Spec.sgn fy t) (Spec.sgn fx u)) ny nx usfac (Spec.sgn fy row2) (Spec.sgn fx col2) (Spec.sgn fy t0)
      (Spec.sgn fx u0) := by
  obtain ⟨⟨j, k, hj, hk, hjr, hkr, hbest⟩, hfine⟩ := h
  have ab : ∀ (f : Bool) (x : ℝ), |2 * Spec.sgn f x| = |2 * x| := fun f x => by
    cases f
    · rfl
    · simp only [Spec.sgn, if_true, mul_neg, abs_neg]
  have ab2 : ∀ (f : Bool) (x y : ℝ), |Spec.sgn f x - y| = |x - Spec.sgn f y| := fun f x y => by
    cases f
    · rfl
    · simp only [Spec.sgn, if_true]; rw [← abs_neg]; congr 1; ring
  obtain ⟨σ, hσ, hσσ⟩ : ∃ σ : Bool → ℤ → ℤ, (∀ f z (d : ℝ), ((σ f z : ℤ) : ℝ) / d = Spec.sgn f ((z : ℝ) / d)) ∧ ∀ f z, σ f (σ f z) = z := by
    refine ⟨fun f z => if f then -z else z, fun f z d => ?_, fun f z => ?_⟩ <;> cases f <;> simp [Spec.sgn, neg_div]
  refine ⟨⟨σ fy j, σ fx k, ?_, ?_, ?_, ?_, fun j' k' h1 h2 h3 => ?_⟩, ?_⟩
  · rw [hj, hσ]
  · rw [hk, hσ]
  · rw [ab]; exact hjr
  · rw [ab]; exact hkr
  · have := hbest (σ fy j') (σ fx k') (by rw [hσ, ab]; exact h1) (by rw [hσ, ab]; exact h2)
      (fun he => h3 (by rw [Prod.mk.injEq] at he ⊢; rw [← he.1, ← he.2, hσσ, hσσ]; exact ⟨rfl, rfl⟩))
    simp only [sgn_sgn]
    rw [hσ, hσ] at this
    exact this
  · split_ifs at hfine ⊢ with hc
    · rw [hfine.1, hfine.2]; exact ⟨rfl, rfl⟩
    · obtain ⟨⟨z0, hz0⟩, ⟨w0, hw0⟩, d1, d2, hbest2⟩ := hfine
      refine ⟨⟨σ fy z0, by rw [hz0, hσ]⟩, ⟨σ fx w0, by rw [hw0, hσ]⟩, ?_, ?_, fun z w h1 h2 h3 => ?_⟩
      · rw [ab2, sgn_sgn]; exact d1
      · rw [ab2, sgn_sgn]; exact d2
      · have := hbest2 (σ fy z) (σ fx w) (by rw [hσ, ab2]; exact h1) (by rw [hσ, ab2]; exact h2)
          (fun he => h3 (by
            rw [Prod.mk.injEq] at he ⊢
            rw [hσ, hσ] at he
            rw [← he.1, ← he.2, sgn_sgn, sgn_sgn]; exact ⟨rfl, rfl⟩))
        simp only [sgn_sgn]
        rw [hσ, hσ] at this
        exact this

theorem sgn_neg (f : Bool) (t : ℝ) : -Spec.sgn f t = Spec.sgn f (-t) := by cases f <;> rfl

/-- C139: `register_images` of the flipped images returns the shift with the sign changed along the flipped axes, for every `usfac`, when
one displacement is clearly the best match; the flipped axes have odd size. -/
theorem C139_register_images (cfg : FFTConfig) (fy fx : Bool) (hy : fy = true → Odd ny) (hx : fx = true → Odd nx)
    (im1 im2 : Fin ny × Fin nx → Pix) (usfac : ℕ) (hu : 1 ≤ usfac)
    (hsz : usfac = 1 ∨ (2 ≤ ny ∧ 2 ≤ nx)) (zm : Bool) (row2 col2 t0 u0 : ℝ)
    (h : Spec.ClearMatch (fun t u => ‖Spec.cc (prep zm im1) (prep zm im2) t u‖) ny nx usfac row2 col2 t0 u0) :
    ∃ dx dy : ℝ, registerImages cfg im1 im2 usfac false false zm none = .ok [.num dx, .num dy] ∧
      registerImages cfg (Spec.flip fy fx im1) (Spec.flip fy fx im2) usfac false false zm none
        = .ok [.num (Spec.sgn fx dx), .num (Spec.sgn fy dy)] := by
  refine ⟨_, _, C119_clear_match cfg im1 im2 usfac hu hsz zm row2 col2 t0 u0 h, ?_⟩
  rw [← sgn_neg, ← sgn_neg]
  apply C119_clear_match cfg _ _ usfac hu hsz zm (Spec.sgn fy row2) (Spec.sgn fx col2)
  have := h.flip fy fx
  convert this using 3
  rename_i t u
  have hc := cc_flip fy fx hy hx (prep zm im1) (prep zm im2) (Spec.sgn fy t) (Spec.sgn fx u)
  rw [sgn_sgn, sgn_sgn] at hc
  rw [prep_flip, prep_flip, hc]

/-- C139: rotating both images by 180° negates the shift that `register_images` returns, for every size. -/
theorem C139_register_rot180 (cfg : FFTConfig) (im1 im2 : Fin ny × Fin nx → Pix) (usfac : ℕ) (hu : 1 ≤ usfac)
    (hsz : usfac = 1 ∨ (2 ≤ ny ∧ 2 ≤ nx)) (zm : Bool) (row2 col2 t0 u0 : ℝ)
    (h : Spec.ClearMatch (fun t u => ‖Spec.cc (prep zm im1) (prep zm im2) t u‖) ny nx usfac row2 col2 t0 u0) :
    ∃ dx dy : ℝ, registerImages cfg im1 im2 usfac false false zm none = .ok [.num dx, .num dy] ∧
      registerImages cfg (Spec.flip true true im1) (Spec.flip true true im2) usfac false false zm none = .ok [.num (-dx), .num (-dy)] := by
  refine ⟨_, _, C119_clear_match cfg im1 im2 usfac hu hsz zm row2 col2 t0 u0 h, ?_⟩
  apply C119_clear_match cfg _ _ usfac hu hsz zm (-row2) (-col2) (-t0) (-u0)
  have := h.neg
  convert this using 3
  rename_i t u
  have hc := cc_rot180 (prep zm im1) (prep zm im2) (-t) (-u)
  rw [neg_neg, neg_neg] at hc
  rw [prep_flip, prep_flip, hc, RCLike.norm_conj]

/-! ### `cross_correlation_shifts` -/

theorem revLag_val {n : ℕ} [NeZero n] (f : Bool) (j l : Fin n)
    (h : ((l : ℕ) : ℤ) = if f then 2 * (((n - 1) / 2 : ℕ) : ℤ) - ((j : ℕ) : ℤ) else ((j : ℕ) : ℤ)) : Spec.revLag f j = l := by
  cases f
  · simp only [Bool.false_eq_true, if_false] at h
    exact Fin.ext (by exact_mod_cast h.symm)
  · simp only [if_true] at h
    simp only [Spec.revLag, if_true]
    rw [Spec.wrap_eq_iff, h]
    rfl

theorem revLag_revLag {n : ℕ} [NeZero n] (f : Bool) (j : Fin n) : Spec.revLag f (Spec.revLag f j) = j := by
  cases f
  · rfl
  · simp only [Spec.revLag, if_true]
    rw [Spec.wrap_eq_iff]
    have h1 := Spec.wrap_modEq n (2 * (Spec.zeroLag n : ℤ) - ((j : ℕ) : ℤ))
    have h2 := Int.ModEq.sub_left (2 * (Spec.zeroLag n : ℤ)) h1
    rwa [sub_sub_cancel] at h2

/-- the reported number along a flipped axis: `h - r` with `h = 1` for an odd size, `h = 0` for an even one -/
noncomputable def Spec.flipFl (f : Bool) (n : ℕ) (r : Fl) : Fl := if f then Spec.reflect (Spec.oddOne n) r else r

/-- C139: `cross_correlation_shifts` of the flipped images: along a flipped axis the reported number `r` becomes `h - r`, with `h = 0` for an
even size and `h = 1` for an odd one (the half-pixel offset of odd sizes, C50, does not change its sign); along the other axis it is unchanged.
Any sizes; the correlation map has a unique largest value, at a pixel that is not on the border of the map and whose mirror image about the
zero-lag pixel `(n-1)//2` is not either. -/
theorem C139_cross_correlation_shifts (cfg : FFTConfig) (agpy : Agpy ny nx) (fy fx : Bool) (im1 im2 : Fin ny × Fin nx → Pix)
    (e1 e2 e1' e2' : Option (Fin ny × Fin nx → Pix)) (zm ah : Bool) (hf : Spec.fits ah ny nx)
    (loc : Fin ny × Fin nx)
    (hloc : ∀ j, j ≠ loc → Spec.xcorr (prep zm im1) (prep zm im2) j < Spec.xcorr (prep zm im1) (prep zm im2) loc)
    (h0 : Spec.xcorr (prep zm im1) (prep zm im2) loc ≠ 0)
    (hy : 1 ≤ (loc.1 : ℕ)) (hy' : (loc.1 : ℕ) + 2 ≤ ny) (hym : fy = true → (loc.1 : ℕ) + 1 ≤ 2 * ((ny - 1) / 2))
    (hx : 1 ≤ (loc.2 : ℕ)) (hx' : (loc.2 : ℕ) + 2 ≤ nx) (hxm : fx = true → (loc.2 : ℕ) + 1 ≤ 2 * ((nx - 1) / 2)) :
    ∃ rx ry, crossCorrelationShifts cfg agpy im1 im2 e1 e2 none false false zm ah = .ok [rx, ry] ∧
      crossCorrelationShifts cfg agpy (Spec.flip fy fx im1) (Spec.flip fy fx im2) e1' e2' none false false zm ah
        = .ok [Spec.flipFl fx nx rx, Spec.flipFl fy ny ry] := by
  have key : ∀ q q' : Spec.LocalFit, ∀ loc' : Fin ny × Fin nx,
      q'.X = q.X → q'.Y = q.Y → q'.M = Spec.sgn fy (Spec.sgn fx q.M) → q'.fx = Spec.sgn fx q.fx → q'.fy = Spec.sgn fy q.fy →
      (((loc'.1 : ℕ) : ℝ) = if fy then 2 * (((ny - 1) / 2 : ℕ) : ℝ) - ((loc.1 : ℕ) : ℝ) else ((loc.1 : ℕ) : ℝ)) →
      (((loc'.2 : ℕ) : ℝ) = if fx then 2 * (((nx - 1) / 2 : ℕ) : ℝ) - ((loc.2 : ℕ) : ℝ) else ((loc.2 : ℕ) : ℝ)) →
      ∃ rx ry, (if q.M ^ 2 - q.X * q.Y = 0 then
        [if q.X * q.fx + q.M * q.fy = 0 then Fl.nan else .inf, if q.Y * q.fy + q.M * q.fx = 0 then .nan else .inf]
       else
        [.fin (Spec.ccRef nx - ((loc.2 : ℕ) : ℝ) - (q.X * q.fx + q.M * q.fy) / (q.M ^ 2 - q.X * q.Y)),
         .fin (Spec.ccRef ny - ((loc.1 : ℕ) : ℝ) - (q.Y * q.fy + q.M * q.fx) / (q.M ^ 2 - q.X * q.Y))]) = [rx, ry] ∧
       (if q'.M ^ 2 - q'.X * q'.Y = 0 then
        [if q'.X * q'.fx + q'.M * q'.fy = 0 then Fl.nan else .inf, if q'.Y * q'.fy + q'.M * q'.fx = 0 then .nan else .inf]
       else
        [.fin (Spec.ccRef nx - ((loc'.2 : ℕ) : ℝ) - (q'.X * q'.fx + q'.M * q'.fy) / (q'.M ^ 2 - q'.X * q'.Y)),
         .fin (Spec.ccRef ny - ((loc'.1 : ℕ) : ℝ) - (q'.Y * q'.fy + q'.M * q'.fx) / (q'.M ^ 2 - q'.X * q'.Y))])
         = [Spec.flipFl fx nx rx, Spec.flipFl fy ny ry] := by
    rintro ⟨X, Y, M, gx, gy⟩ ⟨X', Y', M', gx', gy'⟩ loc' h1 h2 h3 h4 h5 h6 h7
    simp only at h1 h2 h3 h4 h5
    subst h1 h2 h3 h4 h5
    simp only
    have n1 : X' * Spec.sgn fx gx + Spec.sgn fy (Spec.sgn fx M) * Spec.sgn fy gy = Spec.sgn fx (X' * gx + M * gy) := by
      cases fy <;> cases fx <;> simp only [Spec.sgn, if_true, Bool.false_eq_true, if_false] <;> ring
    have n2 : Y' * Spec.sgn fy gy + Spec.sgn fy (Spec.sgn fx M) * Spec.sgn fx gx = Spec.sgn fy (Y' * gy + M * gx) := by
      cases fy <;> cases fx <;> simp only [Spec.sgn, if_true, Bool.false_eq_true, if_false] <;> ring
    have n3 : Spec.sgn fy (Spec.sgn fx M) ^ 2 = M ^ 2 := by
      cases fy <;> cases fx <;> simp only [Spec.sgn, if_true, Bool.false_eq_true, if_false] <;> ring
    have n4 : ∀ (f : Bool) (t : ℝ), Spec.sgn f t = 0 ↔ t = 0 := by intro f t; cases f <;> simp [Spec.sgn]
    rw [n1, n2, n3]
    by_cases hd : M ^ 2 - X' * Y' = 0
    · rw [if_pos hd, if_pos hd]
      refine ⟨_, _, rfl, ?_⟩
      simp only [n4]
      unfold Spec.flipFl
      split_ifs <;> rfl
    · rw [if_neg hd, if_neg hd]
      refine ⟨_, _, rfl, ?_⟩
      have cx := two_ccRef nx
      have cy := two_ccRef ny
      rw [h6, h7]
      congr 1
      · cases fx
        · rfl
        · simp only [Spec.flipFl, if_true, Spec.reflect, Spec.sgn, neg_div]
          congr 1; linarith
      · congr 1
        cases fy
        · rfl
        · simp only [Spec.flipFl, if_true, Spec.reflect, Spec.sgn, neg_div]
          congr 1; linarith
  obtain ⟨loc', hl'⟩ : ∃ loc' : Fin ny × Fin nx, loc' = (Spec.revLag fy loc.1, Spec.revLag fx loc.2) := ⟨_, rfl⟩
  have lv : ∀ (f : Bool) (n : ℕ) [NeZero n] (j : Fin n), (f = true → (j : ℕ) + 1 ≤ 2 * ((n - 1) / 2)) → 1 ≤ (j : ℕ) →
      (((Spec.revLag f j : Fin n) : ℕ) : ℤ) = if f then 2 * ((n - 1) / 2 : ℕ) - ((j : ℕ) : ℤ) else ((j : ℕ) : ℤ) := by
    intro f n _ j h h1
    cases f
    · rfl
    · have := h rfl
      have hj := j.isLt
      have e := revLag_val true j ⟨2 * ((n - 1) / 2) - (j : ℕ), by omega⟩ (by simp only [if_true]; omega)
      rw [e]; simp only [if_true]; omega
  have l1 : ((loc'.1 : ℕ) : ℤ) = if fy then 2 * ((ny - 1) / 2 : ℕ) - ((loc.1 : ℕ) : ℤ) else ((loc.1 : ℕ) : ℤ) := by
    rw [hl']; exact lv fy ny loc.1 hym hy
  have l2 : ((loc'.2 : ℕ) : ℤ) = if fx then 2 * ((nx - 1) / 2 : ℕ) - ((loc.2 : ℕ) : ℤ) else ((loc.2 : ℕ) : ℤ) := by
    rw [hl']; exact lv fx nx loc.2 hxm hx
  have hmapx : Spec.xcorr (prep zm (Spec.flip fy fx im1)) (prep zm (Spec.flip fy fx im2))
      = Spec.flipMap fy fx (Spec.xcorr (prep zm im1) (prep zm im2)) := by
    rw [prep_flip, prep_flip, xcorr_flip]
  have hval : Spec.xcorr (prep zm (Spec.flip fy fx im1)) (prep zm (Spec.flip fy fx im2)) loc'
      = Spec.xcorr (prep zm im1) (prep zm im2) loc := by
    rw [hmapx, hl']; unfold Spec.flipMap; simp only [revLag_revLag]
  have hloc' : ∀ j, j ≠ loc' → Spec.xcorr (prep zm (Spec.flip fy fx im1)) (prep zm (Spec.flip fy fx im2)) j
      < Spec.xcorr (prep zm (Spec.flip fy fx im1)) (prep zm (Spec.flip fy fx im2)) loc' := by
    intro j hj
    rw [hval, hmapx]
    refine hloc _ fun h => hj ?_
    rw [hl', ← h]
    simp only [revLag_revLag]
  have hE : ∀ s t : ℤ, -1 ≤ s → s ≤ 1 → -1 ≤ t → t ≤ 1 →
      Spec.ext0 (Spec.ccMap (prep zm (Spec.flip fy fx im1)) (prep zm (Spec.flip fy fx im2))) (((loc'.1 : ℕ) : ℤ) + s)
          (((loc'.2 : ℕ) : ℤ) + t)
        = Spec.ext0 (Spec.ccMap (prep zm im1) (prep zm im2)) (((loc.1 : ℕ) : ℤ) + if fy then -s else s)
          (((loc.2 : ℕ) : ℤ) + if fx then -t else t) := by
    intro s t h1 h2 h3 h4
    have b : ∀ (f : Bool) (n a a' : ℕ) (s : ℤ), -1 ≤ s → s ≤ 1 → 1 ≤ a → a + 2 ≤ n → (f = true → a + 1 ≤ 2 * ((n - 1) / 2)) →
        ((a' : ℤ) = if f then 2 * ((n - 1) / 2 : ℕ) - (a : ℤ) else (a : ℤ)) →
        0 ≤ (a' : ℤ) + s ∧ (a' : ℤ) + s < n ∧ 0 ≤ (a : ℤ) + (if f then -s else s) ∧ (a : ℤ) + (if f then -s else s) < n ∧
        (a : ℤ) + (if f then -s else s) = if f then 2 * (((n - 1) / 2 : ℕ) : ℤ) - ((a' : ℤ) + s) else (a' : ℤ) + s := by
      intro f n a a' s g1 g2 g3 g4 g5 g6
      cases f
      · simp only [Bool.false_eq_true, if_false] at g6 ⊢; omega
      · have := g5 rfl
        simp only [if_true] at g6 ⊢; omega
    obtain ⟨y1, y2, y3, y4, y5⟩ := b fy ny _ _ s h1 h2 hy hy' hym l1
    obtain ⟨x1, x2, x3, x4, x5⟩ := b fx nx _ _ t h3 h4 hx hx' hxm l2
    rw [ext0_eq _ (⟨(((loc'.1 : ℕ) : ℤ) + s).toNat, by omega⟩, ⟨(((loc'.2 : ℕ) : ℤ) + t).toNat, by omega⟩)
      (by simp only; omega) (by simp only; omega),
      ext0_eq _ (⟨(((loc.1 : ℕ) : ℤ) + if fy then -s else s).toNat, by omega⟩, ⟨(((loc.2 : ℕ) : ℤ) + if fx then -t else t).toNat, by omega⟩)
      (by simp only; omega) (by simp only; omega)]
    unfold Spec.ccMap
    rw [hmapx]
    unfold Spec.flipMap
    simp only
    rw [revLag_val fy _ ⟨(((loc.1 : ℕ) : ℤ) + if fy then -s else s).toNat, by omega⟩ (by
        simp only; rw [Int.toNat_of_nonneg y3, Int.toNat_of_nonneg y1]; exact y5),
      revLag_val fx _ ⟨(((loc.2 : ℕ) : ℤ) + if fx then -t else t).toNat, by omega⟩ (by
        simp only; rw [Int.toNat_of_nonneg x3, Int.toNat_of_nonneg x1]; exact x5)]
  have E00 := hE 0 0 (by omega) (by omega) (by omega) (by omega)
  have E01 := hE 0 1 (by omega) (by omega) (by omega) (by omega)
  have E0n := hE 0 (-1) (by omega) (by omega) (by omega) (by omega)
  have E10 := hE 1 0 (by omega) (by omega) (by omega) (by omega)
  have En0 := hE (-1) 0 (by omega) (by omega) (by omega) (by omega)
  have E11 := hE 1 1 (by omega) (by omega) (by omega) (by omega)
  have E1n := hE 1 (-1) (by omega) (by omega) (by omega) (by omega)
  have En1 := hE (-1) 1 (by omega) (by omega) (by omega) (by omega)
  have Enn := hE (-1) (-1) (by omega) (by omega) (by omega) (by omega)
  have hm1 : Np.IsFirstMax (Spec.xcorr (prep zm im1) (prep zm im2)) loc := by
    have := Np.argmax_spec (Spec.xcorr (prep zm im1) (prep zm im2))
    rwa [Np.argmax_eq_of_unique hloc] at this
  have hm2 : Np.IsFirstMax (Spec.xcorr (prep zm (Spec.flip fy fx im1)) (prep zm (Spec.flip fy fx im2))) loc' := by
    have := Np.argmax_spec (Spec.xcorr (prep zm (Spec.flip fy fx im1)) (prep zm (Spec.flip fy fx im2)))
    rwa [Np.argmax_eq_of_unique hloc'] at this
  have nz : ∀ (n : ℕ) [NeZero n] (i : Fin n), 1 ≤ (i : ℕ) → i ≠ 0 := by
    intro n _ i h h'
    rw [h'] at h; exact absurd h (by simp)
  have by' : 1 ≤ (loc'.1 : ℕ) ∧ (loc'.1 : ℕ) + 2 ≤ ny := by
    cases fy
    · simp only [Bool.false_eq_true, if_false] at l1; omega
    · have := hym rfl; simp only [if_true] at l1; omega
  have bx' : 1 ≤ (loc'.2 : ℕ) ∧ (loc'.2 : ℕ) + 2 ≤ nx := by
    cases fx
    · simp only [Bool.false_eq_true, if_false] at l2; omega
    · have := hxm rfl; simp only [if_true] at l2; omega
  rw [C51_formula cfg agpy im1 im2 e1 e2 zm ah hf loc hm1 h0 (nz _ _ hy) (nz _ _ hx) _ rfl,
    C51_formula cfg agpy _ _ e1' e2' zm ah hf loc' hm2 (by rw [hval]; exact h0) (nz _ _ by'.1) (nz _ _ bx'.1) _ rfl]
  simp only [add_zero, neg_neg, neg_zero, ite_self] at E00 E01 E0n E10 En0 E11 E1n En1 Enn
  obtain ⟨rx, ry, k1, k2⟩ := key (Spec.localFit (Spec.ccMap (prep zm im1) (prep zm im2)) loc)
    (Spec.localFit (Spec.ccMap (prep zm (Spec.flip fy fx im1)) (prep zm (Spec.flip fy fx im2))) loc') loc'
    (by simp only [Spec.localFit, Spec.curvX]
        simp only [sub_eq_add_neg]
        rw [E01, E0n, E00]; cases fx <;> simp only [if_true, Bool.false_eq_true, if_false] <;> ring)
    (by simp only [Spec.localFit, Spec.curvY]
        simp only [sub_eq_add_neg]
        rw [E10, En0, E00]; cases fy <;> simp only [if_true, Bool.false_eq_true, if_false] <;> ring)
    (by simp only [Spec.localFit, Spec.mixed]
        simp only [sub_eq_add_neg]
        rw [E11, Enn, E1n, En1]
        cases fy <;> cases fx <;> simp only [if_true, Bool.false_eq_true, if_false, Spec.sgn] <;> ring)
    (by
      simp only [Spec.localFit, Spec.slopeX]
      rw [if_pos (by omega), if_pos (by omega)]
      simp only [sub_eq_add_neg]
      rw [E01, E0n]
      cases fx <;> simp only [if_true, Bool.false_eq_true, if_false, Spec.sgn] <;> ring)
    (by
      simp only [Spec.localFit, Spec.slopeY]
      rw [if_pos (by omega), if_pos (by omega)]
      simp only [sub_eq_add_neg]
      rw [E10, En0]
      cases fy <;> simp only [if_true, Bool.false_eq_true, if_false, Spec.sgn] <;> ring)
    (by cases fy
        · exact_mod_cast l1
        · simp only [if_true] at l1 ⊢; exact_mod_cast l1)
    (by cases fx
        · exact_mod_cast l2
        · simp only [if_true] at l2 ⊢; exact_mod_cast l2)
  exact ⟨rx, ry, congrArg _ k1, congrArg _ k2⟩

end

end ImgReg
