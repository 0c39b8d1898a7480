import Verif.Props.RegisterSymm
import Verif.Props.Again

/-!
# Moving an image and calling `register_images` again (C134)
-/

open Complex Finset

namespace ImgReg

section
variable {ny nx : ℕ} [NeZero ny] [NeZero nx]

/-- a number reduced by a multiple of a period to at most half of it -/
theorem exists_reduced (J : ℤ) (P : ℕ) (hP : 0 < P) : ∃ m : ℤ, |2 * ((J - m * P : ℤ) : ℝ)| ≤ P := by
  refine ⟨round ((J : ℝ) / P), ?_⟩
  have hP' : (0 : ℝ) < P := by exact_mod_cast hP
  have h := abs_sub_round ((J : ℝ) / P)
  have e : 2 * ((J - round ((J : ℝ) / P) * P : ℤ) : ℝ) = 2 * P * ((J : ℝ) / P - round ((J : ℝ) / P)) := by
    push_cast; field_simp
  rw [e, abs_mul, abs_of_pos (by positivity)]
  nlinarith

/-- a clear match stays one when everything is translated by whole coarse steps, provided the new position is inside the image -/
theorem Spec.ClearMatch.translate {F : ℝ → ℝ → ℝ} {usfac : ℕ} (hu : 1 ≤ usfac) {row2 col2 t0 u0 : ℝ}
    (hF : ∀ (t u : ℝ) (l k : ℤ), F (t + l * ny) (u + k * nx) = F t u)
    (h : Spec.ClearMatch F ny nx usfac row2 col2 t0 u0) (a b : ℝ)
    (ha : ∃ α : ℤ, a = α / Spec.density usfac) (hb : ∃ β : ℤ, b = β / Spec.density usfac)
    (ha' : ∃ z : ℤ, a = z / usfac) (hb' : ∃ z : ℤ, b = z / usfac)
    (hya : |2 * (row2 + a)| < ny) (hxb : |2 * (col2 + b)| < nx) :
    Spec.ClearMatch (fun t u => F (t - a) (u - b)) ny nx usfac (row2 + a) (col2 + b) (t0 + a) (u0 + b) := by
  obtain ⟨⟨j, k, hj, hk, hjr, hkr, hbest⟩, hfine⟩ := h
  obtain ⟨α, hα⟩ := ha
  obtain ⟨β, hβ⟩ := hb
  obtain ⟨z1, hz1⟩ := ha'
  obtain ⟨z2, hz2⟩ := hb'
  have hq : 0 < Spec.density usfac := by unfold Spec.density; split_ifs <;> norm_num
  have hqR : (0 : ℝ) < Spec.density usfac := by exact_mod_cast hq
  have hu0 : (0 : ℝ) < usfac := by exact_mod_cast (by omega : 0 < usfac)
  have hny := Nat.pos_of_ne_zero (NeZero.ne ny)
  have hnx := Nat.pos_of_ne_zero (NeZero.ne nx)
  refine ⟨⟨j + α, k + β, ?_, ?_, hya, hxb, ?_⟩, ?_⟩
  · rw [hj, hα]; push_cast; ring
  · rw [hk, hβ]; push_cast; ring
  · intro j' k' h1 h2 h3
    obtain ⟨m, hm⟩ := exists_reduced (j' - α) (Spec.density usfac * ny) (by positivity)
    obtain ⟨n, hn⟩ := exists_reduced (k' - β) (Spec.density usfac * nx) (by positivity)
    have bound : ∀ (J : ℤ) (N : ℕ), |2 * (J : ℝ)| ≤ ((Spec.density usfac * N : ℕ) : ℝ) → |2 * ((J : ℝ) / Spec.density usfac)| ≤ N := by
      intro J N h
      rw [← mul_div_assoc, abs_div, abs_of_pos hqR, div_le_iff₀ hqR]
      push_cast at h ⊢
      linarith
    have key := hbest (j' - α - m * (Spec.density usfac * ny : ℕ)) (k' - β - n * (Spec.density usfac * nx : ℕ)) (bound _ _ hm) (bound _ _ hn)
    have zero : ∀ (J a0 i m : ℤ) (N : ℕ), 0 < N → J - a0 - m * (Spec.density usfac * N : ℕ) = i → |2 * ((J : ℝ) / Spec.density usfac)| ≤ N →
        |2 * ((i : ℝ) / Spec.density usfac + (a0 : ℝ) / Spec.density usfac)| < N → J = i + a0 := by
      intro J a0 i m N hN he hJ hi
      have hNR : (0 : ℝ) < N := by exact_mod_cast hN
      have he' : (J : ℝ) - a0 - m * (Spec.density usfac * N) = i := by exact_mod_cast he
      have e : (m : ℝ) * N = (J : ℝ) / Spec.density usfac - ((i : ℝ) / Spec.density usfac + (a0 : ℝ) / Spec.density usfac) := by
        rw [← he']; field_simp; ring
      have hb : |(m : ℝ) * N| < N := by
        rw [e, abs_lt]
        rw [abs_le] at hJ
        rw [abs_lt] at hi
        constructor <;> linarith
      rw [abs_mul, abs_of_pos hNR] at hb
      have : |(m : ℝ)| < 1 := by nlinarith
      have hm0 : m = 0 := by
        have : |m| < 1 := by exact_mod_cast this
        exact Int.abs_lt_one_iff.1 this
      rw [hm0] at he
      omega
    have hne : (j' - α - m * (Spec.density usfac * ny : ℕ), k' - β - n * (Spec.density usfac * nx : ℕ)) ≠ (j, k) := by
      intro he
      rw [Prod.mk.injEq] at he
      apply h3
      rw [Prod.mk.injEq]
      exact ⟨zero _ _ _ _ _ hny he.1 h1 (by rw [hj, hα] at hya; exact hya), zero _ _ _ _ _ hnx he.2 h2 (by rw [hk, hβ] at hxb; exact hxb)⟩
    have h4 := key hne
    show F (j' / Spec.density usfac - a) (k' / Spec.density usfac - b) < F (row2 + a - a) (col2 + b - b)
    rw [add_sub_cancel_right, add_sub_cancel_right]
    refine lt_of_eq_of_lt ?_ h4
    rw [← hF _ _ (-m) (-n)]
    congr 1
    · rw [hα]; push_cast; field_simp; ring
    · rw [hβ]; push_cast; field_simp; ring
  · split_ifs at hfine ⊢ with hc
    · rw [hfine.1, hfine.2]; exact ⟨rfl, rfl⟩
    · obtain ⟨⟨z0, hz0⟩, ⟨w0, hw0⟩, d1, d2, hbest2⟩ := hfine
      refine ⟨⟨z0 + z1, by rw [hz0, hz1]; push_cast; ring⟩, ⟨w0 + z2, by rw [hw0, hz2]; push_cast; ring⟩, ?_, ?_, fun z w h1 h2 h3 => ?_⟩
      · rwa [add_sub_add_right_eq_sub]
      · rwa [add_sub_add_right_eq_sub]
      · have e1 : (((z - z1 : ℤ)) : ℝ) / usfac = (z : ℝ) / usfac - a := by rw [hz1]; push_cast; ring
        have e2 : (((w - z2 : ℤ)) : ℝ) / usfac = (w : ℝ) / usfac - b := by rw [hz2]; push_cast; ring
        have := hbest2 (z - z1) (w - z2) (by rw [e1, sub_sub, add_comm a]; exact h1) (by rw [e2, sub_sub, add_comm b]; exact h2)
          (fun he => h3 (by
            rw [e1, e2, Prod.mk.injEq] at he
            rw [Prod.mk.injEq]
            exact ⟨by linarith [he.1], by linarith [he.2]⟩))
        rw [e1, e2] at this
        show F (z / usfac - a) (w / usfac - b) < F (t0 + a - a) (u0 + b - b)
        rwa [add_sub_cancel_right, add_sub_cancel_right]

theorem register_moved (cfg : FFTConfig) (im1 im2 im2' : Fin ny × Fin nx → Pix) (usfac : ℕ) (hu : 1 ≤ usfac)
    (hsz : usfac = 1 ∨ (2 ≤ ny ∧ 2 ≤ nx)) (zm : Bool) (row2 col2 t0 u0 : ℝ)
    (h : Spec.ClearMatch (fun t u => ‖Spec.cc (prep zm im1) (prep zm im2) t u‖) ny nx usfac row2 col2 t0 u0)
    (dy dx : ℝ) (hb : ∀ p, (prep zm im2' p : ℂ) = cshift dy dx (prep zm im2) p)
    (hy : ∃ α : ℤ, dy = α / Spec.density usfac) (hx : ∃ β : ℤ, dx = β / Spec.density usfac)
    (hy' : ∃ z : ℤ, dy = z / usfac) (hx' : ∃ z : ℤ, dx = z / usfac) (l k : ℤ)
    (hl : |2 * (row2 - dy + l * ny)| < ny) (hk : |2 * (col2 - dx + k * nx)| < nx) :
    registerImages cfg im1 im2 usfac false false zm none = .ok [.num (-u0), .num (-t0)] ∧
    registerImages cfg im1 im2' usfac false false zm none = .ok [.num (-u0 + dx - k * nx), .num (-t0 + dy - l * ny)] := by
  refine ⟨C119_clear_match cfg im1 im2 usfac hu hsz zm row2 col2 t0 u0 h, ?_⟩
  have hq : (Spec.density usfac : ℝ) ≠ 0 := by unfold Spec.density; split_ifs <;> norm_num
  have hu0 : (usfac : ℝ) ≠ 0 := by exact_mod_cast (by omega : usfac ≠ 0)
  have hper : ∀ (t u : ℝ) (l k : ℤ), ‖Spec.cc (prep zm im1) (prep zm im2) (t + l * ny) (u + k * nx)‖
      = ‖Spec.cc (prep zm im1) (prep zm im2) t u‖ := by
    intro t u l k
    rw [cc_period _ _ (t + l * ny) (u + k * nx) t u ⟨l, by ring⟩ ⟨k, by ring⟩]
  obtain ⟨α, hα⟩ := hy
  obtain ⟨β, hβ⟩ := hx
  obtain ⟨z1, hz1⟩ := hy'
  obtain ⟨z2, hz2⟩ := hx'
  have ht := h.translate hu hper (-dy + l * ny) (-dx + k * nx)
    ⟨-α + l * ny * Spec.density usfac, by rw [hα]; push_cast; field_simp⟩
    ⟨-β + k * nx * Spec.density usfac, by rw [hβ]; push_cast; field_simp⟩
    ⟨-z1 + l * ny * usfac, by rw [hz1]; push_cast; field_simp⟩
    ⟨-z2 + k * nx * usfac, by rw [hz2]; push_cast; field_simp⟩
    (by rw [← add_assoc, ← sub_eq_add_neg]; exact hl) (by rw [← add_assoc, ← sub_eq_add_neg]; exact hk)
  have hFF : (fun t u => ‖Spec.cc (prep zm im1) (prep zm im2) (t - (-dy + l * ny)) (u - (-dx + k * nx))‖)
      = fun t u => ‖Spec.cc (prep zm im1) (prep zm im2') t u‖ := by
    funext t u
    rw [← hper _ _ l k]
    congr 1
    unfold Spec.cc
    rw [cshift_cshift _ _ _ _ _ _ hb]
    have e1 : t - (-dy + l * ny) + l * ny = t + dy := by ring
    have e2 : u - (-dx + k * nx) + k * nx = u + dx := by ring
    rw [e1, e2]
  rw [hFF] at ht
  rw [C119_clear_match cfg im1 im2' usfac hu hsz zm _ _ _ _ ht]
  have e1 : -(u0 + (-dx + k * nx)) = -u0 + dx - k * nx := by ring
  have e2 : -(t0 + (-dy + l * ny)) = -t0 + dy - l * ny := by ring
  rw [e1, e2]

/-- C134: when one displacement is clearly the best match, rolling the second image by whole pixels moves the answer of `register_images` by
exactly that much, up to whole image sizes (`l`, `k` bring the new displacement into the image), for every `usfac`. -/
theorem C134_roll_second (cfg : FFTConfig) (im1 im2 : Fin ny × Fin nx → Pix) (usfac : ℕ) (hu : 1 ≤ usfac)
    (hsz : usfac = 1 ∨ (2 ≤ ny ∧ 2 ≤ nx)) (zm : Bool) (row2 col2 t0 u0 : ℝ)
    (h : Spec.ClearMatch (fun t u => ‖Spec.cc (prep zm im1) (prep zm im2) t u‖) ny nx usfac row2 col2 t0 u0)
    (dy dx l k : ℤ) (hl : |2 * (row2 - dy + l * ny)| < ny) (hk : |2 * (col2 - dx + k * nx)| < nx) :
    ∃ x y : ℝ, registerImages cfg im1 im2 usfac false false zm none = .ok [.num x, .num y] ∧
      registerImages cfg im1 (Spec.roll2 dy dx im2) usfac false false zm none = .ok [.num (x + dx - k * nx), .num (y + dy - l * ny)] := by
  have hq : (Spec.density usfac : ℝ) ≠ 0 := by unfold Spec.density; split_ifs <;> norm_num
  have hu0 : (usfac : ℝ) ≠ 0 := by exact_mod_cast (by omega : usfac ≠ 0)
  have hb : ∀ p, (prep zm (Spec.roll2 dy dx im2) p : ℂ) = cshift dy dx (prep zm im2) p := by
    intro p
    rw [prep_roll2]
    exact (cshift_int dy dx _ p).symm
  exact ⟨_, _, register_moved cfg im1 im2 (Spec.roll2 dy dx im2) usfac hu hsz zm row2 col2 t0 u0 h dy dx hb
    ⟨dy * Spec.density usfac, by push_cast; field_simp⟩ ⟨dx * Spec.density usfac, by push_cast; field_simp⟩
    ⟨dy * usfac, by push_cast; field_simp⟩ ⟨dx * usfac, by push_cast; field_simp⟩ l k hl hk⟩

/-- C134: rolling the first image moves the answer the other way. -/
theorem C134_roll_first (cfg : FFTConfig) (im1 im2 : Fin ny × Fin nx → Pix) (usfac : ℕ) (hu : 1 ≤ usfac)
    (hsz : usfac = 1 ∨ (2 ≤ ny ∧ 2 ≤ nx)) (zm : Bool) (row2 col2 t0 u0 : ℝ)
    (h : Spec.ClearMatch (fun t u => ‖Spec.cc (prep zm im1) (prep zm im2) t u‖) ny nx usfac row2 col2 t0 u0)
    (dy dx l k : ℤ) (hl : |2 * (row2 + dy + l * ny)| < ny) (hk : |2 * (col2 + dx + k * nx)| < nx) :
    ∃ x y : ℝ, registerImages cfg im1 im2 usfac false false zm none = .ok [.num x, .num y] ∧
      registerImages cfg (Spec.roll2 dy dx im1) im2 usfac false false zm none = .ok [.num (x - dx - k * nx), .num (y - dy - l * ny)] := by
  obtain ⟨x, y, h1, h2⟩ := C134_roll_second cfg im1 im2 usfac hu hsz zm row2 col2 t0 u0 h (-dy) (-dx) l k
    (by push_cast; rwa [sub_neg_eq_add]) (by push_cast; rwa [sub_neg_eq_add])
  refine ⟨x, y, h1, ?_⟩
  have := C119_common_roll cfg im1 (Spec.roll2 (-dy) (-dx) im2) usfac false zm none dy dx
  have hr : Spec.roll2 dy dx (Spec.roll2 (-dy) (-dx) im2) = im2 := by
    rw [roll2_add, add_neg_cancel, add_neg_cancel, roll2_zero]
  rw [hr] at this
  rw [this, h2]
  push_cast
  rw [← sub_eq_add_neg, ← sub_eq_add_neg]

/-- C134: measured again after the correction, nothing is left. Let `[x, y]` be the answer of `register_images`, when one displacement is
clearly the best match and the answer is a multiple of half a pixel (of a pixel for `usfac=1`; always so for `usfac ≤ 2`), and let the second
image Fourier-shifted back by it be real (it is for odd sizes, and always for whole pixels). Then `register_images` of the first and the
shifted second image returns `[0, 0]`. -/
theorem C134_measured_again (cfg cfg' : FFTConfig) (im1 : Fin ny × Fin nx → Pix) (im2 corrected : Fin ny × Fin nx → ℝ) (usfac : ℕ)
    (hu : 1 ≤ usfac) (hsz : usfac = 1 ∨ (2 ≤ ny ∧ 2 ≤ nx)) (zm : Bool) (row2 col2 t0 u0 : ℝ)
    (h : Spec.ClearMatch (fun t u => ‖Spec.cc (prep zm im1) (prep zm (realArr im2)) t u‖) ny nx usfac row2 col2 t0 u0)
    (hy : ∃ α : ℤ, t0 = α / Spec.density usfac) (hx : ∃ β : ℤ, u0 = β / Spec.density usfac) :
    ∃ x y : ℝ, registerImages cfg im1 (realArr im2) usfac false false zm none = .ok [.num x, .num y] ∧
      (shift2d cfg' (rArr im2) (-x) (-y) 0 false false = .cplx (rArr corrected) →
        registerImages cfg im1 (realArr corrected) usfac false false zm none = .ok [.num 0, .num 0]) := by
  refine ⟨_, _, C119_clear_match cfg im1 _ usfac hu hsz zm row2 col2 t0 u0 h, fun hs => ?_⟩
  rw [neg_neg, neg_neg, rArr_eq_cArr corrected] at hs
  have hb0 := shift2d_cplx hs
  have hb := prep_cshift zm im2 corrected t0 u0 (fun p => congrFun hb0 p)
  have hny : (0 : ℝ) < ny := by exact_mod_cast Nat.pos_of_ne_zero (NeZero.ne ny)
  have hnx : (0 : ℝ) < nx := by exact_mod_cast Nat.pos_of_ne_zero (NeZero.ne nx)
  have hfine := h.fine
  have near : (∃ z : ℤ, t0 = z / usfac) ∧ (∃ z : ℤ, u0 = z / usfac) ∧ |2 * (row2 - t0)| < ny ∧ |2 * (col2 - u0)| < nx := by
    split_ifs at hfine with hc
    · obtain ⟨j, k, hj, hk, -⟩ := h.coarse
      rw [hfine.1, hfine.2, sub_self, sub_self, mul_zero, abs_zero]
      refine ⟨?_, ?_, hny, hnx⟩
      · obtain rfl | rfl : usfac = 1 ∨ usfac = 2 := by omega
        · exact ⟨j, by rw [hj]; norm_num [Spec.density]⟩
        · exact ⟨j, by rw [hj]; norm_num [Spec.density]⟩
      · obtain rfl | rfl : usfac = 1 ∨ usfac = 2 := by omega
        · exact ⟨k, by rw [hk]; norm_num [Spec.density]⟩
        · exact ⟨k, by rw [hk]; norm_num [Spec.density]⟩
    · obtain ⟨h1, h2, d1, d2, -⟩ := hfine
      obtain ⟨hny2, hnx2⟩ : 2 ≤ ny ∧ 2 ≤ nx := hsz.resolve_left (by omega)
      have hnyR : (2 : ℝ) ≤ ny := by exact_mod_cast hny2
      have hnxR : (2 : ℝ) ≤ nx := by exact_mod_cast hnx2
      refine ⟨h1, h2, ?_, ?_⟩
      · rw [abs_mul, abs_two, abs_sub_comm]; linarith
      · rw [abs_mul, abs_two, abs_sub_comm]; linarith
  have := (register_moved cfg im1 (realArr im2) (realArr corrected) usfac hu hsz zm row2 col2 t0 u0 h t0 u0 hb hy hx near.1 near.2.1 0 0
    (by simpa using near.2.2.1) (by simpa using near.2.2.2)).2
  rw [this]
  simp

end
/-- a 4 × 5 star and its roll by (1, -2): one displacement is clearly the best match, for every `usfac` -/
theorem star_clear (usfac : ℕ) (hu : 1 ≤ usfac) :
    Spec.ClearMatch (fun t u => ‖Spec.cc (prep false (realArr fun p : Fin 4 × Fin 5 => if p = 0 then (1 : ℝ) else 0))
      (prep false (realArr (Spec.roll2 1 (-2) fun p : Fin 4 × Fin 5 => if p = 0 then (1 : ℝ) else 0))) t u‖) 4 5 usfac (-1) 2 (-1) 2 := by
  have hd : ∀ k : Fin 4 × Fin 5,
      dft (fun p : Fin 4 × Fin 5 => ((if p = 0 then (1 : ℝ) else 0 : ℝ) : ℂ)) k ≠ 0 := by
    intro k
    have h1 : dft (fun p : Fin 4 × Fin 5 => ((if p = 0 then (1 : ℝ) else 0 : ℝ) : ℂ)) k = 1 := by
      unfold dft
      rw [Finset.sum_eq_single 0]
      · simp [FFTIndex.e_zero]
      · intro b _ hb; simp [hb]
      · simp
    rw [h1]; exact one_ne_zero
  have hid := identifiable_of_dft (Spec.candidates usfac) (fun p : Fin 4 × Fin 5 => if p = 0 then (1 : ℝ) else 0)
    (by norm_num) (by norm_num) (hd _) (hd _) (Or.inl (hd _))
  have hsz : usfac = 1 ∨ (2 ≤ 4 ∧ 2 ≤ 5) := Or.inr ⟨by norm_num, by norm_num⟩
  have hm := clearMatch_roll _ usfac hu hsz hid 1 (-2) (by norm_num) (by norm_num)
  have hp : ∀ a : Fin 4 × Fin 5 → ℝ, prep false (realArr a) = a := by
    intro a; rw [prep_real]; funext p; simp
  rw [hp, hp]
  simpa using hm

/-- the hypotheses of `C134_roll_second` are met: the star is moved by another column -/
example (cfg : FFTConfig) (usfac : ℕ) (hu : 1 ≤ usfac) : ∃ x y : ℝ,
    registerImages cfg (realArr fun p : Fin 4 × Fin 5 => if p = 0 then (1 : ℝ) else 0)
      (realArr (Spec.roll2 1 (-2) fun p : Fin 4 × Fin 5 => if p = 0 then (1 : ℝ) else 0)) usfac false false false none = .ok [.num x, .num y] ∧
    registerImages cfg (realArr fun p : Fin 4 × Fin 5 => if p = 0 then (1 : ℝ) else 0)
      (Spec.roll2 0 1 (realArr (Spec.roll2 1 (-2) fun p : Fin 4 × Fin 5 => if p = 0 then (1 : ℝ) else 0))) usfac false false false none
      = .ok [.num (x + 1), .num y] := by
  obtain ⟨x, y, h1, h2⟩ := C134_roll_second cfg _ _ usfac hu (Or.inr ⟨by norm_num, by norm_num⟩) false _ _ _ _ (star_clear usfac hu) 0 1 0 0
    (by norm_num [abs_lt]) (by norm_num [abs_lt])
  exact ⟨x, y, h1, h2.trans (by simp)⟩

/-- the hypotheses of `C134_measured_again` are met: the star measured, moved back and measured again -/
example (cfg cfg' : FFTConfig) (usfac : ℕ) (hu : 1 ≤ usfac) : ∃ (x y : ℝ) (corrected : Fin 4 × Fin 5 → ℝ),
    registerImages cfg (realArr fun p : Fin 4 × Fin 5 => if p = 0 then (1 : ℝ) else 0)
      (realArr (Spec.roll2 1 (-2) fun p : Fin 4 × Fin 5 => if p = 0 then (1 : ℝ) else 0)) usfac false false false none = .ok [.num x, .num y] ∧
    shift2d cfg' (rArr (Spec.roll2 1 (-2) fun p : Fin 4 × Fin 5 => if p = 0 then (1 : ℝ) else 0)) (-x) (-y) 0 false false
      = .cplx (rArr corrected) ∧
    registerImages cfg (realArr fun p : Fin 4 × Fin 5 => if p = 0 then (1 : ℝ) else 0) (realArr corrected) usfac false false false none
      = .ok [.num 0, .num 0] := by
  have hq : (Spec.density usfac : ℝ) ≠ 0 := by unfold Spec.density; split_ifs <;> norm_num
  have hsz : usfac = 1 ∨ (2 ≤ 4 ∧ 2 ≤ 5) := Or.inr ⟨by norm_num, by norm_num⟩
  obtain ⟨x, y, h1, h2⟩ := C134_measured_again cfg cfg' _ _
    (Spec.roll2 (-1) 2 (Spec.roll2 1 (-2) fun p : Fin 4 × Fin 5 => if p = 0 then (1 : ℝ) else 0)) usfac hu hsz false _ _ _ _
    (star_clear usfac hu) ⟨-Spec.density usfac, by push_cast; field_simp⟩ ⟨2 * Spec.density usfac, by push_cast; field_simp⟩
  have h3 := C119_clear_match cfg _ _ usfac hu hsz false _ _ _ _ (star_clear usfac hu)
  have e := Except.ok.inj (h3.symm.trans h1)
  simp only [List.cons.injEq, RegVal.num.injEq, and_true] at e
  obtain ⟨rfl, rfl⟩ := e
  have hs : shift2d cfg' (rArr (Spec.roll2 1 (-2) fun p : Fin 4 × Fin 5 => if p = 0 then (1 : ℝ) else 0)) (- -2) (- - -1) 0 false false
      = .cplx (rArr (Spec.roll2 (-1) 2 (Spec.roll2 1 (-2) fun p : Fin 4 × Fin 5 => if p = 0 then (1 : ℝ) else 0))) := by
    have := C02_shift2d_integer_roll_complex cfg'
      (fun p => ((Spec.roll2 1 (-2) (fun p : Fin 4 × Fin 5 => if p = 0 then (1 : ℝ) else 0) p : ℝ) : ℂ)) 2 (-1)
    rw [rArr_eq_cArr, rArr_eq_cArr, neg_neg, neg_neg]
    push_cast at this
    exact this
  exact ⟨_, _, _, h1, hs, h2 hs⟩

end ImgReg
