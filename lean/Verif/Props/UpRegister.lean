import Verif.Props.Resample
import Verif.Props.Chi2Recover
import Verif.Props.Register
import Verif.Props.Cases

/-!
# Registering upsampled images (C152)

`upsample_image` both images, register the real parts by whole pixels: displacements by multiples of `1/upsample_factor` are exact.
-/

open Complex Finset
open scoped ComplexConjugate

namespace ImgReg

theorem idft_conj_neg {ι : Type} [AddCommGroup ι] [Fintype ι] [DecidableEq ι] [FFTIndex ι] (x : ι → ℂ) (k : ι) :
    idft (fun i => conj (x i)) k = conj (idft x (-k)) := by
  unfold idft
  rw [map_mul, map_sum]
  congr 1
  · simp
  · refine Finset.sum_congr rfl fun j _ => ?_
    rw [map_mul, FFTIndex.e_symm j (-k), e_neg_left, FFTIndex.e_symm j k, Complex.conj_conj]

theorem idft_ofReal {ι : Type} [AddCommGroup ι] [Fintype ι] [DecidableEq ι] [FFTIndex ι] (x : ι → ℝ) (k : ι) :
    idft (fun i => (x i : ℂ)) k = (1 / (Fintype.card ι : ℂ)) * conj (dft (fun i => (x i : ℂ)) k) := by
  unfold idft dft
  rw [map_sum]
  congr 1
  refine Finset.sum_congr rfl fun j _ => ?_
  rw [map_mul, Complex.conj_conj, Complex.conj_ofReal, FFTIndex.e_symm]

theorem wrap_neg (n : ℕ) [NeZero n] (m : ℤ) : Spec.wrap n (-m) = -Spec.wrap n m := by
  have h := Spec.wrap_sub (n := n) (0 : Fin n) m
  simpa using h

section one
variable {n : ℕ} [NeZero n]

private theorem idft_fine1 (x : Fin n → ℂ) (N : ℕ) [NeZero N] (h : n ≤ N) (τ : ℝ) (m : ℤ) (hm : 2 * |m| < n) :
    idft (fun a : Fin N => interpC x (τ + ((a : ℕ) : ℝ) * ((n : ℝ) / N))) (Spec.wrap N m)
      = idft x (Spec.wrap n m) * ex (-((m : ℝ) / n * τ)) := by
  rw [fine_idft, Finset.sum_eq_single (Spec.wrap n m)]
  · rw [fftfreqInt_wrap m hm, if_pos rfl]
    unfold coefAt
    rw [Np.fftfreq_eq, fftfreqInt_wrap m hm]
  · intro k _ hk
    rw [if_neg]
    intro hcon
    apply hk
    refine (fine_inj N h) (hcon.symm.trans ?_)
    show Spec.wrap N m = Spec.wrap N (Np.fftfreqInt n (Spec.wrap n m))
    rw [fftfreqInt_wrap m hm]
  · simp

end one

section two
variable {ny nx : ℕ} [NeZero ny] [NeZero nx]

private theorem idft_interp_swap (x : Fin ny × Fin nx → ℂ) (t : ℝ) (k : Fin nx) :
    idft (fun j => interpC (fun i => x (i, j)) t) k = interpC (fun i => idft (fun j => x (i, j)) k) t := by
  unfold idft
  rw [interpC_smul, interpC_sum]
  congr 1
  refine Finset.sum_congr rfl fun j _ => ?_
  have := interpC_smul (fun i => x (i, j)) (e j k) t
  rw [mul_comm, ← this]
  congr 1
  funext i
  ring

private theorem idft_fine2 (x : Fin ny × Fin nx → ℂ) (M L : ℕ) [NeZero M] [NeZero L] (hM : ny ≤ M) (hL : nx ≤ L) (τ σ : ℝ)
    (m l : ℤ) (hm : 2 * |m| < ny) (hl : 2 * |l| < nx) :
    idft (fun p : Fin M × Fin L => interp2C x (τ + ((p.1 : ℕ) : ℝ) * ((ny : ℝ) / M)) (σ + ((p.2 : ℕ) : ℝ) * ((nx : ℝ) / L)))
        (Spec.wrap M m, Spec.wrap L l)
      = idft x (Spec.wrap ny m, Spec.wrap nx l) * (ex (-((m : ℝ) / ny * τ)) * ex (-((l : ℝ) / nx * σ))) := by
  rw [idft_prod]
  simp only [interp2C_sep]
  simp only [idft_fine1 _ L hL σ l hl, idft_interp_swap]
  rw [idft_mul_const, idft_fine1 _ M hM τ m hm, idft_prod x]
  ring

/-- the low frequencies of the real part of a fine sampling of a real image -/
private theorem idft_fine_re (a : Fin ny × Fin nx → ℝ) (M L : ℕ) [NeZero M] [NeZero L] (hM : ny ≤ M) (hL : nx ≤ L) (τ σ : ℝ)
    (m l : ℤ) (hm : 2 * |m| < ny) (hl : 2 * |l| < nx) :
    idft (fun p : Fin M × Fin L =>
        (((interp2C (fun i => (a i : ℂ)) (τ + ((p.1 : ℕ) : ℝ) * ((ny : ℝ) / M)) (σ + ((p.2 : ℕ) : ℝ) * ((nx : ℝ) / L))).re : ℝ) : ℂ))
        (Spec.wrap M m, Spec.wrap L l)
      = idft (fun i => (a i : ℂ)) (Spec.wrap ny m, Spec.wrap nx l) * (ex (-((m : ℝ) / ny * τ)) * ex (-((l : ℝ) / nx * σ))) := by
  have h1 := idft_fine2 (fun i => (a i : ℂ)) M L hM hL τ σ m l hm hl
  have h2 := idft_fine2 (fun i => (a i : ℂ)) M L hM hL τ σ (-m) (-l) (by rwa [abs_neg]) (by rwa [abs_neg])
  generalize hG : (fun p : Fin M × Fin L => interp2C (fun i => (a i : ℂ)) (τ + ((p.1 : ℕ) : ℝ) * ((ny : ℝ) / M))
    (σ + ((p.2 : ℕ) : ℝ) * ((nx : ℝ) / L))) = G at h1 h2
  have h3 : idft (fun i => (a i : ℂ)) (Spec.wrap ny (-m), Spec.wrap nx (-l))
      = conj (idft (fun i => (a i : ℂ)) (Spec.wrap ny m, Spec.wrap nx l)) := by
    have := idft_conj_neg (fun i : Fin ny × Fin nx => (a i : ℂ)) (Spec.wrap ny (-m), Spec.wrap nx (-l))
    simp only [Complex.conj_ofReal] at this
    rw [this, wrap_neg, wrap_neg]
    congr 2
    exact Prod.ext (neg_neg _) (neg_neg _)
  have h4 : idft (fun p => conj (G p)) (Spec.wrap M m, Spec.wrap L l)
      = conj (idft G (Spec.wrap M (-m), Spec.wrap L (-l))) := by
    rw [idft_conj_neg, wrap_neg, wrap_neg]
    rfl
  have h5 : (fun p : Fin M × Fin L =>
        (((interp2C (fun i => (a i : ℂ)) (τ + ((p.1 : ℕ) : ℝ) * ((ny : ℝ) / M)) (σ + ((p.2 : ℕ) : ℝ) * ((nx : ℝ) / L))).re : ℝ) : ℂ))
      = fun p => (1 / 2 : ℂ) * (G p + conj (G p)) := by
    funext p
    rw [← hG]
    rw [Complex.add_conj]
    push_cast
    ring
  have h6 : ∀ (f g : Fin M × Fin L → ℂ) k, idft (fun p => f p + g p) k = idft f k + idft g k := by
    intro f g k
    rw [idft_add]
  rw [h5, idft_smul]
  show (1 / 2 : ℂ) * idft (fun p => G p + conj (G p)) _ = _
  rw [h6, h4, h1, h2, h3, map_mul, map_mul, Complex.conj_conj, conj_ex, conj_ex]
  push_cast
  rw [show -(-(-(m : ℝ) / ny * τ)) = -((m : ℝ) / ny * τ) by ring, show -(-(-(l : ℝ) / nx * σ)) = -((l : ℝ) / nx * σ) by ring]
  ring

/-- and in terms of the FFT of the two real images: it vanishes only where that of the coarse image vanishes -/
private theorem dft_fine_re_ne (a : Fin ny × Fin nx → ℝ) (M L : ℕ) [NeZero M] [NeZero L] (hM : ny ≤ M) (hL : nx ≤ L) (τ σ : ℝ)
    (m l : ℤ) (hm : 2 * |m| < ny) (hl : 2 * |l| < nx)
    (h : dft (fun i => (a i : ℂ)) (Spec.wrap ny m, Spec.wrap nx l) ≠ 0) :
    dft (fun p : Fin M × Fin L =>
        (((interp2C (fun i => (a i : ℂ)) (τ + ((p.1 : ℕ) : ℝ) * ((ny : ℝ) / M)) (σ + ((p.2 : ℕ) : ℝ) * ((nx : ℝ) / L))).re : ℝ) : ℂ))
        (Spec.wrap M m, Spec.wrap L l) ≠ 0 := by
  intro h0
  have h1 := idft_fine_re a M L hM hL τ σ m l hm hl
  rw [idft_ofReal, idft_ofReal, h0, map_zero, mul_zero] at h1
  have hex : ∀ t : ℝ, ex t ≠ 0 := fun t ht => by
    have := norm_ex t
    rw [ht, norm_zero] at this
    exact zero_ne_one this
  have hc : (Fintype.card (Fin ny × Fin nx) : ℂ) ≠ 0 := card_ne_zero'
  exact (mul_ne_zero (mul_ne_zero (one_div_ne_zero hc) ((map_ne_zero _).2 h)) (mul_ne_zero (hex _) (hex _))) h1.symm

theorem wrap_one {n : ℕ} [NeZero n] (h : 2 ≤ n) : Spec.wrap n 1 = 1 := by
  have := Spec.wrap_val n (1 : Fin n)
  rwa [Fin.val_one', Nat.mod_eq_of_lt (by omega), Nat.cast_one] at this

theorem wrap_zero {n : ℕ} [NeZero n] : Spec.wrap n 0 = 0 := by
  have := Spec.wrap_val n (0 : Fin n)
  simpa using this

/-- C152: `im2` is `im1` moved by `(dx, dy)` (a Fourier shift without imaginary part) and the displacement is a multiple of
`1/upsample_factor`.  Then the upsampled `im2` is the upsampled `im1` rolled by whole pixels. -/
theorem C152_upsampled_roll (cfg cfg' : FFTConfig) (im1 im2 : Fin ny × Fin nx → ℝ) (dx dy : ℝ)
    (him2 : shift2d cfg' (rArr im1) dx dy 0 false false = .cplx (rArr im2))
    (us : ℕ) (hus : 0 < us) (X Y : ℤ) (hX : us * dx = X) (hY : us * dy = Y) (xs ys : ℝ) :
    ∃ (_ : NeZero (ny * us)) (_ : NeZero (nx * us)) (A B : Fin (ny * us) × Fin (nx * us) → ℂ),
      upsampleImage cfg (rArr im1) us .none xs ys = .ok ⟨ny * us, nx * us, cArr A⟩ ∧
      upsampleImage cfg (rArr im2) us .none xs ys = .ok ⟨ny * us, nx * us, cArr B⟩ ∧
      B = Spec.roll2 Y X A := by
  have hM : NeZero (ny * us) := ⟨mul_ne_zero (NeZero.ne ny) hus.ne'⟩
  have hL : NeZero (nx * us) := ⟨mul_ne_zero (NeZero.ne nx) hus.ne'⟩
  have h0 : (us : ℝ) ≠ 0 := by exact_mod_cast hus.ne'
  have hb : (fun p => (im2 p : ℂ)) = cshift dy dx im1 := shift2d_cplx (by rw [him2, rArr_eq_cArr])
  refine ⟨hM, hL, _, _, by rw [rArr_eq_cArr]; exact upsampleImage_eq cfg _ us hus .none xs ys,
    by rw [rArr_eq_cArr]; exact upsampleImage_eq cfg _ us hus .none xs ys, ?_⟩
  funext q
  unfold Spec.roll2
  have key : ∀ t u : ℝ, interp2C (fun i => (im2 i : ℂ)) t u = interp2C (fun i => (im1 i : ℂ)) (t - dy) (u - dx) := by
    intro t u
    have := interp2C_of_shift im1 im2 dy dx (fun p => congrFun hb p) (t - dy) (u - dx)
    rwa [sub_add_cancel, sub_add_cancel] at this
  have per : ∀ (n : ℕ) [NeZero (n * us)] (i : ℤ), ∃ c : ℤ, (((Spec.wrap (n * us) i : Fin (n * us)) : ℕ) : ℝ) = i + (c * n) * us := by
    intro n _ i
    obtain ⟨c, hc⟩ := (Spec.wrap_modEq (n * us) i).symm.dvd
    refine ⟨c, ?_⟩
    have : (((Spec.wrap (n * us) i : Fin (n * us)) : ℕ) : ℤ) = i + c * n * us := by
      push_cast at hc
      linear_combination hc
    exact_mod_cast this
  obtain ⟨c, hc⟩ := per ny (((q.1 : ℕ) : ℤ) - Y)
  obtain ⟨d, hd⟩ := per nx (((q.2 : ℕ) : ℤ) - X)
  show interp2C (fun i => (im2 i : ℂ)) ((((q.1 : ℕ) : ℝ) - ys) / us) ((((q.2 : ℕ) : ℝ) - xs) / us)
    = interp2C (fun i => (im1 i : ℂ)) (((((Spec.wrap (ny * us) (((q.1 : ℕ) : ℤ) - Y) : Fin (ny * us)) : ℕ) : ℝ) - ys) / us)
        (((((Spec.wrap (nx * us) (((q.2 : ℕ) : ℤ) - X) : Fin (nx * us)) : ℕ) : ℝ) - xs) / us)
  rw [hc, hd, key]
  push_cast
  rw [← hX, ← hY]
  have e : ∀ (i s t : ℝ) (c : ℤ) (n : ℕ), (i - us * t + c * n * us - s) / us = (i - s) / us - t + c * n := by
    intro i s t c n
    field_simp
    ring
  rw [e, e, interp2C_add_period]

/-- C152: registering the real parts of the upsampled images - with `register_images` at any `usfac`, or with `chi2_shift` at
`upsample_factor=1` and a uniform error - gives whole numbers of fine pixels, and divided by the factor they are the true displacement up
to whole image lengths, the representative in `[-n/2, n/2)`. -/
theorem C152_register_upsampled (cfg cfg' cfg'' : FFTConfig) (im1 im2 : Fin ny × Fin nx → ℝ) (hny : 3 ≤ ny) (hnx : 3 ≤ nx)
    (h10 : dft (fun p => (im1 p : ℂ)) (1, 0) ≠ 0) (h01 : dft (fun p => (im1 p : ℂ)) (0, 1) ≠ 0) (dx dy : ℝ)
    (him2 : shift2d cfg' (rArr im1) dx dy 0 false false = .cplx (rArr im2))
    (us : ℕ) (hus : 0 < us) (X Y : ℤ) (hX : us * dx = X) (hY : us * dy = Y) (xs ys : ℝ) :
    ∃ (_ : NeZero (ny * us)) (_ : NeZero (nx * us)) (A B : Fin (ny * us) × Fin (nx * us) → ℂ),
      upsampleImage cfg (rArr im1) us .none xs ys = .ok ⟨ny * us, nx * us, cArr A⟩ ∧
      upsampleImage cfg (rArr im2) us .none xs ys = .ok ⟨ny * us, nx * us, cArr B⟩ ∧
      (∀ (usfac : ℕ) (zm : Bool), 1 ≤ usfac →
        (dft (fun p => (im1 p : ℂ)) (1, 1) ≠ 0 ∨ (zm = false ∧ dft (fun p => (im1 p : ℂ)) (0, 0) ≠ 0)) →
        ∃ rx ry : ℤ, registerImages cfg'' (realArr fun q => (A q).re) (realArr fun q => (B q).re) usfac false false zm none
            = .ok [.num rx, .num ry] ∧
          (∃ z : ℤ, (rx : ℝ) / us = dx + z * nx) ∧ -(nx : ℝ) / 2 ≤ (rx : ℝ) / us ∧ (rx : ℝ) / us < nx / 2 ∧
          (∃ z : ℤ, (ry : ℝ) / us = dy + z * ny) ∧ -(ny : ℝ) / 2 ≤ (ry : ℝ) / us ∧ (ry : ℝ) / us < ny / 2) ∧
      ∀ (st : Stats) (_ : Spec.validStats st) (err : ErrArg (ny * us) (nx * us)) (s : ℝ) (_ : s ≠ 0) (_ : Spec.isScalarErr err s)
        (zm : Bool) (nf : ℝ) (mas : ℕ) (mns : ℝ) (ah : Bool), Spec.fits ah (ny * us) (nx * us) →
        ∃ rx ry : ℤ, chi2Shift cfg'' st (realArr fun q => (A q).re) (realArr fun q => (B q).re) err (.int 1) zm nf false false false
            mas mns ah = .ok [.num rx, .num ry] ∧
          (∃ z : ℤ, (rx : ℝ) / us = dx + z * nx) ∧ -(nx : ℝ) / 2 ≤ (rx : ℝ) / us ∧ (rx : ℝ) / us < nx / 2 ∧
          (∃ z : ℤ, (ry : ℝ) / us = dy + z * ny) ∧ -(ny : ℝ) / 2 ≤ (ry : ℝ) / us ∧ (ry : ℝ) / us < ny / 2 := by
  obtain ⟨hM, hL, A, B, hA, hB, hr⟩ := C152_upsampled_roll cfg cfg' im1 im2 dx dy him2 us hus X Y hX hY xs ys
  have hle : ∀ n : ℕ, n ≤ n * us := fun n => Nat.le_mul_of_pos_right _ hus
  have hr' : (fun q => (B q).re) = Spec.roll2 Y X fun q => (A q).re := by
    rw [hr]
    rfl
  have hAe : A = fun q : Fin (ny * us) × Fin (nx * us) => interp2C (fun i => (im1 i : ℂ))
      (-ys / us + ((q.1 : ℕ) : ℝ) * ((ny : ℝ) / (ny * us : ℕ))) (-xs / us + ((q.2 : ℕ) : ℝ) * ((nx : ℝ) / (nx * us : ℕ))) := by
    have h1 := upsampleImage_eq cfg (fun i => (im1 i : ℂ)) us hus .none xs ys
    rw [← rArr_eq_cArr, hA] at h1
    have h2 : cArr A = cArr fun q : Fin (ny * us) × Fin (nx * us) =>
        interp2C (fun i => (im1 i : ℂ)) ((((q.1 : ℕ) : ℝ) - ys) / us) ((((q.2 : ℕ) : ℝ) - xs) / us) := by
      injection h1 with h1
      injection h1
    have h0 : (us : ℝ) ≠ 0 := by exact_mod_cast hus.ne'
    have hy0 : (ny : ℝ) ≠ 0 := nR_ne_zero
    have hx0 : (nx : ℝ) ≠ 0 := nR_ne_zero
    funext q
    have h3 := congrFun h2 q
    simp only [cArr, Option.some.injEq] at h3
    rw [h3]
    push_cast
    congr 1 <;> · field_simp; ring
  have spec : ∀ m l : ℤ, 2 * |m| < ny → 2 * |l| < nx → dft (fun i => (im1 i : ℂ)) (Spec.wrap ny m, Spec.wrap nx l) ≠ 0 →
      dft (fun q => (((A q).re : ℝ) : ℂ)) (Spec.wrap (ny * us) m, Spec.wrap (nx * us) l) ≠ 0 := by
    intro m l hm hl h
    rw [hAe]
    exact dft_fine_re_ne im1 _ _ (hle ny) (hle nx) _ _ m l hm hl h
  have a0 : ∀ n : ℕ, 3 ≤ n → 2 * |(0 : ℤ)| < n := fun n hn => by rw [abs_zero]; omega
  have a1 : ∀ n : ℕ, 3 ≤ n → 2 * |(1 : ℤ)| < n := fun n hn => by rw [abs_one]; omega
  have s10 := spec 1 0 (a1 ny hny) (a0 nx hnx) (by rw [wrap_one (by omega), wrap_zero]; exact h10)
  have s01 := spec 0 1 (a0 ny hny) (a1 nx hnx) (by rw [wrap_one (by omega), wrap_zero]; exact h01)
  have hMle := hle ny
  have hLle := hle nx
  rw [wrap_one (by omega), wrap_zero] at s10 s01
  have fin : ∀ (n : ℕ) (r Z : ℤ) (d : ℝ), us * d = Z → r ≡ Z [ZMOD (n * us : ℕ)] → -((n * us : ℕ) : ℤ) ≤ 2 * r → 2 * r < (n * us : ℕ) →
      (∃ z : ℤ, (r : ℝ) / us = d + z * n) ∧ -(n : ℝ) / 2 ≤ (r : ℝ) / us ∧ (r : ℝ) / us < n / 2 := by
    intro n r Z d hZ hmod h1 h2
    have h0 : (0 : ℝ) < us := by exact_mod_cast hus
    obtain ⟨c, hc⟩ := hmod.symm.dvd
    have hc' : (r : ℝ) - Z = (n * us : ℕ) * c := by exact_mod_cast hc
    have h1' : -((n * us : ℕ) : ℝ) ≤ 2 * r := by exact_mod_cast h1
    have h2' : 2 * (r : ℝ) < (n * us : ℕ) := by exact_mod_cast h2
    push_cast at hc' h1' h2'
    refine ⟨⟨c, ?_⟩, ?_, ?_⟩
    · rw [div_eq_iff h0.ne']
      linear_combination hc' - hZ
    · rw [le_div_iff₀ h0]
      linarith
    · rw [div_lt_iff₀ h0]
      linarith
  refine ⟨hM, hL, A, B, hA, hB, ?_, ?_⟩
  · intro usfac zm hu h11
    obtain ⟨rx, ry, hreg, mx, lx, ux, my, ly, uy⟩ := C44_recovers_roll_spectrum cfg'' (fun q => (A q).re) Y X usfac hu (by omega) (by omega) zm
      s10 s01 (by
        rcases h11 with h | ⟨hz, h⟩
        · left
          have := spec 1 1 (a1 ny hny) (a1 nx hnx) (by rw [wrap_one (by omega), wrap_one (by omega)]; exact h)
          rwa [wrap_one (by omega), wrap_one (by omega)] at this
        · right
          refine ⟨hz, ?_⟩
          have := spec 0 0 (a0 ny hny) (a0 nx hnx) (by rw [wrap_zero, wrap_zero]; exact h)
          rwa [wrap_zero, wrap_zero] at this)
    rw [← hr'] at hreg
    obtain ⟨p1, p2, p3⟩ := fin nx rx X dx hX mx lx ux
    obtain ⟨q1, q2, q3⟩ := fin ny ry Y dy hY my ly uy
    exact ⟨rx, ry, hreg, p1, p2, p3, q1, q2, q3⟩
  · intro st hst err s hs herr zm nf mas mns ah hf
    have hif : ∀ k : ℕ, (if ny * us ≤ 1 then 2 * 1 else k) = k := fun k => if_neg (by omega)
    have hg : ∀ n : ℕ, 2 ≤ n → Spec.wholeOnGrid n n 1 := by
      intro n hn
      rcases Nat.even_or_odd n with h | h
      · exact Or.inr ⟨h, h, odd_one, by omega⟩
      · exact Or.inl ⟨h, h⟩
    obtain ⟨rx, ry, hreg, mx, lx, ux, my, ly, uy⟩ := C33_recovers_roll cfg'' st hst (fun q => (A q).re) (by omega) (by omega) s10 s01 Y X
      err s hs herr 1 one_pos zm nf mas mns ah hf (by rw [hif]; exact hg _ (by omega)) (by rw [hif]; exact hg _ (by omega))
    rw [← hr'] at hreg
    obtain ⟨p1, p2, p3⟩ := fin nx rx X dx hX mx lx ux
    obtain ⟨q1, q2, q3⟩ := fin ny ry Y dy hY my ly uy
    exact ⟨rx, ry, hreg, p1, p2, p3, q1, q2, q3⟩

/-- C152 for odd sizes: the images may be any, moved with the default (real) mode of `shift2d`. -/
theorem C152_register_upsampled_odd (cfg cfg' cfg'' : FFTConfig) (im1 im2 : Fin ny × Fin nx → ℝ) (hny : 3 ≤ ny) (hnx : 3 ≤ nx)
    (oy : Odd ny) (ox : Odd nx)
    (h10 : dft (fun p => (im1 p : ℂ)) (1, 0) ≠ 0) (h01 : dft (fun p => (im1 p : ℂ)) (0, 1) ≠ 0)
    (h11 : dft (fun p => (im1 p : ℂ)) (1, 1) ≠ 0) (dx dy : ℝ)
    (him2 : shift2d cfg' (rArr im1) dx dy 0 false true = .real (realArr im2))
    (us : ℕ) (hus : 0 < us) (X Y : ℤ) (hX : us * dx = X) (hY : us * dy = Y) (usfac : ℕ) (hu : 1 ≤ usfac) (zm : Bool)
    (hdx : -(nx : ℝ) / 2 ≤ dx ∧ dx < nx / 2) (hdy : -(ny : ℝ) / 2 ≤ dy ∧ dy < ny / 2) :
    ∃ (_ : NeZero (ny * us)) (_ : NeZero (nx * us)) (A B : Fin (ny * us) × Fin (nx * us) → ℂ),
      upsampleImage cfg (rArr im1) us .none 0 0 = .ok ⟨ny * us, nx * us, cArr A⟩ ∧
      upsampleImage cfg (rArr im2) us .none 0 0 = .ok ⟨ny * us, nx * us, cArr B⟩ ∧
      registerImages cfg'' (realArr fun q => (A q).re) (realArr fun q => (B q).re) usfac false false zm none
        = .ok [.num (us * dx), .num (us * dy)] := by
  have hre : (fun p => (im2 p : ℂ)) = cshift dy dx im1 := by
    rw [shift2d_real] at him2
    have h1 : (realArr fun p => (cshift dy dx im1 p).re) = realArr im2 := by injection him2
    funext p
    have h2 := congrFun h1 p
    simp only [realArr, Option.some.injEq] at h2
    rw [← h2]
    exact cshift_real_odd oy ox dy dx im1 p
  have hc : shift2d cfg' (rArr im1) dx dy 0 false false = .cplx (rArr im2) := by
    rw [shift2d_eq, denan_rArr]
    simp only [shiftKernel_zero]
    rw [shiftReturn_cplx, rArr_eq_cArr, hre]
    rfl
  obtain ⟨hM, hL, A, B, hA, hB, hr, -⟩ := C152_register_upsampled cfg cfg' cfg'' im1 im2 hny hnx h10 h01 dx dy hc us hus X Y hX hY 0 0
  obtain ⟨rx, ry, h, ⟨z, hz⟩, x1, x2, ⟨w, hw⟩, y1, y2⟩ := hr usfac zm hu (Or.inl h11)
  refine ⟨hM, hL, A, B, hA, hB, ?_⟩
  have h0 : (us : ℝ) ≠ 0 := by exact_mod_cast hus.ne'
  have key : ∀ (n : ℕ) (r d : ℝ) (z : ℤ), 0 < n → r / us = d + z * n → -(n : ℝ) / 2 ≤ r / us → r / us < n / 2 → -(n : ℝ) / 2 ≤ d →
      d < n / 2 → r = us * d := by
    intro n r d z hn hz h1 h2 h3 h4
    have hn' : (0 : ℝ) < n := by exact_mod_cast hn
    have z1 : (z : ℝ) < 1 := by
      by_contra hcon
      push Not at hcon
      nlinarith
    have z2 : (-1 : ℝ) < z := by
      by_contra hcon
      push Not at hcon
      nlinarith
    have z0 : z = 0 := by
      have : z < 1 := by exact_mod_cast z1
      have : -1 < z := by exact_mod_cast z2
      omega
    rw [z0, div_eq_iff h0] at hz
    rw [hz]
    push_cast
    ring
  rw [h, key nx _ _ z (by omega) hz x1 x2 hdx.1 hdx.2, key ny _ _ w (by omega) hw y1 y2 hdy.1 hdy.2]

end two

/-- a case: one bright pixel on 3x5 pixels, moved by (3/2, -1/2), upsampled twice -/
example (cfg cfg' cfg'' : FFTConfig) : ∃ im2 : Fin 3 × Fin 5 → ℝ,
    shift2d cfg' (rArr (Example.point 3 5)) (3 / 2) (-1 / 2) 0 false true = .real (realArr im2) ∧
    ∃ A B : Fin (3 * 2) × Fin (5 * 2) → ℂ,
      upsampleImage cfg (rArr (Example.point 3 5)) 2 .none 0 0 = .ok ⟨3 * 2, 5 * 2, cArr A⟩ ∧
      upsampleImage cfg (rArr im2) 2 .none 0 0 = .ok ⟨3 * 2, 5 * 2, cArr B⟩ ∧
      registerImages cfg'' (realArr fun q => (A q).re) (realArr fun q => (B q).re) 1 false false true none = .ok [.num 3, .num (-1)] := by
  refine ⟨_, shift2d_real cfg' _ _ _ false, ?_⟩
  obtain ⟨_, _, A, B, hA, hB, h⟩ := C152_register_upsampled_odd cfg cfg' cfg'' (Example.point 3 5) _ (by norm_num) (by norm_num) (by decide) (by decide)
    (point_dft 3 5 _) (point_dft 3 5 _) (point_dft 3 5 _) (3 / 2) (-1 / 2) (shift2d_real cfg' _ _ _ false) 2 (by norm_num) 3 (-1)
    (by norm_num) (by norm_num) 1 le_rfl true (by norm_num) (by norm_num)
  refine ⟨A, B, hA, hB, ?_⟩
  rw [h]
  norm_num

end ImgReg
