import Verif.Props.TestingOffset
import Verif.Props.Register
import Verif.Lemmas.Correlate

/-!
# Property C108: `upsample_ft_raw`
-/

open Complex Finset
open scoped ComplexConjugate

namespace ImgReg

variable {ny nx : ℕ} [NeZero ny] [NeZero nx]

/-! ### C108 -/

/-- C108: `zoomfac=0` raises ZeroDivisionError. -/
theorem C108_zero (F G : Fin ny × Fin nx → CPix) : upsampleFtRaw F G 0 = .error .zeroDivisionError := by
  unfold upsampleFtRaw; simp

theorem raw_half (n z : ℕ) (hz : z ≠ 0) : ((n * z : ℕ) : ℝ) / (z * 2 : ℝ) = (n : ℝ) / 2 := by
  have : (z : ℝ) ≠ 0 := by exact_mod_cast hz
  push_cast
  field_simp

theorem raw_even (p z : ℕ) (hz : z ≠ 0) :
    pyRound ((((2 * p) * z : ℕ) : ℝ) / (z * 2 : ℝ)) = (p : ℤ) ∧ pyRound ((((2 * p) * z : ℕ) : ℝ) / (z * 2 : ℝ) * 3) = 3 * (p : ℤ) := by
  rw [raw_half _ _ hz]
  have e1 : ((2 * p : ℕ) : ℝ) / 2 = ((p : ℤ) : ℝ) := by push_cast; ring
  have e2 : ((p : ℤ) : ℝ) * 3 = ((3 * (p : ℤ) : ℤ) : ℝ) := by push_cast; ring
  rw [e1, e2, pyRound_int, pyRound_int]
  exact ⟨rfl, rfl⟩

theorem pyRound_half (z : ℤ) : pyRound ((z : ℝ) + 1 / 2) = if Even z then z else z + 1 := by
  unfold pyRound
  have hf : ⌊(z : ℝ) + 1 / 2⌋ = z := by
    rw [Int.floor_eq_iff]; constructor <;> norm_num
  rw [hf]
  rw [if_neg (by norm_num), if_neg (by norm_num)]

theorem raw_odd (p z : ℕ) (hz : z ≠ 0) :
    pyRound ((((2 * p + 1) * z : ℕ) : ℝ) / (z * 2 : ℝ)) = (if Even (p : ℤ) then (p : ℤ) else p + 1) ∧
    pyRound ((((2 * p + 1) * z : ℕ) : ℝ) / (z * 2 : ℝ) * 3) = if Even (p : ℤ) then 3 * (p : ℤ) + 2 else 3 * p + 1 := by
  rw [raw_half _ _ hz]
  have e1 : ((2 * p + 1 : ℕ) : ℝ) / 2 = ((p : ℤ) : ℝ) + 1 / 2 := by push_cast; ring
  have e2 : (((p : ℤ) : ℝ) + 1 / 2) * 3 = ((3 * (p : ℤ) + 1 : ℤ) : ℝ) + 1 / 2 := by push_cast; ring
  rw [e1, e2, pyRound_half, pyRound_half]
  refine ⟨rfl, ?_⟩
  rcases Int.even_or_odd (p : ℤ) with h | h
  · rw [if_pos h, if_neg]
    · ring
    · rw [Int.not_even_iff_odd]
      obtain ⟨k, hk⟩ := h
      exact ⟨3 * k, by omega⟩
  · rw [if_neg (Int.not_even_iff_odd.2 h), if_pos]
    obtain ⟨k, hk⟩ := h
    exact ⟨3 * k + 2, by omega⟩

/-- along one axis the slice has the length of the axis only if the length is even and `zoomfac` at least 2 -/
theorem raw_len (n z : ℕ) (hz : z ≠ 0) (hn : 1 < n)
    (h : (n : ℤ) = rawSliceLen (n * z) (pyRound ((n * z : ℕ) / (z * 2 : ℝ))) (pyRound ((n * z : ℕ) / (z * 2 : ℝ) * 3))) :
    Even n ∧ 2 ≤ z := by
  rcases Nat.even_or_odd n with ⟨p, hp⟩ | ⟨p, hp⟩
  · obtain rfl : n = 2 * p := by omega
    refine ⟨even_two_mul p, ?_⟩
    by_contra hlt
    obtain rfl : z = 1 := by omega
    obtain ⟨h1, h2⟩ := raw_even p 1 one_ne_zero
    rw [h1, h2] at h
    unfold rawSliceLen at h
    push_cast at h
    omega
  · exfalso
    subst hp
    obtain ⟨h1, h2⟩ := raw_odd p z hz
    rw [h1, h2] at h
    unfold rawSliceLen at h
    rcases Nat.eq_or_lt_of_le (Nat.one_le_iff_ne_zero.2 hz) with rfl | hz2
    · push_cast at h
      split_ifs at h <;> omega
    · have hb : (3 * (p : ℤ) + 2) ≤ (((2 * p + 1) * z : ℕ) : ℤ) := by
        have : (2 * p + 1) * 2 ≤ (2 * p + 1) * z := Nat.mul_le_mul_left _ hz2
        omega
      generalize (((2 * p + 1) * z : ℕ) : ℤ) = N at h hb
      split_ifs at h <;> omega

/-- C108: where it works. Apart from axes of length 1, every axis must be even and `zoomfac` at least 2; all other calls fail with
ValueError (so for odd sizes, as in two of the three cases of the package's own test of this function, nothing is returned). -/
theorem C108_odd_fails (F G : Fin ny × Fin nx → CPix) (z : ℕ) (hz : z ≠ 0)
    (h : (1 < ny ∧ (Odd ny ∨ z = 1)) ∨ (1 < nx ∧ (Odd nx ∨ z = 1))) : upsampleFtRaw F G z = .error .valueError := by
  classical
  unfold upsampleFtRaw
  rw [dif_neg hz]
  simp only
  rw [if_neg]
  rintro ⟨hy, hx⟩
  rcases h with ⟨h1, h2⟩ | ⟨h1, h2⟩
  · have hh := raw_len ny z hz h1 (hy.resolve_right (by omega))
    rcases h2 with h2 | h2
    · exact (Nat.not_even_iff_odd.2 h2) hh.1
    · omega
  · have hh := raw_len nx z hz h1 (hx.resolve_right (by omega))
    rcases h2 with h2 | h2
    · exact (Nat.not_even_iff_odd.2 h2) hh.1
    · omega

/-- the position of a signed frequency in the large spectrum -/
theorem raw_axis {n z : ℕ} [NeZero n] [NeZero (n * z)] (p : ℕ) (hp : n = 2 * p) (hz : 2 ≤ z) (K : Fin (n * z)) (k : Fin n) :
    Spec.wrap (n * z) (Np.fftfreqInt n k + n - ((n * z / 2 : ℕ) : ℤ)) = K
      ↔ (((Np.ifftshiftIdx K : Fin (n * z)) : ℕ) : ℤ) = Np.fftfreqInt n k + n := by
  have hN : 2 * n ≤ n * z := by rw [mul_comm 2]; exact Nat.mul_le_mul_left _ hz
  have hk := k.isLt
  have hI := (Np.ifftshiftIdx K).isLt
  have hm := ifftshift_modEq K
  rw [Spec.wrap_eq_iff]
  have hf : 0 ≤ Np.fftfreqInt n k + n ∧ Np.fftfreqInt n k + n < ((n * z : ℕ) : ℤ) := by
    rw [Np.fftfreqInt_eq n k hk]
    split_ifs <;> omega
  constructor
  · intro h
    have h1 := (h.add_right ((n * z / 2 : ℕ) : ℤ)).trans hm.symm
    rw [sub_add_cancel] at h1
    have h2 := h1.eq
    rw [Int.emod_eq_of_lt hf.1 hf.2, Int.emod_eq_of_lt (by positivity) (by exact_mod_cast hI)] at h2
    exact h2.symm
  · intro h
    rw [← h]
    have := hm.sub_right ((n * z / 2 : ℕ) : ℤ)
    rwa [add_sub_cancel_right] at this

theorem raw_axis' {n z : ℕ} [NeZero n] [NeZero (n * z)] (p : ℕ) (hp : n = 2 * p) (hz : 2 ≤ z) (K : Fin (n * z)) :
    (∀ _ : (p : ℤ) ≤ (((Np.ifftshiftIdx K : Fin (n * z)) : ℕ) : ℤ) ∧ (((Np.ifftshiftIdx K : Fin (n * z)) : ℕ) : ℤ) < 3 * p, ∀ k : Fin n,
        Spec.wrap (n * z) (Np.fftfreqInt n k + n - ((n * z / 2 : ℕ) : ℤ)) = K
          ↔ k = Np.fftshiftIdx (Fin.ofNat n ((((Np.ifftshiftIdx K : Fin (n * z)) : ℕ) : ℤ) - p).toNat)) ∧
    (¬ ((p : ℤ) ≤ (((Np.ifftshiftIdx K : Fin (n * z)) : ℕ) : ℤ) ∧ (((Np.ifftshiftIdx K : Fin (n * z)) : ℕ) : ℤ) < 3 * p) → ∀ k : Fin n,
        Spec.wrap (n * z) (Np.fftfreqInt n k + n - ((n * z / 2 : ℕ) : ℤ)) ≠ K) := by
  have hn := Nat.pos_of_ne_zero (NeZero.ne n)
  constructor
  · intro h k
    have hk := k.isLt
    rw [raw_axis p hp hz, Fin.ext_iff, fftshiftIdx_val]
    have hv : ((Fin.ofNat n ((((Np.ifftshiftIdx K : Fin (n * z)) : ℕ) : ℤ) - p).toNat : Fin n) : ℕ)
        = ((((Np.ifftshiftIdx K : Fin (n * z)) : ℕ) : ℤ) - p).toNat := Nat.mod_eq_of_lt (by omega)
    rw [hv, Np.fftfreqInt_eq n k hk]
    split_ifs <;> omega
  · intro h k hc
    have hk := k.isLt
    rw [raw_axis p hp hz, Np.fftfreqInt_eq n k hk] at hc
    split_ifs at hc <;> omega

theorem e_raw {n z : ℕ} [NeZero n] [NeZero (n * z)] (hev : Even n) (hz : z ≠ 0) (k : Fin n) (j : Fin (n * z)) :
    e (Spec.wrap (n * z) (Np.fftfreqInt n k + n - ((n * z / 2 : ℕ) : ℤ))) j
      = ex ((1 / (z : ℝ) - 1 / 2) * ((j : ℕ) : ℝ)) * ex (Np.fftfreq n k * (((j : ℕ) : ℝ) / z)) := by
  rw [e_fin, Np.fftfreq_eq]
  have h := (Spec.wrap_modEq (n * z) (Np.fftfreqInt n k + n - ((n * z / 2 : ℕ) : ℤ))).mul_right ((j : ℕ) : ℤ)
  have h2 := ex_div_congr h
  simp only [Int.cast_mul, Int.cast_natCast, Int.cast_sub, Int.cast_add] at h2
  rw [h2, ← ex_add]
  congr 1
  have hhalf : ((n * z / 2 : ℕ) : ℝ) = (n : ℝ) * z / 2 := by
    obtain ⟨p, hp⟩ := hev
    obtain rfl : n = 2 * p := by omega
    rw [show 2 * p * z / 2 = p * z by rw [mul_assoc]; omega]
    push_cast; ring
  rw [hhalf]
  have hn : (n : ℝ) ≠ 0 := by exact_mod_cast NeZero.ne n
  have hz' : (z : ℝ) ≠ 0 := by exact_mod_cast hz
  push_cast
  field_simp
  ring

/-- C108: even sizes and `zoomfac ≥ 2`: for the spectra of two real images the result has `zoomfac` times the size, and pixel `(i, j)` is the
Fourier interpolant of the circular cross-correlation at the lag `(i/zoomfac, j/zoomfac)` (the correlation of `a` with `b` shifted by that much),
divided by `zoomfac²` and turned by the phase `2π(1/zoomfac - 1/2)(i + j)`: only for `zoomfac=2` is the zero frequency put in the right place. -/
theorem C108_even (a b : Fin ny × Fin nx → ℝ) (ey : Even ny) (ex' : Even nx) (z : ℕ) (hz : 2 ≤ z) :
    ∃ CC : Fin (ny * z) × Fin (nx * z) → ℂ,
      upsampleFtRaw (Np.fftn (rArr a)) (Np.fftn (rArr b)) z = .ok ⟨ny * z, nx * z, cArr CC⟩ ∧
      ∀ i, CC i = ex ((1 / (z : ℝ) - 1 / 2) * (((i.1 : ℕ) : ℝ) + ((i.2 : ℕ) : ℝ))) / (z : ℂ) ^ 2
        * Spec.cc a b (((i.1 : ℕ) : ℝ) / z) (((i.2 : ℕ) : ℝ) / z) := by
  classical
  have hz0 : z ≠ 0 := by omega
  have hNy : NeZero (ny * z) := ⟨Nat.mul_ne_zero (NeZero.ne ny) hz0⟩
  have hNx : NeZero (nx * z) := ⟨Nat.mul_ne_zero (NeZero.ne nx) hz0⟩
  obtain ⟨p, hp⟩ := ey
  obtain ⟨q, hq⟩ := ex'
  have hp' : ny = 2 * p := by omega
  have hq' : nx = 2 * q := by omega
  have hp0 : 0 < p := by have := Nat.pos_of_ne_zero (NeZero.ne ny); omega
  have hq0 : 0 < q := by have := Nat.pos_of_ne_zero (NeZero.ne nx); omega
  have r0 : pyRound ((ny * z : ℕ) / (z * 2 : ℝ)) = (p : ℤ) := by rw [hp']; exact (raw_even p z hz0).1
  have r1 : pyRound ((ny * z : ℕ) / (z * 2 : ℝ) * 3) = 3 * (p : ℤ) := by rw [hp']; exact (raw_even p z hz0).2
  have c0 : pyRound ((nx * z : ℕ) / (z * 2 : ℝ)) = (q : ℤ) := by rw [hq']; exact (raw_even q z hz0).1
  have c1 : pyRound ((nx * z : ℕ) / (z * 2 : ℝ) * 3) = 3 * (q : ℤ) := by rw [hq']; exact (raw_even q z hz0).2
  have l1 : (ny : ℤ) = rawSliceLen (ny * z) p (3 * p) := by
    have : 2 * ny ≤ ny * z := by rw [mul_comm 2]; exact Nat.mul_le_mul_left _ hz
    unfold rawSliceLen
    generalize ny * z = N at this ⊢
    omega
  have l2 : (nx : ℤ) = rawSliceLen (nx * z) q (3 * q) := by
    have : 2 * nx ≤ nx * z := by rw [mul_comm 2]; exact Nat.mul_le_mul_left _ hz
    unfold rawSliceLen
    generalize nx * z = N at this ⊢
    omega
  set A := dft (fun p => (a p : ℂ)) with hA
  set B := dft (fun p => (b p : ℂ)) with hB
  -- the large spectrum
  set big : Fin (ny * z) × Fin (nx * z) → CPix := fun i =>
        if ((p : ℤ) ≤ ((i.1 : ℕ) : ℤ) ∧ ((i.1 : ℕ) : ℤ) < 3 * p) ∧ ((q : ℤ) ≤ ((i.2 : ℕ) : ℤ) ∧ ((i.2 : ℕ) : ℤ) < 3 * q) then
          Np.mul (Np.fftshift2 (cArr A)) (Np.conjA (Np.fftshift2 (cArr B)))
            (Fin.ofNat ny (((i.1 : ℕ) : ℤ) - p).toNat, Fin.ofNat nx (((i.2 : ℕ) : ℤ) - q).toNat)
        else some 0 with hbig
  have hspec : Np.ifftshift2 big = cArr fun K => ∑ k : Fin ny × Fin nx,
      if Spec.wrap (ny * z) (Np.fftfreqInt ny k.1 + ny - ((ny * z / 2 : ℕ) : ℤ)) = K.1 ∧
        Spec.wrap (nx * z) (Np.fftfreqInt nx k.2 + nx - ((nx * z / 2 : ℕ) : ℤ)) = K.2 then A k * conj (B k) else 0 := by
    funext K
    obtain ⟨a1, a2⟩ := raw_axis' p hp' hz K.1
    obtain ⟨b1, b2⟩ := raw_axis' q hq' hz K.2
    rw [hbig]
    unfold Np.ifftshift2
    simp only [cArr]
    split_ifs with h
    · have ha := a1 h.1
      have hb := b1 h.2
      rw [Finset.sum_eq_single (Np.fftshiftIdx (Fin.ofNat ny ((((Np.ifftshiftIdx K.1 : Fin (ny * z)) : ℕ) : ℤ) - p).toNat),
        Np.fftshiftIdx (Fin.ofNat nx ((((Np.ifftshiftIdx K.2 : Fin (nx * z)) : ℕ) : ℤ) - q).toNat))]
      · rw [if_pos ⟨(ha _).2 rfl, (hb _).2 rfl⟩]
        rfl
      · intro k _ hk
        rw [if_neg]
        rintro ⟨h1, h2⟩
        exact hk (Prod.ext ((ha _).1 h1) ((hb _).1 h2))
      · intro h; exact absurd (mem_univ _) h
    · congr 1
      symm
      refine Finset.sum_eq_zero fun k _ => ?_
      rw [if_neg]
      rintro ⟨h1, h2⟩
      by_cases hy : (p : ℤ) ≤ (((Np.ifftshiftIdx K.1 : Fin (ny * z)) : ℕ) : ℤ) ∧ (((Np.ifftshiftIdx K.1 : Fin (ny * z)) : ℕ) : ℤ) < 3 * p
      · exact b2 (fun hx => h ⟨hy, hx⟩) _ h2
      · exact a2 hy _ h1
  refine ⟨_, ?_, fun i => rfl⟩
  have hrun : upsampleFtRaw (Np.fftn (rArr a)) (Np.fftn (rArr b)) z = .ok ⟨ny * z, nx * z, Np.ifftn (Np.ifftshift2 big)⟩ := by
    unfold upsampleFtRaw
    rw [dif_neg hz0]
    simp only [r0, r1, c0, c1]
    rw [if_pos ⟨.inl l1, .inl l2⟩]
    have fa : Np.fftn (rArr a) = cArr A := Np.fftn_cArr _
    have fb : Np.fftn (rArr b) = cArr B := Np.fftn_cArr _
    rw [fa, fb]
  rw [hrun, hspec, Np.ifftn_cArr]
  congr 2
  refine congrArg cArr ?_
  funext j
  rw [cc_fourier]
  unfold idft
  have hs : ∑ K : Fin (ny * z) × Fin (nx * z), (∑ k : Fin ny × Fin nx,
      if Spec.wrap (ny * z) (Np.fftfreqInt ny k.1 + ny - ((ny * z / 2 : ℕ) : ℤ)) = K.1 ∧
        Spec.wrap (nx * z) (Np.fftfreqInt nx k.2 + nx - ((nx * z / 2 : ℕ) : ℤ)) = K.2 then A k * conj (B k) else 0) * e K j
      = ex ((1 / (z : ℝ) - 1 / 2) * (((j.1 : ℕ) : ℝ) + ((j.2 : ℕ) : ℝ))) *
        ∑ k, A k * conj (B k) * ex (freq2 (((j.2 : ℕ) : ℝ) / z) (((j.1 : ℕ) : ℝ) / z) k) := by
    simp_rw [Finset.sum_mul]
    rw [Finset.sum_comm, Finset.mul_sum]
    refine Finset.sum_congr rfl fun k _ => ?_
    rw [Finset.sum_eq_single (Spec.wrap (ny * z) (Np.fftfreqInt ny k.1 + ny - ((ny * z / 2 : ℕ) : ℤ)),
      Spec.wrap (nx * z) (Np.fftfreqInt nx k.2 + nx - ((nx * z / 2 : ℕ) : ℤ)))]
    · rw [if_pos ⟨rfl, rfl⟩, e_prod, e_raw ⟨p, hp⟩ hz0, e_raw ⟨q, hq⟩ hz0]
      have e1 : ex (freq2 (((j.2 : ℕ) : ℝ) / z) (((j.1 : ℕ) : ℝ) / z) k)
          = ex (Np.fftfreq ny k.1 * (((j.1 : ℕ) : ℝ) / z)) * ex (Np.fftfreq nx k.2 * (((j.2 : ℕ) : ℝ) / z)) := by
        rw [← ex_add]; unfold freq2; congr 1; ring
      rw [e1, mul_add, ex_add]
      ring
    · intro K _ hK
      rw [if_neg, zero_mul]
      rintro ⟨h1, h2⟩
      exact hK (Prod.ext h1.symm h2.symm)
    · intro h; exact absurd (mem_univ _) h
  rw [hs]
  simp only [Fintype.card_prod, Fintype.card_fin]
  have h1 : (ny : ℂ) ≠ 0 := by exact_mod_cast NeZero.ne ny
  have h2 : (nx : ℂ) ≠ 0 := by exact_mod_cast NeZero.ne nx
  have h3 : (z : ℂ) ≠ 0 := by exact_mod_cast hz0
  push_cast
  field_simp
  rfl

/-- C108: the modulus, which is what the package plots, is that of the interpolated correlation over `zoomfac²`, and for the default `zoomfac=2`
there is no extra phase. -/
theorem C108_modulus (a b : Fin ny × Fin nx → ℝ) (ey : Even ny) (ex' : Even nx) (z : ℕ) (hz : 2 ≤ z) :
    ∃ CC : Fin (ny * z) × Fin (nx * z) → ℂ,
      upsampleFtRaw (Np.fftn (rArr a)) (Np.fftn (rArr b)) z = .ok ⟨ny * z, nx * z, cArr CC⟩ ∧
      (∀ i, ‖CC i‖ = ‖Spec.cc a b (((i.1 : ℕ) : ℝ) / z) (((i.2 : ℕ) : ℝ) / z)‖ / (z : ℝ) ^ 2) ∧
      (z = 2 → ∀ i, CC i = Spec.cc a b (((i.1 : ℕ) : ℝ) / 2) (((i.2 : ℕ) : ℝ) / 2) / 4) := by
  obtain ⟨CC, h1, h2⟩ := C108_even a b ey ex' z hz
  refine ⟨CC, h1, fun i => ?_, fun h i => ?_⟩
  · rw [h2, norm_mul, norm_div, norm_ex, norm_pow, Complex.norm_natCast]
    ring
  · subst h
    rw [h2]
    norm_num
    ring

/-- C108: at the grid points that are whole pixels of the correlation (`zoomfac=2`): a quarter of the circular cross-correlation. -/
theorem C108_whole_lags (a b : Fin ny × Fin nx → ℝ) (ey : Even ny) (ex' : Even nx) :
    ∃ CC : Fin (ny * 2) × Fin (nx * 2) → ℂ,
      upsampleFtRaw (Np.fftn (rArr a)) (Np.fftn (rArr b)) 2 = .ok ⟨ny * 2, nx * 2, cArr CC⟩ ∧
      ∀ (dy dx : ℕ) (hy : 2 * dy < ny * 2) (hx : 2 * dx < nx * 2),
        CC (⟨2 * dy, hy⟩, ⟨2 * dx, hx⟩) = ((∑ p, a p * Spec.roll2 dy dx b p : ℝ) : ℂ) / 4 := by
  obtain ⟨CC, h1, -, h2⟩ := C108_modulus a b ey ex' 2 le_rfl
  refine ⟨CC, h1, fun dy dx hy hx => ?_⟩
  rw [h2 rfl]
  congr 1
  have e1 : ((2 * dy : ℕ) : ℝ) / 2 = (((dy : ℕ) : ℤ) : ℝ) := by push_cast; ring
  have e2 : ((2 * dx : ℕ) : ℝ) / 2 = (((dx : ℕ) : ℤ) : ℝ) := by push_cast; ring
  simp only [e1, e2]
  unfold Spec.cc
  simp only [cshift_int, Complex.conj_ofReal]
  push_cast
  rfl

/-- C108 for 2×2 images: the call succeeds and gives a 4×4 array. -/
example (a b : Fin 2 × Fin 2 → ℝ) : ∃ CC : Fin 4 × Fin 4 → ℂ, upsampleFtRaw (Np.fftn (rArr a)) (Np.fftn (rArr b)) 2 = .ok ⟨4, 4, cArr CC⟩ := by
  obtain ⟨CC, h, -⟩ := C108_even a b (by decide) (by decide) 2 le_rfl
  exact ⟨CC, h⟩

end ImgReg
