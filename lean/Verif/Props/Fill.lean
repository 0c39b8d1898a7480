import Verif.Lemmas.Fill
import Verif.Props.Chi2
import Verif.Props.Chi2Shift
import Mathlib.Tactic.Linarith

/-!
# `correlate2d`, `chi2n_map` and `chi2_shift` with `boundary='fill'` (C92–C94)
-/

open Complex Finset

namespace ImgReg

section
variable {ny nx my mx : ℕ} [NeZero ny] [NeZero nx]

/-! ## C92: `correlate2d` -/

omit [NeZero ny] [NeZero nx] in
theorem pos_of_neZero [NeZero ny] [NeZero nx] : 0 < ny ∧ 0 < nx :=
  ⟨Nat.pos_of_ne_zero (NeZero.ne ny), Nat.pos_of_ne_zero (NeZero.ne nx)⟩

/-- C92: with `boundary='fill'`, for images of any two sizes, the result has the shape of `im1` and entry `i` is the sum over
pixels `p` of `im1[p]·im2[p + (m-1)//2 - i]`, where `m` is the size of `im2` and pixels outside `im2` count as 0, as do NaN
pixels. -/
theorem C92_fill (cfg : FFTConfig) (pad : ℕ × ℕ → ℕ × ℕ → ℕ × ℕ) (hp : Spec.padsEnough pad) (ah : Bool)
    (h : Spec.fits ah (pad (ny, nx) (my, mx)).1 (pad (ny, nx) (my, mx)).2)
    (im1 : Fin ny × Fin nx → Pix) (im2 : Fin my × Fin mx → Pix) :
    ∃ out : Fin ny × Fin nx → ℝ, correlate2dB cfg (.fill pad) ah im1 im2 = .ok (realArr out) ∧
      ∀ i, out i = ∑ p : Fin ny × Fin nx, Spec.nan0 im1 p *
        Spec.plane (Spec.nan0 im2) (((p.1 : ℕ) : ℤ) + ((my - 1) / 2 : ℕ) - ((i.1 : ℕ) : ℤ))
          (((p.2 : ℕ) : ℤ) + ((mx - 1) / 2 : ℕ) - ((i.2 : ℕ) : ℤ)) := by
  refine ⟨_, correlate2dB_fill cfg pad hp ah h pos_of_neZero im1 im2, fun i => ?_⟩
  unfold Spec.linCorr Spec.zeroLag
  simp only [add_sub_assoc]

/-- C92: neither the amount of padding nor the FFT backend influences the result. -/
theorem C92_padding_irrelevant (cfg cfg' : FFTConfig) (pad pad' : ℕ × ℕ → ℕ × ℕ → ℕ × ℕ) (hp : Spec.padsEnough pad)
    (hp' : Spec.padsEnough pad') (ah ah' : Bool)
    (h : Spec.fits ah (pad (ny, nx) (my, mx)).1 (pad (ny, nx) (my, mx)).2)
    (h' : Spec.fits ah' (pad' (ny, nx) (my, mx)).1 (pad' (ny, nx) (my, mx)).2)
    (im1 : Fin ny × Fin nx → Pix) (im2 : Fin my × Fin mx → Pix) :
    correlate2dB cfg (.fill pad) ah im1 im2 = correlate2dB cfg' (.fill pad') ah' im1 im2 := by
  rw [correlate2dB_fill cfg pad hp ah h pos_of_neZero, correlate2dB_fill cfg' pad' hp' ah' h' pos_of_neZero]

omit [NeZero ny] [NeZero nx] in
/-- C92: a padded array above 1 GB is refused unless `allow_huge`. -/
theorem C92_huge (cfg : FFTConfig) (pad : ℕ × ℕ → ℕ × ℕ → ℕ × ℕ) (ah : Bool)
    (h : ¬ Spec.fits ah (pad (ny, nx) (my, mx)).1 (pad (ny, nx) (my, mx)).2)
    (im1 : Fin ny × Fin nx → Pix) (im2 : Fin my × Fin mx → Pix) :
    correlate2dB cfg (.fill pad) ah im1 im2 = .error .valueError :=
  correlate2dB_huge cfg (.fill pad) ah im1 im2 _ _ rfl h

/-- C92: with `boundary='wrap'` and images of different sizes, both are continued by zeros to the larger size along each axis
and correlated periodically with that size. -/
theorem C92_wrap_sizes (cfg : FFTConfig) (ah : Bool) [NeZero my] [NeZero mx] (h : Spec.fits ah (max ny my) (max nx mx))
    (im1 : Fin ny × Fin nx → Pix) (im2 : Fin my × Fin mx → Pix) :
    ∃ out : Fin ny × Fin nx → ℝ, correlate2dB cfg .wrap ah im1 im2 = .ok (realArr out) ∧
      ∀ i, out i = ∑ p : Fin ny × Fin nx, Spec.nan0 im1 p *
        Spec.plane (Spec.nan0 im2) ((((p.1 : ℕ) : ℤ) + ((my - 1) / 2 : ℕ) - ((i.1 : ℕ) : ℤ)) % ((max ny my : ℕ) : ℤ))
          ((((p.2 : ℕ) : ℤ) + ((mx - 1) / 2 : ℕ) - ((i.2 : ℕ) : ℤ)) % ((max nx mx : ℕ) : ℤ)) := by
  obtain ⟨h1, h2⟩ := pos_of_neZero (ny := ny) (nx := nx)
  refine ⟨_, correlate2dB_eq cfg .wrap ah im1 im2 (max ny my) (max nx mx) rfl h (le_max_left _ _) (le_max_left _ _)
    (le_max_right _ _) (le_max_right _ _) ⟨by omega, by omega⟩, fun i => ?_⟩
  unfold Spec.torusCorr
  refine Finset.sum_congr rfl fun p _ => ?_
  rw [plane_eq_sum, Finset.mul_sum]
  refine Finset.sum_congr rfl fun q _ => ?_
  have key : ∀ (N m : ℕ), m ≤ N → ∀ (q : Fin m) (z : ℤ), (((q : ℕ) : ℤ) ≡ z [ZMOD N]) ↔ ((q : ℕ) : ℤ) = z % (N : ℤ) := by
    intro N m hm q z
    have := q.isLt
    unfold Int.ModEq
    rw [Int.emod_eq_of_lt (by omega) (by omega)]
  unfold Spec.zeroLag
  rw [← add_sub_assoc, ← add_sub_assoc]
  simp only [key _ _ (le_max_right ny my), key _ _ (le_max_right nx mx), mul_ite, mul_zero]

/-- C92: if no nonzero pixel of one image is half an image or more away, along either axis, from a nonzero pixel of the other, the
boundary mode does not matter. -/
theorem C92_agrees_with_wrap (cfg : FFTConfig) (pad : ℕ × ℕ → ℕ × ℕ → ℕ × ℕ) (hp : Spec.padsEnough pad) (ah : Bool)
    (h : Spec.fits ah (pad (ny, nx) (ny, nx)).1 (pad (ny, nx) (ny, nx)).2) (im1 im2 : Fin ny × Fin nx → Pix)
    (hc : ∀ p q : Fin ny × Fin nx, Spec.nan0 im1 p ≠ 0 → Spec.nan0 im2 q ≠ 0 →
      2 * |((q.1 : ℕ) : ℤ) - ((p.1 : ℕ) : ℤ)| < ny ∧ 2 * |((q.2 : ℕ) : ℤ) - ((p.2 : ℕ) : ℤ)| < nx) :
    correlate2dB cfg (.fill pad) ah im1 im2 = correlate2d cfg ah im1 im2 := by
  have hf : Spec.fits ah ny nx := by
    obtain ⟨h1, h2⟩ := hp (ny, nx) (ny, nx)
    rcases h with h | h
    · exact Or.inl h
    · right
      refine le_trans ?_ h
      simp only at h1 h2
      gcongr <;> omega
  rw [correlate2dB_fill cfg pad hp ah h pos_of_neZero, correlate2d_nan0 cfg ah hf, ← torusCorr_same]
  congr 2
  funext i
  unfold Spec.linCorr Spec.torusCorr
  refine Finset.sum_congr rfl fun p _ => ?_
  rw [plane_eq_sum, Finset.mul_sum]
  refine Finset.sum_congr rfl fun q _ => ?_
  by_cases h1 : Spec.nan0 im1 p = 0
  · simp [h1]
  by_cases h2 : Spec.nan0 im2 q = 0
  · simp [h2]
  obtain ⟨c1, c2⟩ := hc p q h1 h2
  have close : ∀ {n : ℕ} (i p q : Fin n), 2 * |((q : ℕ) : ℤ) - ((p : ℕ) : ℤ)| < n →
      ((((q : ℕ) : ℤ) ≡ ((p : ℕ) : ℤ) + ((Spec.zeroLag n : ℤ) - ((i : ℕ) : ℤ)) [ZMOD n]) ↔
        ((q : ℕ) : ℤ) = ((p : ℕ) : ℤ) + ((Spec.zeroLag n : ℤ) - ((i : ℕ) : ℤ))) := by
    intro n i p q h
    apply modEq_iff_eq_of_close
    have h1 := i.isLt
    have h2 := abs_le.1 (le_refl |((q : ℕ) : ℤ) - ((p : ℕ) : ℤ)|)
    unfold Spec.zeroLag
    rw [abs_lt]
    constructor <;> omega
  simp only [close i.1 p.1 q.1 c1, close i.2 p.2 q.2 c2, mul_ite, mul_zero]

/-! ## C93: `chi2n_map` -/

/-- C93: with `boundary='fill'` and a scalar error, map entry `i` is the sum over the whole plane of
`(im1[z] - im2[z+d])² / err²` with `d = (n-1)//2 - i`, both images continued by zeros (NaN pixels count as 0 too). -/
theorem C93_scalar_error (cfg : FFTConfig) (pad : ℕ × ℕ → ℕ × ℕ → ℕ × ℕ) (hp : Spec.padsEnough pad) (ah : Bool)
    (h : Spec.fits ah (pad (ny, nx) (ny, nx)).1 (pad (ny, nx) (ny, nx)).2)
    (im1 im2 : Fin ny × Fin nx → Pix) (err : ErrArg ny nx) (s : ℝ) (_hs : s ≠ 0) (herr : Spec.isScalarErr err s) :
    ∃ c : Fin ny × Fin nx → ℝ, chi2nMapB cfg (.fill pad) im1 im2 err false false false ah = .ok (.only c) ∧
      ∀ i, c i = ∑ᶠ z : ℤ × ℤ, (Spec.plane (Spec.nan0 im1) z.1 z.2
        - Spec.plane (Spec.nan0 im2) (z.1 + (((ny - 1) / 2 : ℕ) - ((i.1 : ℕ) : ℤ))) (z.2 + (((nx - 1) / 2 : ℕ) - ((i.2 : ℕ) : ℤ)))) ^ 2
        / s ^ 2 := by
  obtain ⟨m, h1, h2, h3, -, h5, h6⟩ := chi2nMapBodyB_fill cfg pad hp pos_of_neZero im1 im2 err false false ah h
  refine ⟨m.chi2, by rw [chi2nMapB_same, h1]; rfl, fun i => ?_⟩
  have hp' : ∀ im : Fin ny × Fin nx → Pix, prep false im = Spec.nan0 im := fun im => by simp [prep_def]
  have hne : ∀ e, err ≠ .image e := by
    rintro e rfl
    exact herr
  have hm : ∀ a : Fin ny × Fin nx → ℝ, Spec.maskOf err a = a := by
    intro a
    cases err with
    | none => rfl
    | scalar t => rfl
    | image e => exact absurd rfl (hne e)
  have he : Spec.errOf err = fun _ => s := by
    cases err with
    | none => cases herr; rfl
    | scalar t => cases herr; rfl
    | image e => exact absurd rfl (hne e)
  rw [h6, h2, h3, h5 hne, finsum_sq_plane]
  simp only [Bool.false_eq_true, if_false, div_one, hm, hp', he, Term3.at, Spec.linCorr, Spec.zeroLag]
  congr 3
  refine Finset.sum_congr rfl fun p _ => ?_
  rw [plane_map (· / s ^ 2) (by simp)]

/-- C93: with `boundary='fill'` and an error image, map entry `i` is the sum over the pixels `q` of `im2` of
`(im1[q-d] - im2[q])² / err[q]²` with `d = (n-1)//2 - i` and `im1` continued by zeros; where `err` is 0 or NaN both
images count as 0 and the error as 1. -/
theorem C93_error_image (cfg : FFTConfig) (pad : ℕ × ℕ → ℕ × ℕ → ℕ × ℕ) (hp : Spec.padsEnough pad) (ah : Bool)
    (h : Spec.fits ah (pad (ny, nx) (ny, nx)).1 (pad (ny, nx) (ny, nx)).2)
    (im1 im2 er : Fin ny × Fin nx → Pix) :
    ∃ c : Fin ny × Fin nx → ℝ, chi2nMapB cfg (.fill pad) im1 im2 (.image er) false false false ah = .ok (.only c) ∧
      ∀ i, c i = ∑ q : Fin ny × Fin nx,
        (Spec.plane (fun p => if Spec.nan0 er p = 0 then 0 else Spec.nan0 im1 p)
            (((q.1 : ℕ) : ℤ) - (((ny - 1) / 2 : ℕ) - ((i.1 : ℕ) : ℤ))) (((q.2 : ℕ) : ℤ) - (((nx - 1) / 2 : ℕ) - ((i.2 : ℕ) : ℤ)))
          - (if Spec.nan0 er q = 0 then 0 else Spec.nan0 im2 q)) ^ 2
        / (if Spec.nan0 er q = 0 then 1 else Spec.nan0 er q) ^ 2 := by
  obtain ⟨m, h1, h2, h3, h4, -, h6⟩ := chi2nMapBodyB_fill cfg pad hp pos_of_neZero im1 im2 (.image er) false false ah h
  refine ⟨m.chi2, by rw [chi2nMapB_same, h1]; rfl, fun i => ?_⟩
  have hp' : ∀ im : Fin ny × Fin nx → Pix, prep false im = Spec.nan0 im := fun im => by simp [prep_def]
  have e := fill_chi2_image (fun p => if Spec.nan0 er p = 0 then 0 else Spec.nan0 im1 p)
    (fun p => if Spec.nan0 er p = 0 then 0 else Spec.nan0 im2 p) (fun q => if Spec.nan0 er q = 0 then 1 else Spec.nan0 er q)
    (((ny - 1) / 2 : ℕ) - ((i.1 : ℕ) : ℤ)) (((nx - 1) / 2 : ℕ) - ((i.2 : ℕ) : ℤ))
  rw [h6, h2, h3, h4 er rfl, ← e]
  simp only [Bool.false_eq_true, if_false, div_one, hp', Term3.at, Spec.linCorr, Spec.zeroLag, Spec.maskOf, Spec.errOf]

/-- C93: with `boundary='fill'` a scalar error `s` and an error image filled with `s` give different maps: the scalar map also
counts, for displacement `d`, the light of `im1` that leaves the frame of `im2` (pixels `p` with `p+d` outside). -/
theorem C93_scalar_vs_image (cfg : FFTConfig) (pad : ℕ × ℕ → ℕ × ℕ → ℕ × ℕ) (hp : Spec.padsEnough pad) (ah : Bool)
    (h : Spec.fits ah (pad (ny, nx) (ny, nx)).1 (pad (ny, nx) (ny, nx)).2)
    (im1 im2 : Fin ny × Fin nx → Pix) (s : ℝ) (hs : s ≠ 0) :
    ∃ c c' : Fin ny × Fin nx → ℝ,
      chi2nMapB cfg (.fill pad) im1 im2 (.scalar s) false false false ah = .ok (.only c) ∧
      chi2nMapB cfg (.fill pad) im1 im2 (.image (realArr fun _ => s)) false false false ah = .ok (.only c') ∧
      ∀ i, c i = c' i + ∑ p : Fin ny × Fin nx,
        if (0 ≤ ((p.1 : ℕ) : ℤ) + (((ny - 1) / 2 : ℕ) - ((i.1 : ℕ) : ℤ)) ∧ ((p.1 : ℕ) : ℤ) + (((ny - 1) / 2 : ℕ) - ((i.1 : ℕ) : ℤ)) < ny) ∧
           (0 ≤ ((p.2 : ℕ) : ℤ) + (((nx - 1) / 2 : ℕ) - ((i.2 : ℕ) : ℤ)) ∧ ((p.2 : ℕ) : ℤ) + (((nx - 1) / 2 : ℕ) - ((i.2 : ℕ) : ℤ)) < nx)
        then 0 else Spec.nan0 im1 p ^ 2 / s ^ 2 := by
  obtain ⟨m, h1, h2, h3, -, h5, h6⟩ := chi2nMapBodyB_fill cfg pad hp pos_of_neZero im1 im2 (.scalar s) false false ah h
  obtain ⟨m', k1, k2, k3, k4, -, k6⟩ := chi2nMapBodyB_fill cfg pad hp pos_of_neZero im1 im2 (.image (realArr fun _ => s))
    false false ah h
  refine ⟨m.chi2, m'.chi2, by rw [chi2nMapB_same, h1]; rfl, by rw [chi2nMapB_same, k1]; rfl, fun i => ?_⟩
  have hn : Spec.nan0 (realArr fun _ : Fin ny × Fin nx => s) = fun _ => s := rfl
  rw [h6, k6, h2, k2, h3, k3, h5 (fun e he => by cases he), k4 _ rfl]
  have hp' : ∀ im : Fin ny × Fin nx → Pix, prep false im = Spec.nan0 im := fun im => by simp [prep_def]
  simp only [Bool.false_eq_true, if_false, div_one, hp', Term3.at, Spec.linCorr, Spec.maskOf, Spec.errOf, hn, hs]
  rw [add_assoc (_ + _)]
  congr 1
  rw [← Finset.sum_add_distrib]
  refine Finset.sum_congr rfl fun p _ => ?_
  simp only [Spec.zeroLag]
  split_ifs with hin
  · obtain ⟨q, q1, q2⟩ := plane_cases _ _ hin
    rw [← q1, ← q2, plane_in]; ring
  · rw [plane_out _ _ _ hin]; ring

/-- C93: every entry of the (unreduced) map is non-negative, whatever the error argument and `zeromean`. -/
theorem C93_nonneg (cfg : FFTConfig) (pad : ℕ × ℕ → ℕ × ℕ → ℕ × ℕ) (hp : Spec.padsEnough pad) (ah : Bool)
    (h : Spec.fits ah (pad (ny, nx) (ny, nx)).1 (pad (ny, nx) (ny, nx)).2)
    (im1 im2 : Fin ny × Fin nx → Pix) (err : ErrArg ny nx) (zm : Bool) :
    ∃ c : Fin ny × Fin nx → ℝ, chi2nMapB cfg (.fill pad) im1 im2 err zm false false ah = .ok (.only c) ∧
      ∀ i, 0 ≤ c i := by
  obtain ⟨m, h1, h2, h3, h4, h5, h6⟩ := chi2nMapBodyB_fill cfg pad hp pos_of_neZero im1 im2 err zm false ah h
  refine ⟨m.chi2, by rw [chi2nMapB_same, h1]; rfl, fun i => ?_⟩
  rw [h6, h2, h3]
  simp only [Bool.false_eq_true, if_false, div_one]
  by_cases hi : ∃ e, err = .image e
  · obtain ⟨e, he⟩ := hi
    rw [h4 e he]
    simp only [Term3.at, Spec.linCorr]
    rw [fill_chi2_image]
    exact Finset.sum_nonneg fun q _ => by positivity
  · have hne : ∀ e, err ≠ .image e := fun e he => hi ⟨e, he⟩
    obtain ⟨s, he⟩ : ∃ s : ℝ, Spec.errOf err = fun _ => s := by
      cases err with
      | none => exact ⟨1, rfl⟩
      | scalar t => exact ⟨t, rfl⟩
      | image e => exact absurd rfl (hne e)
    have hm : ∀ a : Fin ny × Fin nx → ℝ, Spec.maskOf err a = a := by
      intro a
      cases err with
      | none => rfl
      | scalar t => rfl
      | image e => exact absurd rfl (hne e)
    rw [h5 hne]
    simp only [Term3.at, Spec.linCorr, he, hm]
    have e := finsum_sq_plane (prep zm im1) (prep zm im2) s ((Spec.zeroLag ny : ℤ) - ((i.1 : ℕ) : ℤ))
      ((Spec.zeroLag nx : ℤ) - ((i.2 : ℕ) : ℤ))
    have e2 : ∀ y x : ℤ, Spec.plane (fun j => prep zm im2 j / s ^ 2) y x = Spec.plane (prep zm im2) y x / s ^ 2 :=
      fun y x => plane_map (· / s ^ 2) (by simp) _ y x
    simp only [e2]
    rw [← e]
    exact finsum_nonneg fun z => by positivity

end

end ImgReg
