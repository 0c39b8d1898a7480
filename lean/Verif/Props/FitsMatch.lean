import Verif.Model.FitsMatch
import Verif.Lemmas.Stats
import Verif.Props.Shift
import Verif.Props.IterZoom
import Verif.Props.Chi2Shift
import Verif.Props.Chi2Recover
import Mathlib.Tactic.Linarith
import Mathlib.Algebra.Order.BigOperators.Group.Finset

/-!
# C69-C71, C84: `match_fits`, `register_fits`, `cross_correlation_shifts_FITS`
-/

open Finset

namespace ImgReg

/-! ## Specification -/

open Classical in
/-- What the sigma cut makes of a pixel: it is kept if it is above the threshold, set to 0 otherwise; NaN stays NaN.  Nothing is
above a NaN threshold. -/
noncomputable def Spec.cut (thr : Pix) (p : Pix) : Pix :=
  p.map fun v => if ∃ t, thr = some t ∧ t < v then v else 0

/-- The threshold for an image with noise `s`. -/
noncomputable def Spec.threshold (s : Pix) (σ : ℝ) : Pix := s.map (· * σ)

/-- The cut images have common signal: the sum of products over the pixels valid in both is not 0. -/
def Spec.CommonSignal {ny nx : ℕ} (a b : Fin ny × Fin nx → Pix) : Prop := ∑ i, (a i).getD 0 * (b i).getD 0 ≠ 0

/-- The two images after the sigma cut; `s1`, `s2` are their noises. -/
structure Spec.Cut (s1 s2 : Pix) (σ : ℝ) {ny nx : ℕ} (a b c1 c2 : Fin ny × Fin nx → Pix) : Prop where
  none : σ = 0 → c1 = a ∧ c2 = b
  cut : σ ≠ 0 → Spec.CommonSignal (fun i => Spec.cut (Spec.threshold s1 σ) (a i)) (fun i => Spec.cut (Spec.threshold s2 σ) (b i)) →
    c1 = (fun i => Spec.cut (Spec.threshold s1 σ) (a i)) ∧ c2 = (fun i => Spec.cut (Spec.threshold s2 σ) (b i))
  fallback : σ ≠ 0 → ¬ Spec.CommonSignal (fun i => Spec.cut (Spec.threshold s1 σ) (a i)) (fun i => Spec.cut (Spec.threshold s2 σ) (b i)) →
    c1 = a ∧ c2 = b

/-! ## Lemmas -/

theorem cutPix_eq (thr p : Pix) : cutPix thr p = Spec.cut thr p := by
  unfold cutPix Spec.cut
  cases p with
  | none => rfl
  | some v =>
    cases thr with
    | none => simp
    | some t =>
      by_cases h : v > t
      · simp [h]
      · simp [h]

theorem okSum_eq {ny nx : ℕ} (a b : Fin ny × Fin nx → Pix) : okSum a b = ∑ i, (a i).getD 0 * (b i).getD 0 := by
  unfold okSum
  refine Finset.sum_congr rfl fun i _ => ?_
  cases a i <;> cases b i <;> simp

theorem sigmaCut_spec {ny nx : ℕ} (std : List Pix → Pix) (σ : ℝ) (a b : Fin ny × Fin nx → Pix) :
    Spec.Cut (std (ravel a)) (std (ravel b)) σ a b (sigmaCutImages std σ a b).1 (sigmaCutImages std σ a b).2 := by
  unfold sigmaCutImages
  simp only [cutPix_eq, okSum_eq]
  by_cases h : σ = 0
  · rw [if_neg (by simpa using h)]
    exact ⟨fun _ => ⟨rfl, rfl⟩, fun h' => absurd h h', fun h' => absurd h h'⟩
  · rw [if_pos h]
    refine ⟨fun h' => absurd h' h, fun _ hc => ?_, fun _ hc => ?_⟩
    · unfold Spec.CommonSignal Spec.threshold at hc
      rw [if_neg hc]
      exact ⟨rfl, rfl⟩
    · unfold Spec.CommonSignal Spec.threshold at hc
      rw [if_pos (not_not.mp hc)]
      exact ⟨rfl, rfl⟩

theorem cutSame_same {ny nx : ℕ} [NeZero ny] [NeZero nx] (std : List Pix → Pix) (σ : ℝ) (a b : Fin ny × Fin nx → Pix) :
    cutSame std σ ⟨ny, nx, a⟩ ⟨ny, nx, b⟩
      = .ok (⟨ny, nx, (sigmaCutImages std σ a b).1⟩, ⟨ny, nx, (sigmaCutImages std σ a b).2⟩) := by
  unfold cutSame
  rw [dif_pos ⟨rfl, rfl⟩]
  rfl

theorem noise_spec {ny nx : ℕ} (mad : Bool) (a : Fin ny × Fin nx → Pix) :
    Spec.IsNoise mad a ((if mad then madStd else Np.nanstd) (ravel a)) := by
  cases mad
  · exact nanstd_spec a
  · exact madStd_spec a

/-! ## C69 -/

variable {F K : Type} (W : FitsWorld F K) (noKw : K) {ny nx : ℕ} [NeZero ny] [NeZero nx]

/-- C69: `match_fits` without `header`: the first image as it is loaded, the second one reprojected to its header, both after
the sigma cut; the header is the one loaded. -/
theorem C69_match (file1 file2 : F) (σ : ℝ) (mad : Bool) (h : Header) (a b : Fin ny × Fin nx → Pix)
    (hh : W.loadHeader file1 = .ok h) (ha : W.loadData file1 = .ok (some ⟨ny, nx, a⟩))
    (hb : W.reproject file2 h noKw = .ok ⟨ny, nx, b⟩) :
    ∃ (s1 s2 : Pix) (c1 c2 : Fin ny × Fin nx → Pix), Spec.IsNoise mad a s1 ∧ Spec.IsNoise mad b s2 ∧
      matchFits W noKw file1 file2 Option.none σ mad = .ok (⟨ny, nx, c1⟩, ⟨ny, nx, c2⟩, h) ∧
      Spec.Cut s1 s2 σ a b c1 c2 := by
  refine ⟨_, _, _, _, noise_spec mad a, noise_spec mad b, ?_, sigmaCut_spec _ σ a b⟩
  unfold matchFits
  simp only [hh, ha, hb, bind, Except.bind, cutSame_same]
  rfl

/-- C69: with `header=h`, both images are reprojected to `h`, which is returned; no header is loaded. -/
theorem C69_match_header (file1 file2 : F) (σ : ℝ) (mad : Bool) (h : Header) (a b : Fin ny × Fin nx → Pix)
    (ha : W.reproject file1 h noKw = .ok ⟨ny, nx, a⟩) (hb : W.reproject file2 h noKw = .ok ⟨ny, nx, b⟩) :
    ∃ (s1 s2 : Pix) (c1 c2 : Fin ny × Fin nx → Pix), Spec.IsNoise mad a s1 ∧ Spec.IsNoise mad b s2 ∧
      matchFits W noKw file1 file2 (some h) σ mad = .ok (⟨ny, nx, c1⟩, ⟨ny, nx, c2⟩, h) ∧
      Spec.Cut s1 s2 σ a b c1 c2 := by
  refine ⟨_, _, _, _, noise_spec mad a, noise_spec mad b, ?_, sigmaCut_spec _ σ a b⟩
  unfold matchFits
  simp only [ha, hb, bind, Except.bind, cutSame_same]
  rfl

/-- C69: shapes that differ are a ValueError; a first file from which no data can be loaded (None) an AttributeError;
errors of the readers propagate. -/
theorem C69_errors (file1 file2 : F) (σ : ℝ) (mad : Bool) :
    (∀ h a b, W.loadHeader file1 = .ok h → W.loadData file1 = .ok (some a) → W.reproject file2 h noKw = .ok b →
      (a.ny ≠ b.ny ∨ a.nx ≠ b.nx) → matchFits W noKw file1 file2 Option.none σ mad = .error .valueError) ∧
    (∀ h b, W.loadHeader file1 = .ok h → W.loadData file1 = .ok Option.none → W.reproject file2 h noKw = .ok b →
      matchFits W noKw file1 file2 Option.none σ mad = .error .attributeError) ∧
    (∀ e, W.loadHeader file1 = .error e → matchFits W noKw file1 file2 Option.none σ mad = .error e) ∧
    (∀ h e, W.loadHeader file1 = .ok h → W.loadData file1 = .error e →
      matchFits W noKw file1 file2 Option.none σ mad = .error e) ∧
    (∀ h a e, W.loadHeader file1 = .ok h → W.loadData file1 = .ok a → W.reproject file2 h noKw = .error e →
      matchFits W noKw file1 file2 Option.none σ mad = .error e) := by
  unfold matchFits
  refine ⟨?_, ?_, ?_, ?_, ?_⟩
  · intro h a b h1 h2 h3 hne
    simp only [h1, h2, h3, bind, Except.bind, cutSame]
    rw [dif_neg]
    rintro ⟨e1, e2⟩
    rcases hne with h | h
    · exact h e1.symm
    · exact h e2.symm
  · intro h b h1 h2 h3
    simp only [h1, h2, h3, bind, Except.bind]
  · intro e h1
    simp only [h1, bind, Except.bind]
  · intro h e h1 h2
    simp only [h1, h2, bind, Except.bind]
  · intro h a e h1 h2 h3
    simp only [h1, h2, h3, bind, Except.bind]

/-! ### when the cut is used -/

/-- a noise estimate that is never negative -/
def Spec.NonnegStd (std : List Pix → Pix) : Prop := ∀ l t, std l = some t → 0 ≤ t

theorem nanstd_nonneg : Spec.NonnegStd Np.nanstd := by
  intro l t h
  unfold Np.nanstd at h
  simp only at h
  split at h
  · cases h
  · cases h
    exact Real.sqrt_nonneg _

theorem std_nonneg : Spec.NonnegStd Np.std := by
  intro l t h
  unfold Np.std at h
  split at h
  · cases h
  · exact nanstd_nonneg l t h

theorem nanmedian_nonneg (l : List Pix) (hl : ∀ v, some v ∈ l → 0 ≤ v) (t : ℝ) (h : Np.nanmedian l = some t) : 0 ≤ t := by
  unfold Np.nanmedian at h
  simp only at h
  set vs := (l.filterMap id).mergeSort (fun a b => decide (a ≤ b)) with hvs
  have hmem : ∀ k, 0 ≤ vs.getD k 0 := by
    intro k
    rw [List.getD_eq_getElem?_getD]
    cases hk : vs[k]? with
    | none => simp
    | some v =>
      simp only [Option.getD_some]
      have hv : v ∈ vs := List.mem_of_getElem? hk
      rw [hvs, List.mem_mergeSort, List.mem_filterMap] at hv
      obtain ⟨p, hp, hpv⟩ := hv
      simp only [id] at hpv
      subst hpv
      exact hl v hp
  split at h
  · cases h
  · split at h
    · cases h; exact hmem _
    · cases h
      have := hmem (vs.length / 2 - 1)
      have := hmem (vs.length / 2)
      positivity

theorem madStd_nonneg : Spec.NonnegStd madStd := by
  intro l t h
  unfold madStd at h
  split at h
  · cases h
  · rename_i m hm
    rw [Option.map_eq_some_iff] at h
    obtain ⟨d, hd, rfl⟩ := h
    have : 0 ≤ d := by
      refine nanmedian_nonneg _ ?_ d hd
      intro v hv
      rw [List.mem_map] at hv
      obtain ⟨p, -, hp⟩ := hv
      cases p with
      | none => simp at hp
      | some u => simp only [Option.map_some, Option.some.injEq] at hp; rw [← hp]; exact abs_nonneg _
    positivity

/-- a pixel above the threshold -/
def Spec.Above (thr p : Pix) : Prop := ∃ t v, thr = some t ∧ p = some v ∧ t < v

theorem noise_nonneg {ny nx : ℕ} (mad : Bool) (a : Fin ny × Fin nx → Pix) (t : ℝ) (h : Spec.IsNoise mad a (some t)) : 0 ≤ t := by
  have := noise_unique h (noise_spec mad a)
  cases mad
  · exact nanstd_nonneg _ _ this.symm
  · exact madStd_nonneg _ _ this.symm

omit [NeZero ny] [NeZero nx] in
theorem commonSignal_iff (s1 s2 : Pix) (hs1 : ∀ t, s1 = some t → 0 ≤ t) (hs2 : ∀ t, s2 = some t → 0 ≤ t)
    (σ : ℝ) (hσ : 0 < σ) (a b : Fin ny × Fin nx → Pix) :
    Spec.CommonSignal (fun i => Spec.cut (Spec.threshold s1 σ) (a i)) (fun i => Spec.cut (Spec.threshold s2 σ) (b i)) ↔
      ∃ i, Spec.Above (Spec.threshold s1 σ) (a i) ∧ Spec.Above (Spec.threshold s2 σ) (b i) := by
  have key : ∀ (s : Pix), (∀ t, s = some t → 0 ≤ t) → ∀ (c : Fin ny × Fin nx → Pix) i, 0 ≤ (Spec.cut (Spec.threshold s σ) (c i)).getD 0 ∧
      ((Spec.cut (Spec.threshold s σ) (c i)).getD 0 ≠ 0 ↔ Spec.Above (Spec.threshold s σ) (c i)) := by
    intro s hs c i
    have hthr : ∀ t, Spec.threshold s σ = some t → 0 ≤ t := by
      intro t ht
      unfold Spec.threshold at ht
      rw [Option.map_eq_some_iff] at ht
      obtain ⟨d, hd, rfl⟩ := ht
      exact mul_nonneg (hs _ hd) hσ.le
    unfold Spec.cut Spec.Above
    cases hc : c i with
    | none => simp
    | some v =>
      simp only [Option.map_some, Option.getD_some, Option.some.injEq]
      by_cases h : ∃ t, Spec.threshold s σ = some t ∧ t < v
      · obtain ⟨t, ht, htv⟩ := h
        have := hthr t ht
        rw [if_pos ⟨t, ht, htv⟩]
        refine ⟨by linarith, fun _ => ⟨t, v, ht, rfl, htv⟩, fun _ => by linarith⟩
      · rw [if_neg h]
        refine ⟨le_refl _, fun h' => absurd rfl h', ?_⟩
        rintro ⟨t, w, ht, rfl, htw⟩
        exact absurd ⟨t, ht, htw⟩ h
  have ka := key s1 hs1 a
  have kb := key s2 hs2 b
  unfold Spec.CommonSignal
  rw [Ne, Finset.sum_eq_zero_iff_of_nonneg (fun i _ => mul_nonneg (ka i).1 (kb i).1)]
  push Not
  constructor
  · rintro ⟨i, -, hi⟩
    rw [Ne, mul_eq_zero, not_or] at hi
    exact ⟨i, (ka i).2.mp hi.1, (kb i).2.mp hi.2⟩
  · rintro ⟨i, h1, h2⟩
    exact ⟨i, Finset.mem_univ _, mul_ne_zero ((ka i).2.mpr h1) ((kb i).2.mpr h2)⟩

/-- C69: for a positive `sigma_cut`, `match_fits` uses the cut images exactly when some pixel is above the threshold in both
images; otherwise both come back uncut. `s1`, `s2` are the noises of the two images. -/
theorem C69_fallback_iff (file1 file2 : F) (σ : ℝ) (hσ : 0 < σ) (mad : Bool) (h : Header) (a b : Fin ny × Fin nx → Pix)
    (hh : W.loadHeader file1 = .ok h) (ha : W.loadData file1 = .ok (some ⟨ny, nx, a⟩))
    (hb : W.reproject file2 h noKw = .ok ⟨ny, nx, b⟩) (s1 s2 : Pix) (hs1 : Spec.IsNoise mad a s1) (hs2 : Spec.IsNoise mad b s2) :
    ((∃ i, Spec.Above (Spec.threshold s1 σ) (a i) ∧ Spec.Above (Spec.threshold s2 σ) (b i)) →
      matchFits W noKw file1 file2 Option.none σ mad = .ok (⟨ny, nx, fun i => Spec.cut (Spec.threshold s1 σ) (a i)⟩,
        ⟨ny, nx, fun i => Spec.cut (Spec.threshold s2 σ) (b i)⟩, h)) ∧
    ((¬ ∃ i, Spec.Above (Spec.threshold s1 σ) (a i) ∧ Spec.Above (Spec.threshold s2 σ) (b i)) →
      matchFits W noKw file1 file2 Option.none σ mad = .ok (⟨ny, nx, a⟩, ⟨ny, nx, b⟩, h)) := by
  obtain ⟨t1, t2, c1, c2, ht1, ht2, h1, h2⟩ := C69_match W noKw file1 file2 σ mad h a b hh ha hb
  obtain rfl := noise_unique hs1 ht1
  obtain rfl := noise_unique hs2 ht2
  rw [h1]
  rw [← commonSignal_iff s1 s2 (fun t e => noise_nonneg mad a t (e ▸ hs1)) (fun t e => noise_nonneg mad b t (e ▸ hs2)) σ hσ a b]
  constructor
  · intro hc
    obtain ⟨e1, e2⟩ := h2.cut hσ.ne' hc
    rw [e1, e2]
  · intro hc
    obtain ⟨e1, e2⟩ := h2.fallback hσ.ne' hc
    rw [e1, e2]

/-! ## C70 -/

/-- Degrees per pixel of a two-axis WCS: the diagonal of the CD matrix if there is one, CDELT otherwise. -/
def Spec.pixelScale (cd : Option (Fin 2 → Fin 2 → ℝ)) (cdelt : Fin 2 → ℝ) : Fin 2 → ℝ :=
  match cd with
  | some c => fun i => c i i
  | Option.none => cdelt

/-- C70: what `register_fits` returns, once the images are matched, the method has returned `dx, dy, ex, ey` and the WCS has
two axes. -/
theorem C70_outputs (fftw : Bool) (projKw : RegKw K → K) (method : Img → Img → Option Img → RegKw K → Py (List ℝ))
    (file1 file2 : F) (errfile : Option F) (re rc rs rh : Bool) (σ : ℝ) (kw : RegKw K)
    (im1 im2 : Img) (h : Header) (hm : matchFits W noKw file1 file2 kw.header σ (kw.useMadStd.getD true) = .ok (im1, im2, h))
    (err : Option Img) (herr : (errfile = Option.none ∧ err = Option.none) ∨
      (∃ f e, errfile = some f ∧ kw.header = Option.none ∧ W.reproject f h (projKw kw) = .ok e ∧ err = some e))
    (dx dy ex ey : ℝ) (hmeth : method im1 im2 err kw = .ok [dx, dy, ex, ey])
    (p : ℝ → ℝ → Py (ℝ × ℝ)) (cd : Option (Fin 2 → Fin 2 → ℝ)) (cdelt g : Fin 2 → ℝ)
    (hw : W.mkWcs h = .ok ⟨2, p, cd, cdelt, g⟩) :
    let sc := Spec.pixelScale cd cdelt
    registerFits W fftw noKw projKw method file1 file2 errfile re rc rs rh σ kw
      = .ok ([.num dx, .num dy, .num (dx * sc 0), .num (dy * sc 1)]
        ++ (if re then [.num ex, .num ey, .num (ex * sc 0), .num (ey * sc 1)] else [])
        ++ (if rc then [.img im1, .img im2] else [])
        ++ (if rs then [.shifted im2.ny im2.nx (shift2d ⟨fftw, false, 1⟩ (toC im2.val) (-dx) (-dy) 0 false true)] else [])
        ++ (if rh then [.hdr h] else [])) := by
  intro sc
  unfold registerFits
  simp only [hm, bind, Except.bind]
  have hE : errImage W projKw errfile h kw = .ok err := by
    unfold errImage
    rcases herr with ⟨h1, h2⟩ | ⟨f, e, h1, h2, h3, h4⟩
    · rw [h1, h2]
    · rw [h1, h4]
      simp only [h2, h3, Option.isSome_none, Bool.false_eq_true, if_false]
      rfl
  rw [hE]
  simp only [hmeth, hw]
  have ht : ∀ x y : ℝ, timesScale x y (Wcs.linearScale ⟨2, p, cd, cdelt, g⟩) = .ok (x * sc 0, y * sc 1) := fun x y => by
    unfold timesScale
    rw [dif_pos rfl]
    cases cd <;> rfl
  rw [ht, ht]
  simp only [pure, Except.pure]
  congr 1
  cases re <;> cases rc <;> cases rs <;> cases rh <;> rfl

/-- C70: when the measured offset is a whole number of pixels and the second image (finite) is the first one rolled by it, the
shifted image is the first image. -/
theorem C70_shifted_whole (fftw : Bool) (x : Fin ny × Fin nx → ℝ) (dx dy : ℤ) :
    shift2d ⟨fftw, false, 1⟩ (toC (realArr (Spec.roll2 dy dx x))) (-(dx : ℝ)) (-(dy : ℝ)) 0 false true = .real (realArr x) := by
  rw [toC_realArr]
  have := C02_shift2d_integer_roll ⟨fftw, false, 1⟩ (Spec.roll2 dy dx x) (-dx) (-dy) false
  push_cast at this
  rw [this]
  congr 2
  funext i
  have hb : ∀ (n : ℕ) [NeZero n] (k : Fin n) (z : ℤ), Spec.wrap n (((Spec.wrap n (((k : ℕ) : ℤ) - -z) : Fin n) : ℕ) - z) = k := by
    intro n _ k z
    have h1 : (((Spec.wrap n (((k : ℕ) : ℤ) - -z) : Fin n) : ℕ) : ℤ) - z ≡ ((k : ℕ) : ℤ) - -z - z [ZMOD n] :=
      (Spec.wrap_modEq n _).sub_right z
    rw [show ((k : ℕ) : ℤ) - -z - z = ((k : ℕ) : ℤ) by ring] at h1
    rw [Spec.wrap_congr n h1, Spec.wrap_val]
  unfold Spec.roll2
  simp only [hb]

/-- C70: with the default `register_method`, `register_fits` never returns: NameError as soon as the images are matched. -/
theorem C70_default_method (fftw : Bool) (projKw : RegKw K → K) (cfg : FFTConfig) (stats : Stats) (fuel : ℕ) (zeromean : Bool)
    (zs rzs : ℕ × ℕ) (rf md : ℝ) (file1 file2 : F) (re rc rs rh : Bool) (σ : ℝ) (kw : RegKw K)
    (r : Img × Img × Header) (hm : matchFits W noKw file1 file2 kw.header σ (kw.useMadStd.getD true) = .ok r) :
    registerFits W fftw noKw projKw (iterzoomMethod cfg stats fuel zeromean zs rzs rf md) file1 file2 Option.none re rc rs rh σ kw
      = .error .nameError := by
  unfold registerFits
  simp only [hm, bind, Except.bind]
  rfl

/-! ## C85: from the files to the shift -/

/-- C85: if the second file, reprojected to the header of the first one, is the first image (finite, odd sizes, lowest frequencies
present) rolled by `(dx, dy)` pixels, less than half the image, then `register_fits(register_method=chi2_shift,
upsample_factor=u)` with `u` below the number of rows returns exactly `dx, dy`, their world offsets, and - if asked - the
shifted second image, which is the first image. -/
theorem C85_register_roll (fftw : Bool) (projKw : RegKw K → K) (cfg : FFTConfig) (st : Stats) (hst : Spec.validStats st)
    (u : ℕ) (hu : 0 < u) (hlt : u < ny) (zm : Bool) (nf : ℝ) (mas : ℕ) (mns : ℝ) (ah : Bool) (hf : Spec.fits ah ny nx)
    (x : Fin ny × Fin nx → ℝ) (hy : 2 ≤ ny) (hx : 2 ≤ nx) (oy : Odd ny) (ox : Odd nx)
    (h10 : dft (fun p => (x p : ℂ)) (1, 0) ≠ 0) (h01 : dft (fun p => (x p : ℂ)) (0, 1) ≠ 0)
    (dy dx : ℤ) (hdy : 2 * |dy| < ny) (hdx : 2 * |dx| < nx)
    (file1 file2 : F) (h : Header) (hh : W.loadHeader file1 = .ok h)
    (ha : W.loadData file1 = .ok (some ⟨ny, nx, realArr x⟩))
    (hb : W.reproject file2 h noKw = .ok ⟨ny, nx, realArr (Spec.roll2 dy dx x)⟩)
    (p : ℝ → ℝ → Py (ℝ × ℝ)) (cd : Option (Fin 2 → Fin 2 → ℝ)) (cdelt g : Fin 2 → ℝ)
    (hw : W.mkWcs h = .ok ⟨2, p, cd, cdelt, g⟩) (rest : K) :
    let sc := Spec.pixelScale cd cdelt
    registerFits W fftw noKw projKw (chi2Method cfg st (.int u) zm nf false mas mns ah) file1 file2 Option.none
        false false true false 0 ⟨Option.none, Option.none, rest⟩
      = .ok [.num dx, .num dy, .num (dx * sc 0), .num (dy * sc 1), .shifted ny nx (.real (realArr x))] := by
  intro sc
  have hodd := C33_odd_sizes cfg st hst x hy hx oy ox h10 h01 dy dx hdy hdx .none 1 one_ne_zero rfl u hu hlt zm nf mas mns ah hf
  obtain ⟨dx', dy', ex, ey, s1, s2, xv, yv, c, -, hlay⟩ :=
    C36_layout cfg st hst (realArr x) (realArr (Spec.roll2 dy dx x)) .none (.int u) zm nf mas mns ah hf hu
  have h00 := hlay false false
  rw [hodd] at h00
  simp only [Bool.false_eq_true, if_false, List.append_nil, Except.ok.injEq, List.cons.injEq, RetVal.num.injEq, and_true] at h00
  obtain ⟨e1, e2⟩ := h00
  have h11 := hlay true false
  rw [← e1, ← e2] at h11
  have hmeth : chi2Method (K := K) cfg st (.int u) zm nf false mas mns ah ⟨ny, nx, realArr x⟩
      ⟨ny, nx, realArr (Spec.roll2 dy dx x)⟩ Option.none ⟨Option.none, Option.none, rest⟩ = .ok [(dx : ℝ), dy, ex, ey] := by
    unfold chi2Method
    simp only [Option.isSome_none, Bool.false_eq_true, or_self, if_false, bind, Except.bind, h11]
    rfl
  obtain ⟨s1, s2, c1, c2, -, -, hm, hcut⟩ := C69_match W noKw file1 file2 0 true h _ _ hh ha hb
  obtain ⟨q1, q2⟩ := hcut.none rfl
  rw [q1, q2] at hm
  have := C70_outputs W noKw fftw projKw (chi2Method cfg st (.int u) zm nf false mas mns ah) file1 file2 Option.none
    false false true false 0 ⟨Option.none, Option.none, rest⟩ _ _ h hm Option.none (Or.inl ⟨rfl, rfl⟩) dx dy ex ey hmeth p cd cdelt g hw
  rw [this]
  simp only [C70_shifted_whole]
  rfl

/-! ## C84: the keyword arguments -/

/-- C84: `register_fits(..., errfile=f, header=h)` is a TypeError as soon as the images are matched, whatever the method. -/
theorem C84_header_errfile (fftw : Bool) (projKw : RegKw K → K) (method : Img → Img → Option Img → RegKw K → Py (List ℝ))
    (file1 file2 f : F) (re rc rs rh : Bool) (σ : ℝ) (h : Header) (um : Option Bool) (rest : K)
    (r : Img × Img × Header) (hm : matchFits W noKw file1 file2 (some h) σ (um.getD true) = .ok r) :
    registerFits W fftw noKw projKw method file1 file2 (some f) re rc rs rh σ ⟨some h, um, rest⟩ = .error .typeError := by
  unfold registerFits
  simp only [hm, bind, Except.bind]
  rfl

/-- C84: errors of the method and of the matching propagate; a method that does not return four values is a ValueError. -/
theorem C84_errors (fftw : Bool) (projKw : RegKw K → K) (method : Img → Img → Option Img → RegKw K → Py (List ℝ))
    (file1 file2 : F) (re rc rs rh : Bool) (σ : ℝ) (kw : RegKw K) :
    (∀ e, matchFits W noKw file1 file2 kw.header σ (kw.useMadStd.getD true) = .error e →
      registerFits W fftw noKw projKw method file1 file2 Option.none re rc rs rh σ kw = .error e) ∧
    (∀ im1 im2 h, matchFits W noKw file1 file2 kw.header σ (kw.useMadStd.getD true) = .ok (im1, im2, h) →
      (∀ e, method im1 im2 Option.none kw = .error e →
        registerFits W fftw noKw projKw method file1 file2 Option.none re rc rs rh σ kw = .error e) ∧
      (∀ l : List ℝ, l.length ≠ 4 → method im1 im2 Option.none kw = .ok l →
        registerFits W fftw noKw projKw method file1 file2 Option.none re rc rs rh σ kw = .error .valueError)) := by
  unfold registerFits
  refine ⟨?_, ?_⟩
  · intro e h1
    simp only [h1, bind, Except.bind]
  · intro im1 im2 h h1
    refine ⟨?_, ?_⟩
    · intro e h2
      simp only [h1, h2, bind, Except.bind, errImage]
    · intro l hl h2
      simp only [h1, h2, bind, Except.bind, errImage]
      match l, hl with
      | [], _ => rfl
      | [_], _ => rfl
      | [_, _], _ => rfl
      | [_, _, _], _ => rfl
      | [_, _, _, _], hl => exact absurd rfl hl
      | _ :: _ :: _ :: _ :: _ :: _, _ => rfl

/-- C84 with an error file: errors while matching the images, while reprojecting the error file (to the header of the matched images, with the
keyword arguments), and of the method, which is handed the reprojected error image, propagate; any other number of values than four is a
ValueError; an error of the WCS of the header propagates once the method has returned. -/
theorem C84_errors_errfile (fftw : Bool) (projKw : RegKw K → K) (method : Img → Img → Option Img → RegKw K → Py (List ℝ))
    (file1 file2 f : F) (re rc rs rh : Bool) (σ : ℝ) (kw : RegKw K) (hk : kw.header = Option.none) :
    (∀ e, matchFits W noKw file1 file2 Option.none σ (kw.useMadStd.getD true) = .error e →
      registerFits W fftw noKw projKw method file1 file2 (some f) re rc rs rh σ kw = .error e) ∧
    (∀ im1 im2 h, matchFits W noKw file1 file2 Option.none σ (kw.useMadStd.getD true) = .ok (im1, im2, h) →
      (∀ e, W.reproject f h (projKw kw) = .error e →
        registerFits W fftw noKw projKw method file1 file2 (some f) re rc rs rh σ kw = .error e) ∧
      (∀ er, W.reproject f h (projKw kw) = .ok er →
        (∀ e, method im1 im2 (some er) kw = .error e →
          registerFits W fftw noKw projKw method file1 file2 (some f) re rc rs rh σ kw = .error e) ∧
        (∀ l : List ℝ, l.length ≠ 4 → method im1 im2 (some er) kw = .ok l →
          registerFits W fftw noKw projKw method file1 file2 (some f) re rc rs rh σ kw = .error .valueError) ∧
        (∀ (l : List ℝ) (e : PyErr), l.length = 4 → method im1 im2 (some er) kw = .ok l → W.mkWcs h = .error e →
          registerFits W fftw noKw projKw method file1 file2 (some f) re rc rs rh σ kw = .error e))) := by
  unfold registerFits
  rw [hk]
  refine ⟨?_, ?_⟩
  · intro e h1
    simp only [h1, bind, Except.bind]
  · intro im1 im2 h h1
    refine ⟨?_, ?_⟩
    · intro e h2
      simp [h1, h2, bind, Except.bind, errImage, hk, Except.map]
    · intro er h2
      have he : errImage W projKw (some f) h kw = .ok (some er) := by simp [errImage, hk, h2, Except.map]
      refine ⟨?_, ?_, ?_⟩
      · intro e h3
        simp only [h1, he, h3, bind, Except.bind]
      · intro l hl h3
        simp only [h1, he, h3, bind, Except.bind]
        match l, hl with
        | [], _ => rfl
        | [_], _ => rfl
        | [_, _], _ => rfl
        | [_, _, _], _ => rfl
        | [_, _, _, _], hl => exact absurd rfl hl
        | _ :: _ :: _ :: _ :: _ :: _, _ => rfl
      · intro l e hl h3 h4
        simp only [h1, he, h3, h4, bind, Except.bind]
        match l, hl with
        | [_, _, _, _], _ => rfl

/-- C84: `register_method=chi2_shift` gets all of the keyword arguments, and has neither `header` nor `use_mad_std`: passing either of them (or both) to
`register_fits` is a TypeError once the images are matched.  Without them an error image of another shape than the images is an IndexError. -/
theorem C84_chi2_kwargs (fftw : Bool) (projKw : RegKw K → K) (cfg : FFTConfig) (st : Stats) (us : UsFactor) (zm : Bool) (nf : ℝ) (vb : Bool)
    (mas : ℕ) (mns : ℝ) (ah : Bool) (file1 file2 : F) (re rc rs rh : Bool) (σ : ℝ) (kw : RegKw K) (im1 im2 : Img) (h : Header)
    (hm : matchFits W noKw file1 file2 kw.header σ (kw.useMadStd.getD true) = .ok (im1, im2, h)) :
    (∀ hd, kw.header = some hd →
      registerFits W fftw noKw projKw (chi2Method cfg st us zm nf vb mas mns ah) file1 file2 Option.none re rc rs rh σ kw = .error .typeError) ∧
    (∀ b, kw.useMadStd = some b →
      registerFits W fftw noKw projKw (chi2Method cfg st us zm nf vb mas mns ah) file1 file2 Option.none re rc rs rh σ kw = .error .typeError) ∧
    (∀ f e, kw.header = Option.none → kw.useMadStd = Option.none → errImage W projKw (some f) h kw = .ok (some e) →
      (e.ny ≠ im1.ny ∨ e.nx ≠ im1.nx) →
      registerFits W fftw noKw projKw (chi2Method cfg st us zm nf vb mas mns ah) file1 file2 (some f) re rc rs rh σ kw = .error .indexError) := by
  refine ⟨fun hd hk => ?_, fun b hk => ?_, fun f e h1 h2 he hne => ?_⟩
  · refine (((C84_errors W noKw fftw projKw _ file1 file2 re rc rs rh σ kw).2 im1 im2 h hm).1 _ ?_)
    unfold chi2Method
    simp only [hk, Option.isSome_some, true_or, if_true, bind, Except.bind]
  · refine (((C84_errors W noKw fftw projKw _ file1 file2 re rc rs rh σ kw).2 im1 im2 h hm).1 _ ?_)
    unfold chi2Method
    simp only [hk, Option.isSome_some, or_true, if_true, bind, Except.bind]
  · unfold registerFits
    have hc : ¬ (e.ny = im1.ny ∧ e.nx = im1.nx) := by rintro ⟨a, b⟩; rcases hne with h | h <;> contradiction
    have hmeth : chi2Method cfg st us zm nf vb mas mns ah im1 im2 (some e) kw = .error .indexError := by
      unfold chi2Method
      simp only [h1, h2, Option.isSome_none, Bool.false_eq_true, or_self, if_false, bind, Except.bind]
      rw [dif_neg hc]
    simp only [hm, bind, Except.bind, he, hmeth]

/-- C84: the number of axes of the WCS. With one axis its scale is used for both offsets; with three or more (or none) the call is a
ValueError although the shift has been found. -/
theorem C84_axes (fftw : Bool) (projKw : RegKw K → K) (method : Img → Img → Option Img → RegKw K → Py (List ℝ))
    (file1 file2 : F) (re rc rs rh : Bool) (σ : ℝ) (kw : RegKw K) (im1 im2 : Img) (h : Header)
    (hm : matchFits W noKw file1 file2 kw.header σ (kw.useMadStd.getD true) = .ok (im1, im2, h))
    (dx dy ex ey : ℝ) (hmeth : method im1 im2 Option.none kw = .ok [dx, dy, ex, ey]) (w : Wcs) (hw : W.mkWcs h = .ok w) :
    (w.naxis ≠ 1 → w.naxis ≠ 2 →
      registerFits W fftw noKw projKw method file1 file2 Option.none re rc rs rh σ kw = .error .valueError) ∧
    (∀ (p : ℝ → ℝ → Py (ℝ × ℝ)) (cd : Option (Fin 1 → Fin 1 → ℝ)) (cdelt g : Fin 1 → ℝ), w = ⟨1, p, cd, cdelt, g⟩ →
      ∃ sc : ℝ, ((cd = Option.none ∧ sc = cdelt 0) ∨ (∃ c, cd = some c ∧ sc = c 0 0)) ∧
        registerFits W fftw noKw projKw method file1 file2 Option.none re rc rs rh σ kw
          = .ok ([.num dx, .num dy, .num (dx * sc), .num (dy * sc)]
            ++ (if re then [.num ex, .num ey, .num (ex * sc), .num (ey * sc)] else [])
            ++ (if rc then [.img im1, .img im2] else [])
            ++ (if rs then [.shifted im2.ny im2.nx (shift2d ⟨fftw, false, 1⟩ (toC im2.val) (-dx) (-dy) 0 false true)] else [])
            ++ (if rh then [.hdr h] else []))) := by
  refine ⟨fun h1 h2 => ?_, ?_⟩
  · unfold registerFits
    simp only [hm, bind, Except.bind, errImage, hmeth, hw, timesScale, h1, h2, dif_neg, not_false_eq_true]
  · rintro p cd cdelt g rfl
    refine ⟨Wcs.linearScale ⟨1, p, cd, cdelt, g⟩ (0 : Fin 1), ?_, ?_⟩
    · cases cd with
      | none => exact Or.inl ⟨rfl, rfl⟩
      | some c => exact Or.inr ⟨c, rfl, rfl⟩
    · have ht : ∀ x y : ℝ, timesScale x y (Wcs.linearScale ⟨1, p, cd, cdelt, g⟩)
          = .ok (x * Wcs.linearScale ⟨1, p, cd, cdelt, g⟩ (0 : Fin 1), y * Wcs.linearScale ⟨1, p, cd, cdelt, g⟩ (0 : Fin 1)) :=
        fun x y => rfl
      unfold registerFits
      simp only [hm, bind, Except.bind, errImage, hmeth, hw]
      rw [ht, ht]
      simp only [pure, Except.pure]
      congr 1
      cases re <;> cases rc <;> cases rs <;> cases rh <;> rfl

/-! ## C71 -/

/-- C71: what `cross_correlation_shifts_FITS` returns: the method sees the cut images, the caller gets the uncut ones; world
offsets are pixel offsets times the diagonal of the CD matrix, and 0 for a header without CD matrix. -/
theorem C71_outputs (method : Img → Img → Py (List ℝ)) (file1 file2 : F) (rc : Bool) (σ : ℝ) (h : Header)
    (a b : Fin ny × Fin nx → Pix) (hh : W.loadHeader file1 = .ok h) (ha : W.loadData file1 = .ok (some ⟨ny, nx, a⟩))
    (hb : W.reproject file2 h noKw = .ok ⟨ny, nx, b⟩) (p : ℝ → ℝ → Py (ℝ × ℝ)) (cd : Option (Fin 2 → Fin 2 → ℝ))
    (cdelt g : Fin 2 → ℝ) (hw : W.mkWcs h = .ok ⟨2, p, cd, cdelt, g⟩) :
    ∃ (s1 s2 : Pix) (c1 c2 : Fin ny × Fin nx → Pix), Spec.IsStd a s1 ∧ Spec.IsStd b s2 ∧ Spec.Cut s1 s2 σ a b c1 c2 ∧
      ∀ dx dy, method ⟨ny, nx, c1⟩ ⟨ny, nx, c2⟩ = .ok [dx, dy] →
        crossCorrelationShiftsFITS W noKw method file1 file2 rc σ
          = .ok ([.num dx, .num dy, .num (dx * (cd.map fun c => c 0 0).getD 0), .num (dy * (cd.map fun c => c 1 1).getD 0)]
            ++ if rc then [.img ⟨ny, nx, a⟩, .img ⟨ny, nx, b⟩] else []) := by
  refine ⟨_, _, _, _, std_spec a, std_spec b, sigmaCut_spec _ σ a b, fun dx dy hm => ?_⟩
  unfold crossCorrelationShiftsFITS
  simp only [hh, ha, hb, bind, Except.bind, cutSame_same, hm, hw]
  cases cd with
  | none => cases rc <;> simp [pure, Except.pure]
  | some c =>
    have : innerDiag dx dy c = .ok (dx * c 0 0, dy * c 1 1) := by
      unfold innerDiag
      rw [dif_pos rfl]
      simp only [zero_mul, zero_add, add_zero]
      rfl
    simp only [this]
    cases rc <;> simp [pure, Except.pure]

/-- C71: `sigma_cut` of `cross_correlation_shifts_FITS` has no effect when either image contains a NaN: its standard deviation is
NaN, no pixel is above it, and the uncut images are used. -/
theorem C71_nan_no_cut (method : Img → Img → Py (List ℝ)) (file1 file2 : F) (rc : Bool) (σ : ℝ) (h : Header)
    (a b : Fin ny × Fin nx → Pix) (hh : W.loadHeader file1 = .ok h) (ha : W.loadData file1 = .ok (some ⟨ny, nx, a⟩))
    (hb : W.reproject file2 h noKw = .ok ⟨ny, nx, b⟩) (hnan : (∃ i, a i = Option.none) ∨ (∃ i, b i = Option.none)) :
    crossCorrelationShiftsFITS W noKw method file1 file2 rc σ
      = crossCorrelationShiftsFITS W noKw method file1 file2 rc 0 := by
  have key : sigmaCutImages Np.std σ a b = (a, b) := by
    have hs := sigmaCut_spec Np.std σ a b
    by_cases hσ : σ = 0
    · exact Prod.ext (hs.none hσ).1 (hs.none hσ).2
    · have hthr : ∀ c : Fin ny × Fin nx → Pix, (∃ i, c i = Option.none) → ∀ i, (Spec.cut (Spec.threshold (Np.std (ravel c)) σ) (c i)).getD 0 = 0 := by
        rintro c ⟨i0, hi0⟩ i
        have : Spec.threshold (Np.std (ravel c)) σ = Option.none := by
          unfold Spec.threshold Np.std
          rw [if_pos ((mem_ravel c Option.none).2 ⟨i0, hi0⟩)]
          rfl
        rw [this]
        unfold Spec.cut
        cases c i <;> simp
      have hno : ¬ Spec.CommonSignal (fun i => Spec.cut (Spec.threshold (Np.std (ravel a)) σ) (a i))
          (fun i => Spec.cut (Spec.threshold (Np.std (ravel b)) σ) (b i)) := by
        unfold Spec.CommonSignal
        rw [not_not]
        refine Finset.sum_eq_zero fun i _ => ?_
        rcases hnan with hn | hn
        · rw [hthr a hn i, zero_mul]
        · rw [hthr b hn i, mul_zero]
      exact Prod.ext (hs.fallback hσ hno).1 (hs.fallback hσ hno).2
  have key0 : sigmaCutImages Np.std 0 a b = (a, b) := by
    have hs := sigmaCut_spec Np.std 0 a b
    exact Prod.ext (hs.none rfl).1 (hs.none rfl).2
  unfold crossCorrelationShiftsFITS
  simp only [hh, ha, hb, bind, Except.bind, cutSame_same, key, key0]

/-- C71: errors: shapes that differ are a ValueError, no data an AttributeError. -/
theorem C71_errors (method : Img → Img → Py (List ℝ)) (file1 file2 : F) (rc : Bool) (σ : ℝ) (h : Header) (b : Img)
    (hh : W.loadHeader file1 = .ok h) (hb : W.reproject file2 h noKw = .ok b) :
    (∀ a, W.loadData file1 = .ok (some a) → (a.ny ≠ b.ny ∨ a.nx ≠ b.nx) →
      crossCorrelationShiftsFITS W noKw method file1 file2 rc σ = .error .valueError) ∧
    (W.loadData file1 = .ok Option.none → crossCorrelationShiftsFITS W noKw method file1 file2 rc σ = .error .attributeError) := by
  unfold crossCorrelationShiftsFITS
  refine ⟨?_, ?_⟩
  · intro a ha hne
    simp only [hh, ha, hb, bind, Except.bind, cutSame]
    rw [dif_neg]
    rintro ⟨e1, e2⟩
    rcases hne with h | h
    · exact h e1.symm
    · exact h e2.symm
  · intro ha
    simp only [hh, ha, hb, bind, Except.bind]

/-- C71: a CD matrix that is not 2×2 (a cube's header) and a method that does not return two values are ValueErrors; errors of the
method and of the WCS propagate. -/
theorem C71_errors_late (method : Img → Img → Py (List ℝ)) (file1 file2 : F) (rc : Bool) (h : Header)
    (a b : Fin ny × Fin nx → Pix) (hh : W.loadHeader file1 = .ok h) (ha : W.loadData file1 = .ok (some ⟨ny, nx, a⟩))
    (hb : W.reproject file2 h noKw = .ok ⟨ny, nx, b⟩) :
    (∀ e, method ⟨ny, nx, a⟩ ⟨ny, nx, b⟩ = .error e →
      crossCorrelationShiftsFITS W noKw method file1 file2 rc 0 = .error e) ∧
    (∀ l : List ℝ, l.length ≠ 2 → method ⟨ny, nx, a⟩ ⟨ny, nx, b⟩ = .ok l →
      crossCorrelationShiftsFITS W noKw method file1 file2 rc 0 = .error .valueError) ∧
    (∀ dx dy, method ⟨ny, nx, a⟩ ⟨ny, nx, b⟩ = .ok [dx, dy] →
      (∀ e, W.mkWcs h = .error e → crossCorrelationShiftsFITS W noKw method file1 file2 rc 0 = .error e) ∧
      (∀ w, W.mkWcs h = .ok w → w.cd.isSome → w.naxis ≠ 2 →
        crossCorrelationShiftsFITS W noKw method file1 file2 rc 0 = .error .valueError)) := by
  have key0 : sigmaCutImages Np.std 0 a b = (a, b) := by
    have hs := sigmaCut_spec Np.std 0 a b
    exact Prod.ext (hs.none rfl).1 (hs.none rfl).2
  unfold crossCorrelationShiftsFITS
  refine ⟨?_, ?_, ?_⟩
  · intro e he
    simp only [hh, ha, hb, bind, Except.bind, cutSame_same, key0, he]
  · intro l hl he
    simp only [hh, ha, hb, bind, Except.bind, cutSame_same, key0, he]
    match l, hl with
    | [], _ => rfl
    | [_], _ => rfl
    | [_, _], hl => exact absurd rfl hl
    | _ :: _ :: _ :: _, _ => rfl
  · intro dx dy he
    refine ⟨?_, ?_⟩
    · intro e hw
      simp only [hh, ha, hb, bind, Except.bind, cutSame_same, key0, he, hw]
    · intro w hw hs hn
      obtain ⟨c, hc⟩ := Option.isSome_iff_exists.1 hs
      simp only [hh, ha, hb, bind, Except.bind, cutSame_same, key0, he, hw, hc, innerDiag, hn, dif_neg, not_false_eq_true]

/-! ## The hypotheses can be met -/

/-- Two 3×3 files with one header: the second image is the first one (a single bright pixel) rolled by (1, -1). -/
noncomputable def Spec.demoWorld : FitsWorld Bool Unit where
  loadHeader _ := .ok [("OBJECT", .str "M31")]
  loadData _ := .ok (some ⟨3, 3, realArr fun p => if p = 0 then (1 : ℝ) else 0⟩)
  reproject f _ _ := .ok (if f then ⟨3, 3, realArr (Spec.roll2 1 (-1) fun p : Fin 3 × Fin 3 => if p = 0 then (1 : ℝ) else 0)⟩
    else ⟨3, 3, realArr fun p => if p = 0 then (1 : ℝ) else 0⟩)
  mkWcs _ := .ok ⟨2, fun x y => .ok (x, y), Option.none, fun i => if i = 0 then -2 else 3, fun _ => 1⟩

/-- C69_fallback_iff applies to it: both images have a noise estimate -/
example : ∃ s1 s2 : Pix, Spec.IsNoise true (realArr fun p : Fin 3 × Fin 3 => if p = 0 then (1 : ℝ) else 0) s1 ∧
    Spec.IsNoise true (realArr (Spec.roll2 1 (-1) fun p : Fin 3 × Fin 3 => if p = 0 then (1 : ℝ) else 0)) s2 :=
  ⟨_, _, noise_spec true _, noise_spec true _⟩

/-- C85_register_roll (and so C69_match, C70_outputs, whose hypotheses it discharges) applies to it. -/
example (cfg : FFTConfig) (fftw : Bool) :
    registerFits Spec.demoWorld fftw () (fun _ => ()) (chi2Method cfg Option.none (.int 1) false 2 false 512 1.1 false) false true
        Option.none false false true false 0 ⟨Option.none, Option.none, ()⟩
      = .ok [.num ((-1 : ℤ) : ℝ), .num ((1 : ℤ) : ℝ), .num (((-1 : ℤ) : ℝ) * -2), .num (((1 : ℤ) : ℝ) * 3),
          .shifted 3 3 (.real (realArr fun p => if p = 0 then (1 : ℝ) else 0))] := by
  have hd : ∀ k : Fin 3 × Fin 3,
      dft (fun p : Fin 3 × Fin 3 => ((if p = 0 then (1 : ℝ) else 0 : ℝ) : ℂ)) k ≠ 0 := by
    intro k
    have h1 : dft (fun p : Fin 3 × Fin 3 => ((if p = 0 then (1 : ℝ) else 0 : ℝ) : ℂ)) k = 1 := by
      unfold dft
      rw [Finset.sum_eq_single 0]
      · simp [FFTIndex.e_zero]
      · intro b _ hb; simp [hb]
      · simp
    rw [h1]; exact one_ne_zero
  have := C85_register_roll Spec.demoWorld () fftw (fun _ => ()) cfg Option.none trivial 1 one_pos (by norm_num) false 2 512 1.1
    false (Or.inr (by norm_num)) (fun p : Fin 3 × Fin 3 => if p = 0 then (1 : ℝ) else 0) (by norm_num) (by norm_num) ⟨1, rfl⟩
    ⟨1, rfl⟩ (hd _) (hd _) 1 (-1) (by norm_num) (by norm_num) false true _ rfl rfl rfl _ Option.none _ _ rfl ()
  rw [this]
  simp [Spec.pixelScale]

/-- the same files for `cross_correlation_shifts_FITS`, with a method that returns two numbers: C71_outputs applies -/
example : ∃ c1 c2 : Fin 3 × Fin 3 → Pix,
    (fun (_ _ : Img) => (Except.ok [1, 2] : Py (List ℝ))) ⟨3, 3, c1⟩ ⟨3, 3, c2⟩ = .ok [1, 2] ∧
    crossCorrelationShiftsFITS Spec.demoWorld () (fun _ _ => .ok [1, 2]) false true false 3
      = .ok [.num 1, .num 2, .num 0, .num 0] := by
  obtain ⟨s1, s2, c1, c2, -, -, -, h⟩ := C71_outputs Spec.demoWorld () (fun _ _ => .ok [1, 2]) false true false 3 _ _ _ rfl rfl rfl _ Option.none
    _ _ rfl
  refine ⟨c1, c2, rfl, ?_⟩
  rw [h 1 2 rfl]
  simp

end ImgReg
