import Verif.Model.Scale

/-!
# Model of `image_registration/fft_tools/upsample.py`
-/

open Complex

namespace ImgReg

/-- A complex 2-D result of dynamic size. -/
structure COut2 where
  rows : ℕ
  cols : ℕ
  arr : Fin rows × Fin cols → CPix

/-- `dftups(inp, nor, noc, usfac, roff, coff)` (upsample.py:7-63).
`floor(nc/2)` is `⌊nc/2⌋`; `usfac = 0` raises in the Python-scalar division of upsample.py:58. -/
noncomputable def dftups {nr nc : ℕ} [NeZero nr] [NeZero nc] (inp : Fin nr × Fin nc → CPix)
    (nor noc : Option ℕ) (usfac roff coff : ℝ) : Py COut2 :=
  open Classical in
  let noc := noc.getD nc
  let nor := nor.getD nr
  let term1c := fun k : Fin nc =>
    ((((Np.ifftshiftIdx k : Fin nc) : ℕ) : ℝ) - (⌊(nc : ℝ) / 2⌋ : ℝ)) / (nc : ℝ)
  let term2c := fun b : Fin noc => (((b : ℕ) : ℝ) - coff) / usfac
  let kernc : Fin nc × Fin noc → CPix :=
    fun i => some (Complex.exp ((-I * 2 * Real.pi) * (term1c i.1 : ℂ) * (term2c i.2 : ℂ)))
  if usfac = 0 then .error .zeroDivisionError
  else
    let term1r := fun a : Fin nor => ((a : ℕ) : ℝ) - roff
    let term2r := fun k : Fin nr => (((Np.ifftshiftIdx k : Fin nr) : ℕ) : ℝ) - (⌊(nr : ℝ) / 2⌋ : ℝ)
    let kernr : Fin nor × Fin nr → CPix :=
      fun i => some (Complex.exp ((-I * 2 * Real.pi / ((nr : ℂ) * (usfac : ℂ)))
        * (term1r i.1 : ℂ) * (term2r i.2 : ℂ)))
    .ok ⟨nor, noc, Np.dot (Np.dot kernr inp) kernc⟩

/-- `odddftups` (upsample.py:116-148).  `oddr`/`nrnew` (upsample.py:126-135) are never used. -/
noncomputable def odddftups {nr nc : ℕ} [NeZero nr] [NeZero nc] (inp : Fin nr × Fin nc → CPix)
    (nor noc : Option ℕ) (usfac roff coff : ℝ) : Py COut2 :=
  open Classical in
  let noc := noc.getD nc
  let nor := nor.getD nr
  if usfac = 0 then .error .zeroDivisionError
  else
    let term1c := fun k : Fin nc => (((Np.ifftshiftIdx k : Fin nc) : ℕ) : ℝ) - (⌊(nc : ℝ) / 2⌋ : ℝ)
    let term2c := fun b : Fin noc => ((b : ℕ) : ℝ) - coff
    let kernc : Fin nc × Fin noc → CPix :=
      fun i => some (Complex.exp ((-I * 2 * Real.pi / ((nc : ℂ) * (usfac : ℂ)))
        * (term1c i.1 : ℂ) * (term2c i.2 : ℂ)))
    let term1r := fun a : Fin nor => ((a : ℕ) : ℝ) - roff
    let term2r := fun k : Fin nr => (((Np.ifftshiftIdx k : Fin nr) : ℕ) : ℝ) - (⌊(nr : ℝ) / 2⌋ : ℝ)
    let kernr : Fin nor × Fin nr → CPix :=
      fun i => some (Complex.exp ((-I * 2 * Real.pi / ((nr : ℂ) * (usfac : ℂ)))
        * (term1r i.1 : ℂ) * (term2r i.2 : ℂ)))
    .ok ⟨nor, noc, Np.dot (Np.dot kernr inp) kernc⟩

/-- What `dftups1d` returns. -/
structure Dftups1dRes where
  size : ℕ
  xouts : Option (Fin size → ℝ)
  arr : Fin size → CPix

/-- `dftups1d(inp, usfac, outsize, offset, return_xouts)` (upsample.py:65-90); `usfac = 0` gives
numpy infinities and is excluded (modelled for `usfac ≠ 0` only); for a single output point numpy's
`squeeze` makes the returned coordinate 0-dimensional, here it is a vector of length 1. -/
noncomputable def dftups1d {n : ℕ} [NeZero n] (inp : Fin n → CPix) (usfac : ℝ)
    (outsize : Option ℕ) (offset : ℝ) (returnXouts : Bool) : Dftups1dRes :=
  let outsize := outsize.getD n
  let term1 := fun k : Fin n => Np.fftfreq n k
  let term2 := fun i : Fin outsize => (((i : ℕ) : ℝ) + offset) / usfac
  let kern : Fin n × Fin outsize → CPix :=
    fun i => some (Complex.exp ((-I * 2 * Real.pi) * (term1 i.1 : ℂ) * (term2 i.2 : ℂ)))
  ⟨outsize, if returnXouts then some term2 else none, Np.dotV inp kern⟩

/-- The `output_size` argument of `upsample_image`: `None`, a pair, or one number. -/
inductive OutSize where
  | none
  | pair (s1 s2 : ℕ)
  | scalar (s : ℕ)

/-- `upsample_image(image, upsample_factor, output_size, nthreads, use_numpy_fft, xshift, yshift)`
(upsample.py:93-114), for an integer `upsample_factor`. -/
noncomputable def upsampleImage {ny nx : ℕ} [NeZero ny] [NeZero nx] (cfg : FFTConfig)
    (image : Fin ny × Fin nx → CPix) (upsampleFactor : ℕ) (outputSize : OutSize)
    (xshift yshift : ℝ) : Py COut2 :=
  let ifftn := (getFfts cfg).2
  let imfft := ifftn image
  let s : ℕ × ℕ := match outputSize with
    | .none => (ny * upsampleFactor, nx * upsampleFactor)
    | .pair s1 s2 => (s1, s2)
    | .scalar s => (s, s)
  dftups imfft (some s.1) (some s.2) upsampleFactor yshift xshift

end ImgReg
