import Verif.Model.InexactZoom
import Verif.Model.Inexact
import Verif.Model.Upsample

/-!
# `dftups`, `odddftups`, `dftups1d` and `upsample_image` in inexact arithmetic

`image_registration/fft_tools/upsample.py` once more, with every numerical operation replaced by a parameter (`ZoomArith`), and
`register_images` with its `dftups` computed this way.  Products with `-1j`, whole numbers (pixel numbers, `floor(n/2)`) and their
differences are exact in floating point.
-/

open Complex

namespace ImgReg

/-- `ifftshift(np.arange(n)) - floor(n/2)` (upsample.py:52, 57, 143, 145), exact in floating point -/
def upsFreq {n : ℕ} [NeZero n] (k : Fin n) : ℤ := (((Np.ifftshiftIdx k : Fin n) : ℕ) : ℤ) - ((n / 2 : ℕ) : ℤ)

/-- `exp((-1j*2*pi/(n*usfac)) * t * f)` for an output point `t` and a whole number `f` (upsample.py:58, 144, 146) -/
noncomputable def upsKernA (Z : ZoomArith) (n : ℕ) (usfac t f : ℝ) : ℂ :=
  Z.expNegI (Z.mulR (Z.mulR (Z.divR Z.twoPi (Z.mulR n usfac)) t) f)

/-- `dftups(inp, nor, noc, usfac, roff, coff)` (upsample.py:7-63), `usfac ≠ 0` -/
noncomputable def dftupsA (Z : ZoomArith) {nr nc : ℕ} [NeZero nr] [NeZero nc] (inp : Fin nr × Fin nc → ℂ) (nor noc : ℕ)
    (usfac roff coff : ℝ) : Fin nor × Fin noc → ℂ :=
  let term1c := fun k : Fin nc => Z.divR (upsFreq k : ℝ) (nc : ℝ)
  let term2c := fun b : Fin noc => Z.divR (Z.addR ((b : ℕ) : ℝ) (-coff)) usfac
  let kernc : Fin nc × Fin noc → ℂ := fun i => Z.expNegI (Z.mulR (Z.mulR Z.twoPi (term1c i.1)) (term2c i.2))
  let term1r := fun a : Fin nor => Z.addR ((a : ℕ) : ℝ) (-roff)
  let kernr : Fin nor × Fin nr → ℂ := fun i => upsKernA Z nr usfac (term1r i.1) (upsFreq i.2 : ℝ)
  Z.dot (Z.dot kernr inp) kernc

/-- `odddftups` (upsample.py:116-148), `usfac ≠ 0`; in `kernc` the whole number comes first (upsample.py:144). -/
noncomputable def odddftupsA (Z : ZoomArith) {nr nc : ℕ} [NeZero nr] [NeZero nc] (inp : Fin nr × Fin nc → ℂ) (nor noc : ℕ)
    (usfac roff coff : ℝ) : Fin nor × Fin noc → ℂ :=
  let term2c := fun b : Fin noc => Z.addR ((b : ℕ) : ℝ) (-coff)
  let kernc : Fin nc × Fin noc → ℂ := fun i => upsKernA Z nc usfac (upsFreq i.1 : ℝ) (term2c i.2)
  let term1r := fun a : Fin nor => Z.addR ((a : ℕ) : ℝ) (-roff)
  let kernr : Fin nor × Fin nr → ℂ := fun i => upsKernA Z nr usfac (term1r i.1) (upsFreq i.2 : ℝ)
  Z.dot (Z.dot kernr inp) kernc

/-- `dftups1d(inp, usfac, outsize, offset)` (upsample.py:65-90), `usfac ≠ 0`: the coordinates (`return_xouts`) and the values -/
noncomputable def dftups1dA (Z : ZoomArith) {n : ℕ} [NeZero n] (inp : Fin n → ℂ) (usfac : ℝ) (outsize : ℕ) (offset : ℝ) :
    (Fin outsize → ℝ) × (Fin outsize → ℂ) :=
  let term2 := fun i : Fin outsize => Z.divR (Z.addR ((i : ℕ) : ℝ) offset) usfac
  let kern : Fin n × Fin outsize → ℂ := fun i => Z.expNegI (Z.mulR (Z.mulR Z.twoPi (Z.freq n i.1)) (term2 i.2))
  (term2, fun i => Z.dot (fun k : Fin 1 × Fin n => inp k.2) kern ((0 : Fin 1), i))

/-- `upsample_image(image, upsample_factor, output_size, xshift, yshift)` (upsample.py:93-114), `upsample_factor ≥ 1` -/
noncomputable def upsampleImageA (Z : ZoomArith) {ny nx : ℕ} [NeZero ny] [NeZero nx] (image : Fin ny × Fin nx → ℂ) (upsampleFactor : ℕ)
    (outputSize : OutSize) (xshift yshift : ℝ) : COut2 :=
  let s : ℕ × ℕ := match outputSize with
    | .none => (ny * upsampleFactor, nx * upsampleFactor)
    | .pair s1 s2 => (s1, s2)
    | .scalar s => (s, s)
  ⟨s.1, s.2, fun i => some (dftupsA Z (Z.ifft image) s.1 s.2 upsampleFactor yshift xshift i)⟩

/-- The arithmetic of `register_images` with `dftups` (register_images.py:245-253) made of elementary operations -/
noncomputable def Arith.withDftups (A : Arith) (Z : ZoomArith) : Arith :=
  { A with dftups := fun y s us roff coff => dftupsA Z y s s us roff coff }

end ImgReg
