import Verif.Model.Upsample
import Verif.Lemmas.Scale

/-! # Lemmas about the matrix-multiply DFT -/

open Complex Finset
open scoped ComplexConjugate

namespace ImgReg

theorem floor_half (n : ℕ) : ⌊(n : ℝ) / 2⌋ = ((n / 2 : ℕ) : ℤ) := by
  rw [Int.floor_eq_iff]
  have h1 : 2 * (n / 2) ≤ n := by omega
  have h2 : n < 2 * (n / 2) + 2 := by omega
  have h1' : (2 : ℝ) * ((n / 2 : ℕ) : ℝ) ≤ n := by exact_mod_cast h1
  have h2' : (n : ℝ) < 2 * ((n / 2 : ℕ) : ℝ) + 2 := by exact_mod_cast h2
  constructor
  · rw [Int.cast_natCast]; linarith
  · rw [Int.cast_natCast]; linarith

theorem ifftshiftIdx_val {n : ℕ} [NeZero n] (k : Fin n) :
    ((Np.ifftshiftIdx k : Fin n) : ℕ) = (k + n / 2) % n := by
  unfold Np.ifftshiftIdx
  rw [Fin.val_add]
  simp [Fin.ofNat, Nat.add_mod]

theorem ifftshift_freq {n : ℕ} [NeZero n] (k : Fin n) :
    (((Np.ifftshiftIdx k : Fin n) : ℕ) : ℝ) - (⌊(n : ℝ) / 2⌋ : ℝ) = (Np.fftfreqInt n k : ℝ) := by
  rw [floor_half]
  have hk := k.isLt
  have : (((Np.ifftshiftIdx k : Fin n) : ℕ) : ℤ) - ((n / 2 : ℕ) : ℤ) = Np.fftfreqInt n k := by
    rw [ifftshiftIdx_val, Np.fftfreqInt_eq n k hk]
    by_cases h : (k : ℕ) + n / 2 < n
    · rw [Nat.mod_eq_of_lt h, if_pos (by omega)]; push_cast; ring
    · rw [Nat.mod_eq_sub_mod (by omega), Nat.mod_eq_of_lt (by omega), if_neg (by omega)]
      omega
  rw [← this]; push_cast; ring

variable {nr nc : ℕ} [NeZero nr] [NeZero nc]

/-- the value `dftups` computes at output `(a, b)` -/
noncomputable def dftupsVal (x : Fin nr × Fin nc → ℂ) (us roff coff : ℝ) (a b : ℝ) : ℂ :=
  ∑ k, x k * ex (-(Np.fftfreq nr k.1 * ((a - roff) / us))) * ex (-(Np.fftfreq nc k.2 * ((b - coff) / us)))

theorem kern_div (n us a f : ℝ) :
    Complex.exp ((-I * 2 * Real.pi / ((n : ℂ) * (us : ℂ))) * (a : ℂ) * (f : ℂ))
      = ex (-(f / n * (a / us))) := by
  unfold ex; congr 1; push_cast; ring

theorem dftups_eq (x : Fin nr × Fin nc → ℂ) (nor noc : Option ℕ) (us roff coff : ℝ)
    (hus : us ≠ 0) : dftups (cArr x) nor noc us roff coff
      = .ok ⟨nor.getD nr, noc.getD nc, cArr fun i => dftupsVal x us roff coff (i.1 : ℕ) (i.2 : ℕ)⟩ := by
  unfold dftups
  simp only [hus, if_false, ifftshift_freq, kern_eq]
  have hk := fun (a f : ℝ) => kern_div (nr : ℝ) us a f
  simp only [Complex.ofReal_natCast] at hk
  simp only [hk]
  rw [show (fun i : Fin (nor.getD nr) × Fin nr => some (ex (-((Np.fftfreqInt nr i.2 : ℝ) / nr * ((((i.1 : ℕ) : ℝ) - roff) / us)))))
    = cArr (fun i : Fin (nor.getD nr) × Fin nr => ex (-((Np.fftfreqInt nr i.2 : ℝ) / nr * ((((i.1 : ℕ) : ℝ) - roff) / us)))) from rfl,
    show (fun i : Fin nc × Fin (noc.getD nc) => some (ex (-((Np.fftfreqInt nc i.1 : ℝ) / nc * ((((i.2 : ℕ) : ℝ) - coff) / us)))))
    = cArr (fun i : Fin nc × Fin (noc.getD nc) => ex (-((Np.fftfreqInt nc i.1 : ℝ) / nc * ((((i.2 : ℕ) : ℝ) - coff) / us)))) from rfl,
    Np.dot_cArr, Np.dot_cArr]
  congr 2
  funext i
  simp only [cArr]
  congr 1
  unfold dftupsVal
  rw [Fintype.sum_prod_type, Finset.sum_comm]
  refine Finset.sum_congr rfl fun k2 _ => ?_
  rw [Finset.sum_mul]
  refine Finset.sum_congr rfl fun k1 _ => ?_
  rw [Np.fftfreq_eq, Np.fftfreq_eq]
  ring

theorem odddftups_eq (x : Fin nr × Fin nc → ℂ) (nor noc : Option ℕ) (us roff coff : ℝ)
    (hus : us ≠ 0) : odddftups (cArr x) nor noc us roff coff
      = .ok ⟨nor.getD nr, noc.getD nc, cArr fun i => dftupsVal x us roff coff (i.1 : ℕ) (i.2 : ℕ)⟩ := by
  unfold odddftups
  simp only [hus, if_false, ifftshift_freq]
  have hk := fun (a f : ℝ) => kern_div (nr : ℝ) us a f
  have hk2 := fun (a f : ℝ) => kern_div (nc : ℝ) us a f
  simp only [Complex.ofReal_natCast] at hk hk2
  simp only [hk, hk2]
  rw [show (fun i : Fin (nor.getD nr) × Fin nr => some (ex (-((Np.fftfreqInt nr i.2 : ℝ) / nr * ((((i.1 : ℕ) : ℝ) - roff) / us)))))
    = cArr (fun i : Fin (nor.getD nr) × Fin nr => ex (-((Np.fftfreqInt nr i.2 : ℝ) / nr * ((((i.1 : ℕ) : ℝ) - roff) / us)))) from rfl,
    show (fun i : Fin nc × Fin (noc.getD nc) => some (ex (-((((i.2 : ℕ) : ℝ) - coff) / nc * ((Np.fftfreqInt nc i.1 : ℝ) / us)))))
    = cArr (fun i : Fin nc × Fin (noc.getD nc) => ex (-((((i.2 : ℕ) : ℝ) - coff) / nc * ((Np.fftfreqInt nc i.1 : ℝ) / us)))) from rfl,
    Np.dot_cArr, Np.dot_cArr]
  congr 2
  funext i
  simp only [cArr]
  congr 1
  unfold dftupsVal
  rw [Fintype.sum_prod_type, Finset.sum_comm]
  refine Finset.sum_congr rfl fun k2 _ => ?_
  rw [Finset.sum_mul]
  refine Finset.sum_congr rfl fun k1 _ => ?_
  rw [Np.fftfreq_eq, Np.fftfreq_eq]
  rw [show (((i.2 : ℕ) : ℝ) - coff) / (nc:ℝ) * ((Np.fftfreqInt nc k2 : ℝ) / us)
    = (Np.fftfreqInt nc k2 : ℝ) / nc * ((((i.2 : ℕ) : ℝ) - coff) / us) by ring]
  ring

theorem dftupsVal_idft (x : Fin nr × Fin nc → ℂ) (us roff coff a b : ℝ) :
    dftupsVal (idft x) us roff coff a b = interp2C x ((a - roff) / us) ((b - coff) / us) := rfl

end ImgReg
