import Mathlib.Analysis.Matrix.LDL
import Mathlib.LinearAlgebra.Matrix.Block
import Mathlib.LinearAlgebra.Matrix.SchurComplement
import Mathlib.Analysis.SpecialFunctions.Log.Basic
import Mathlib.Analysis.SpecialFunctions.Sqrt
import Mathlib.Data.Sign.Basic
import Mathlib.Algebra.Order.Star.Real

/-!
# Cholesky factors

`Eigen::LLT<Eigen::MatrixXd>(M)` is specified, not modelled as an algorithm: its lower factor
is the lower triangular matrix with positive diagonal whose product with its transpose is `M`.
Such a factor exists and is unique for every positive definite matrix (proved here). For other
matrices Eigen leaves an unspecified result; the theorems never depend on it.
-/

namespace Bayesmix.Hierarchies

open Matrix

/-- `L` is the lower Cholesky factor of `M`. -/
def IsLLT {d : ℕ} (L M : Matrix (Fin d) (Fin d) ℝ) : Prop :=
  (∀ i j, i < j → L i j = 0) ∧ (∀ i, 0 < L i i) ∧ L * Lᵀ = M

open Classical in
/-- `Eigen::LLT<Eigen::MatrixXd>(M).matrixL()`. -/
noncomputable def lltL {d : ℕ} (M : Matrix (Fin d) (Fin d) ℝ) : Matrix (Fin d) (Fin d) ℝ :=
  if h : ∃ L, IsLLT L M then h.choose else 0

/-- `Eigen::LLT<Eigen::MatrixXd>(M).matrixU()`: the transpose of the lower factor. -/
noncomputable def lltU {d : ℕ} (M : Matrix (Fin d) (Fin d) ℝ) : Matrix (Fin d) (Fin d) ℝ :=
  (lltL M)ᵀ

private theorem sum_split {d : ℕ} (f : Fin d → ℝ) (j : Fin d) (h : ∀ k, j < k → f k = 0) :
    ∑ k, f k = (∑ k ∈ Finset.univ.filter (· < j), f k) + f j := by
  have h1 : (∑ k, f k) = ∑ k ∈ insert j (Finset.univ.filter (· < j)), f k := by
    symm
    apply Finset.sum_subset (Finset.subset_univ _)
    intro k _ hk
    apply h
    simp only [Finset.mem_insert, Finset.mem_filter, Finset.mem_univ, true_and, not_or,
      not_lt] at hk
    exact lt_of_le_of_ne hk.2 (Ne.symm hk.1)
  rw [h1, Finset.sum_insert (by simp), add_comm]

/-- The Cholesky factor is unique. -/
theorem IsLLT.unique {d : ℕ} {L₁ L₂ M : Matrix (Fin d) (Fin d) ℝ} (h1 : IsLLT L₁ M)
    (h2 : IsLLT L₂ M) : L₁ = L₂ := by
  obtain ⟨hl1, hp1, hm1⟩ := h1
  obtain ⟨hl2, hp2, hm2⟩ := h2
  have key : ∀ (n : ℕ) (j : Fin d), j.val = n → ∀ i, L₁ i j = L₂ i j := by
    intro n
    induction n using Nat.strong_induction_on with
    | _ n ih =>
      intro j hj i
      have ihk : ∀ k, k < j → ∀ i, L₁ i k = L₂ i k := fun k hk i =>
        ih k.val (by rw [← hj]; exact hk) k rfl i
      have e : ∀ i, ∑ k, L₁ i k * L₁ j k = ∑ k, L₂ i k * L₂ j k := by
        intro i
        have := congrFun (congrFun (hm1.trans hm2.symm) i) j
        simpa [Matrix.mul_apply, Matrix.transpose_apply] using this
      have e' : ∀ i, L₁ i j * L₁ j j = L₂ i j * L₂ j j := by
        intro i
        have hi := e i
        rw [sum_split (fun k => L₁ i k * L₁ j k) j (fun k hk => by simp [hl1 j k hk]),
          sum_split (fun k => L₂ i k * L₂ j k) j (fun k hk => by simp [hl2 j k hk])] at hi
        have hs : (∑ k ∈ Finset.univ.filter (· < j), L₁ i k * L₁ j k) =
            ∑ k ∈ Finset.univ.filter (· < j), L₂ i k * L₂ j k := by
          apply Finset.sum_congr rfl
          intro k hk
          have hkj : k < j := by simpa using hk
          rw [ihk k hkj i, ihk k hkj j]
        linarith
      have hd : L₁ j j = L₂ j j := by
        have h := e' j
        have ha := hp1 j
        have hb := hp2 j
        nlinarith [mul_self_nonneg (L₁ j j - L₂ j j)]
      have h := e' i
      rw [hd] at h
      exact mul_right_cancel₀ (hp2 j).ne' h
  ext i j
  exact key j.val j rfl i

/-- Every positive definite matrix has a Cholesky factor. -/
theorem exists_isLLT {d : ℕ} {M : Matrix (Fin d) (Fin d) ℝ} (hM : M.PosDef) :
    ∃ L, IsLLT L M := by
  have hlow := LDL.lower_conj_diag hM
  have hdiag := LDL.diag_eq_lowerInv_conj hM
  have hinv : LDL.lower hM = (LDL.lowerInv hM)⁻¹ := rfl
  have hu : IsUnit (LDL.lowerInv hM).det := by
    have : Invertible (LDL.lowerInv hM) := LDL.invertibleLowerInv hM
    exact Matrix.isUnit_det_of_invertible _
  have htri : (LDL.lowerInv hM).BlockTriangular OrderDual.toDual := by
    intro i j hij
    exact LDL.lowerInv_triangular hM hij
  have htri' : (LDL.lower hM).BlockTriangular OrderDual.toDual := by
    rw [hinv]
    have : Invertible (LDL.lowerInv hM) := LDL.invertibleLowerInv hM
    exact Matrix.blockTriangular_inv_of_blockTriangular htri
  have hdet : (LDL.lower hM).det ≠ 0 := by
    rw [hinv, Matrix.det_nonsing_inv]
    exact (IsUnit.ringInverse hu).ne_zero
  have hne : ∀ i, LDL.lower hM i i ≠ 0 := by
    rw [Matrix.det_of_isLowerTriangular _ htri'] at hdet
    intro i
    exact Finset.prod_ne_zero_iff.1 hdet i (Finset.mem_univ i)
  have hpd : ∀ i, 0 < LDL.diagEntries hM i := by
    have hdp : (LDL.diag hM).PosDef := by
      rw [hdiag]
      apply hM.mul_mul_conjTranspose_same
      have := Matrix.isUnit_iff_isUnit_det (LDL.lowerInv hM) |>.2 hu
      rw [Matrix.vecMul_injective_iff_isUnit]
      exact this
    exact (Matrix.posDef_diagonal_iff).1 hdp
  refine ⟨LDL.lower hM * diagonal (fun i => SignType.sign (LDL.lower hM i i) *
    Real.sqrt (LDL.diagEntries hM i)), ?_, ?_, ?_⟩
  · intro i j hij
    rw [Matrix.mul_diagonal, htri' hij, zero_mul]
  · intro i
    rw [Matrix.mul_diagonal, ← mul_assoc]
    have h1 : LDL.lower hM i i * (SignType.sign (LDL.lower hM i i) : ℝ) = |LDL.lower hM i i| := by
      rw [self_mul_sign]
    rw [h1]
    exact mul_pos (abs_pos.2 (hne i)) (Real.sqrt_pos.2 (hpd i))
  · rw [Matrix.transpose_mul, Matrix.diagonal_transpose, Matrix.mul_assoc,
      ← Matrix.mul_assoc (diagonal _) (diagonal _), Matrix.diagonal_mul_diagonal]
    have : (fun i => (SignType.sign (LDL.lower hM i i) : ℝ) * √(LDL.diagEntries hM i) *
        ((SignType.sign (LDL.lower hM i i) : ℝ) * √(LDL.diagEntries hM i))) =
        LDL.diagEntries hM := by
      funext i
      have hs : (SignType.sign (LDL.lower hM i i) : ℝ) * SignType.sign (LDL.lower hM i i) = 1 := by
        rcases lt_or_gt_of_ne (hne i) with h | h
        · simp [sign_neg h]
        · simp [sign_pos h]
      have hq := Real.mul_self_sqrt (hpd i).le
      calc _ = ((SignType.sign (LDL.lower hM i i) : ℝ) * SignType.sign (LDL.lower hM i i)) *
            (√(LDL.diagEntries hM i) * √(LDL.diagEntries hM i)) := by ring
        _ = _ := by rw [hs, hq, one_mul]
    rw [this]
    rw [← Matrix.mul_assoc]
    have hl2 := hlow
    unfold LDL.diag at hl2
    rwa [Matrix.conjTranspose_eq_transpose_of_trivial] at hl2

theorem lltL_spec {d : ℕ} {M : Matrix (Fin d) (Fin d) ℝ} (hM : M.PosDef) : IsLLT (lltL M) M := by
  unfold lltL
  rw [dif_pos (exists_isLLT hM)]
  exact (exists_isLLT hM).choose_spec

theorem lltL_eq {d : ℕ} {L M : Matrix (Fin d) (Fin d) ℝ} (h : IsLLT L M) : lltL M = L := by
  have hex : ∃ L, IsLLT L M := ⟨L, h⟩
  unfold lltL
  rw [dif_pos hex]
  exact IsLLT.unique hex.choose_spec h

theorem IsLLT.det {d : ℕ} {L M : Matrix (Fin d) (Fin d) ℝ} (h : IsLLT L M) :
    M.det = (∏ i, L i i) ^ 2 := by
  have ht : L.BlockTriangular OrderDual.toDual := fun i j hij => h.1 i j hij
  rw [← h.2.2, Matrix.det_mul, Matrix.det_transpose, Matrix.det_of_isLowerTriangular _ ht, sq]

/-- Twice the sum of the logarithms of the diagonal of the factor is the log determinant. -/
theorem IsLLT.logdet {d : ℕ} {L M : Matrix (Fin d) (Fin d) ℝ} (h : IsLLT L M) :
    2 * ∑ i, Real.log (L i i) = Real.log M.det := by
  rw [h.det, Real.log_pow, Real.log_prod (fun i _ => (h.2.1 i).ne')]
  push_cast
  ring

/-- Squared norm of `Lᵀ v`. -/
theorem IsLLT.quad {d : ℕ} {L M : Matrix (Fin d) (Fin d) ℝ} (h : IsLLT L M) (v : Fin d → ℝ) :
    (Lᵀ *ᵥ v) ⬝ᵥ (Lᵀ *ᵥ v) = v ⬝ᵥ (M *ᵥ v) := by
  rw [← h.2.2, ← Matrix.mulVec_mulVec, Matrix.dotProduct_mulVec v, ← Matrix.mulVec_transpose]

end Bayesmix.Hierarchies
