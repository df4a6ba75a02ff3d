import Mathlib.Tactic.FieldSimp
import Verif.Hier.MatLemmas
import Verif.Hier.FA

/-!
# Lemmas on low-rank covariance matrices and Gaussian regression
-/

namespace Bayesmix.Hierarchies

open Matrix Real

variable {m p q n : ℕ}

/-- Precision of the coefficients of a regression on `A` with precisions `d`. -/
theorem regPrec_posDef (A : Matrix (Fin m) (Fin q) ℝ) (d : Fin m → ℝ) (hd : ∀ j, 0 ≤ d j) :
    (1 + Aᵀ * diagonal d * A).PosDef := by
  have h1 : (Aᵀ * diagonal d * A).PosSemidef := by
    have h2 : (diagonal d).PosSemidef := Matrix.PosSemidef.diagonal hd
    have := h2.conjTranspose_mul_mul_same A
    rwa [Matrix.conjTranspose_eq_transpose_of_trivial] at this
  exact Matrix.PosDef.one.add_posSemidef h1

theorem quad_reg (A : Matrix (Fin m) (Fin q) ℝ) (d : Fin m → ℝ) (r : Fin m → ℝ) (b : Fin q → ℝ) :
    (∑ j, d j * (r j - (A *ᵥ b) j) ^ 2) + b ⬝ᵥ b =
      r ⬝ᵥ (diagonal d *ᵥ r) - 2 * (b ⬝ᵥ ((Aᵀ * diagonal d) *ᵥ r)) +
        b ⬝ᵥ ((1 + Aᵀ * diagonal d * A) *ᵥ b) := by
  have e1 : ∀ u v : Fin m → ℝ, u ⬝ᵥ (diagonal d *ᵥ v) = ∑ j, d j * (u j * v j) := by
    intro u v
    simp only [dotProduct, mulVec_diagonal]
    exact Finset.sum_congr rfl (fun j _ => by ring)
  have e2 : b ⬝ᵥ ((Aᵀ * diagonal d) *ᵥ r) = ∑ j, d j * ((A *ᵥ b) j * r j) := by
    rw [← mulVec_mulVec, dotProduct_mulVec, vecMul_transpose, e1]
  have e3 : b ⬝ᵥ ((Aᵀ * diagonal d * A) *ᵥ b) = ∑ j, d j * ((A *ᵥ b) j * (A *ᵥ b) j) := by
    rw [← mulVec_mulVec, ← mulVec_mulVec, dotProduct_mulVec, vecMul_transpose, e1]
  rw [add_mulVec, one_mulVec, dotProduct_add, e1, e2, e3, Finset.mul_sum]
  have : (∑ j, d j * (r j - (A *ᵥ b) j) ^ 2) = (∑ j, d j * (r j * r j)) -
      (∑ j, 2 * (d j * ((A *ᵥ b) j * r j))) + ∑ j, d j * ((A *ᵥ b) j * (A *ᵥ b) j) := by
    rw [← Finset.sum_sub_distrib, ← Finset.sum_add_distrib]
    exact Finset.sum_congr rfl (fun j _ => by ring)
  rw [this]
  ring

theorem complete_square {Q : Matrix (Fin q) (Fin q) ℝ} (hQ : Q.PosDef) (b h : Fin q → ℝ) :
    (b - Q⁻¹ *ᵥ h) ⬝ᵥ (Q *ᵥ (b - Q⁻¹ *ᵥ h)) =
      b ⬝ᵥ (Q *ᵥ b) - 2 * (b ⬝ᵥ h) + h ⬝ᵥ (Q⁻¹ *ᵥ h) := by
  have e := mulVec_inv_mulVec (PosDef.isUnit_det' hQ) h
  rw [mulVec_sub, e, sub_dotProduct, dotProduct_sub, dotProduct_sub,
    PosDef.dot_comm hQ (Q⁻¹ *ᵥ h) b, e, dotProduct_comm (Q⁻¹ *ᵥ h) h]
  ring

/-- Sum of standard normal log densities. -/
theorem sum_stdNormal (b : Fin q → ℝ) :
    (∑ k, normalLpdf (b k) 0 1) = -(q / 2) * log (2 * π) - (1 / 2) * (b ⬝ᵥ b) := by
  unfold normalLpdf
  simp only [log_one, sub_zero, div_one, Finset.sum_sub_distrib, Finset.sum_const,
    Finset.card_univ, Fintype.card_fin, nsmul_eq_mul, dotProduct, ← Finset.mul_sum]
  have : (∑ k, b k ^ 2) = ∑ k, b k * b k := Finset.sum_congr rfl (fun k _ => by ring)
  rw [this]
  ring

/-- Joint density of a Gaussian regression with standard normal coefficients, as the product of
the marginal density of the responses and the conditional density of the coefficients. -/
theorem regression_split (A : Matrix (Fin m) (Fin q) ℝ) (w : Fin m → ℝ) (hw : ∀ j, 0 < w j)
    (y : Fin m → ℝ) (c : Fin m → ℝ) (b : Fin q → ℝ) :
    (∑ j, normalLpdf (y j) (c j + (A *ᵥ b) j) (sqrt (w j))) + ∑ k, normalLpdf (b k) 0 1 =
      (-(m / 2) * log (2 * π) - (1 / 2) * (∑ j, log (w j))
        - (1 / 2) * log (1 + Aᵀ * diagonal (fun j => (w j)⁻¹) * A).det
        - (1 / 2) * ((y - c) ⬝ᵥ (diagonal (fun j => (w j)⁻¹) *ᵥ (y - c)) -
          ((Aᵀ * diagonal (fun j => (w j)⁻¹)) *ᵥ (y - c)) ⬝ᵥ
            ((1 + Aᵀ * diagonal (fun j => (w j)⁻¹) * A)⁻¹ *ᵥ
              ((Aᵀ * diagonal (fun j => (w j)⁻¹)) *ᵥ (y - c))))) +
      stanMultiNormalPrecLpdf b ((1 + Aᵀ * diagonal (fun j => (w j)⁻¹) * A)⁻¹ *ᵥ
        ((Aᵀ * diagonal (fun j => (w j)⁻¹)) *ᵥ (y - c)))
        (1 + Aᵀ * diagonal (fun j => (w j)⁻¹) * A) := by
  have hQ := regPrec_posDef A (fun j => (w j)⁻¹) (fun j => (inv_pos.2 (hw j)).le)
  have hq := quad_reg A (fun j => (w j)⁻¹) (y - c) b
  have hc := complete_square hQ b ((Aᵀ * diagonal (fun j => (w j)⁻¹)) *ᵥ (y - c))
  have e1 : (∑ j, normalLpdf (y j) (c j + (A *ᵥ b) j) (sqrt (w j))) =
      -(m / 2) * log (2 * π) - (1 / 2) * (∑ j, log (w j)) -
        (1 / 2) * ∑ j, (w j)⁻¹ * ((y - c) j - (A *ᵥ b) j) ^ 2 := by
    have : ∀ j, normalLpdf (y j) (c j + (A *ᵥ b) j) (sqrt (w j)) =
        -(1 / 2) * log (2 * π) - (1 / 2) * log (w j) -
          (1 / 2) * ((w j)⁻¹ * ((y - c) j - (A *ᵥ b) j) ^ 2) := by
      intro j
      rw [normalLpdf_sqrt _ _ _ (hw j), log_mul (x := 2) (y := π) (by norm_num) pi_ne_zero]
      have := (hw j).ne'
      simp only [Pi.sub_apply]
      field_simp
      ring
    simp only [this, Finset.sum_sub_distrib, ← Finset.mul_sum, Finset.sum_const,
      Finset.card_univ, Fintype.card_fin, nsmul_eq_mul]
    ring
  rw [e1, sum_stdNormal]
  unfold stanMultiNormalPrecLpdf
  rw [hc]
  linarith

/-! ### The Woodbury factors -/

theorem wood_posDef (psiInv : Fin p → ℝ) (h : ∀ j, 0 < psiInv j) (A : Matrix (Fin p) (Fin q) ℝ) :
    (Aᵀ * diagonal psiInv * A + 1).PosDef := by
  rw [add_comm]
  exact regPrec_posDef A psiInv (fun j => (h j).le)

theorem lltInv_gram {M : Matrix (Fin q) (Fin q) ℝ} (hM : M.PosDef) :
    (lltL M)⁻¹ᵀ * (lltL M)⁻¹ = M⁻¹ := by
  have h := lltL_spec hM
  rw [Matrix.transpose_nonsing_inv, ← Matrix.mul_inv_rev, h.2.2]

theorem lltInv_logdet {M : Matrix (Fin q) (Fin q) ℝ} (hM : M.PosDef) :
    -2 * ∑ i, Real.log ((lltL M)⁻¹ i i) = Real.log M.det := by
  have h := lltL_spec hM
  have ht : (lltL M).BlockTriangular OrderDual.toDual := fun i j hij => h.1 i j hij
  have hd : (lltL M).det = ∏ i, lltL M i i := Matrix.det_of_isLowerTriangular _ ht
  have hpos : 0 < (lltL M).det := by
    rw [hd]; exact Finset.prod_pos (fun i _ => h.2.1 i)
  have hu : IsUnit (lltL M).det := isUnit_iff_ne_zero.2 hpos.ne'
  have ht' : (lltL M)⁻¹.BlockTriangular OrderDual.toDual := by
    have : Invertible (lltL M) := Matrix.invertibleOfIsUnitDet _ hu
    exact Matrix.blockTriangular_inv_of_blockTriangular ht
  have hd' : (lltL M)⁻¹.det = ∏ i, (lltL M)⁻¹ i i := Matrix.det_of_isLowerTriangular _ ht'
  have hi : (lltL M)⁻¹.det = (lltL M).det⁻¹ := by
    rw [Matrix.det_nonsing_inv, Ring.inverse_eq_inv']
  have hne : ∀ i ∈ Finset.univ, (lltL M)⁻¹ i i ≠ 0 := by
    apply Finset.prod_ne_zero_iff.1
    rw [← hd', hi]
    exact inv_ne_zero hpos.ne'
  rw [← Real.log_prod hne, ← hd', hi, Real.log_inv, h.det, ← hd, Real.log_pow]
  push_cast
  ring

theorem wood_quad (psiInv : Fin p → ℝ) (h : ∀ j, 0 < psiInv j) (A : Matrix (Fin p) (Fin q) ℝ)
    (v : Fin p → ℝ) :
    ((woodCholAndLogdet psiInv A).1 *ᵥ v) ⬝ᵥ ((woodCholAndLogdet psiInv A).1 *ᵥ v) =
      ((Aᵀ * diagonal psiInv) *ᵥ v) ⬝ᵥ
        ((1 + Aᵀ * diagonal psiInv * A)⁻¹ *ᵥ ((Aᵀ * diagonal psiInv) *ᵥ v)) := by
  have hg := lltInv_gram (wood_posDef psiInv h A)
  simp only [woodCholAndLogdet]
  rw [add_comm (1 : Matrix (Fin q) (Fin q) ℝ), ← hg, Matrix.mul_assoc]
  generalize Aᵀ * diagonal psiInv = B
  generalize (lltL (B * A + 1))⁻¹ = T
  rw [← mulVec_mulVec, ← mulVec_mulVec, dotProduct_mulVec (B *ᵥ v), vecMul_transpose]

theorem cov_posDef (psi : Fin p → ℝ) (h : ∀ j, 0 < psi j) (A : Matrix (Fin p) (Fin q) ℝ) :
    (diagonal psi + A * Aᵀ).PosDef := by
  have h1 : (diagonal psi).PosDef := Matrix.PosDef.diagonal h
  have h2 : (A * Aᵀ).PosSemidef := by
    have := Matrix.posSemidef_self_mul_conjTranspose A
    rwa [Matrix.conjTranspose_eq_transpose_of_trivial] at this
  exact h1.add_posSemidef h2

theorem diag_inv (psi : Fin p → ℝ) (h : ∀ j, 0 < psi j) :
    (diagonal psi)⁻¹ = diagonal (fun j => (psi j)⁻¹) := by
  apply Matrix.inv_eq_right_inv
  rw [Matrix.diagonal_mul_diagonal, ← Matrix.diagonal_one]
  congr 1
  funext j
  exact mul_inv_cancel₀ (h j).ne'

theorem diag_isUnit (psi : Fin p → ℝ) (h : ∀ j, 0 < psi j) : IsUnit (diagonal psi).det := by
  rw [Matrix.det_diagonal]
  exact isUnit_iff_ne_zero.2 (Finset.prod_pos (fun j _ => h j)).ne'

theorem cov_inv (psi : Fin p → ℝ) (h : ∀ j, 0 < psi j) (A : Matrix (Fin p) (Fin q) ℝ) :
    (diagonal psi + A * Aᵀ)⁻¹ = diagonal (fun j => (psi j)⁻¹) -
      diagonal (fun j => (psi j)⁻¹) * A *
        (1 + Aᵀ * diagonal (fun j => (psi j)⁻¹) * A)⁻¹ * Aᵀ * diagonal (fun j => (psi j)⁻¹) := by
  have hQ := regPrec_posDef A (fun j => (psi j)⁻¹) (fun j => (inv_pos.2 (h j)).le)
  have := Matrix.add_mul_mul_inv_eq_sub (A := diagonal psi) (U := A)
    (C := (1 : Matrix (Fin q) (Fin q) ℝ)) (V := Aᵀ)
    ((Matrix.isUnit_iff_isUnit_det _).2 (diag_isUnit psi h)) isUnit_one
    (by rw [inv_one, diag_inv psi h]
        exact (Matrix.isUnit_iff_isUnit_det _).2 (PosDef.isUnit_det' hQ))
  rw [inv_one, Matrix.mul_one, diag_inv psi h] at this
  exact this

theorem cov_quad (psi : Fin p → ℝ) (h : ∀ j, 0 < psi j) (A : Matrix (Fin p) (Fin q) ℝ)
    (v : Fin p → ℝ) :
    v ⬝ᵥ ((diagonal psi + A * Aᵀ)⁻¹ *ᵥ v) =
      v ⬝ᵥ (diagonal (fun j => (psi j)⁻¹) *ᵥ v) -
        ((Aᵀ * diagonal (fun j => (psi j)⁻¹)) *ᵥ v) ⬝ᵥ
          ((1 + Aᵀ * diagonal (fun j => (psi j)⁻¹) * A)⁻¹ *ᵥ
            ((Aᵀ * diagonal (fun j => (psi j)⁻¹)) *ᵥ v)) := by
  rw [cov_inv psi h, sub_mulVec, dotProduct_sub]
  congr 1
  have ht : diagonal (fun j => (psi j)⁻¹) * A = (Aᵀ * diagonal (fun j => (psi j)⁻¹))ᵀ := by
    rw [Matrix.transpose_mul, Matrix.diagonal_transpose, Matrix.transpose_transpose]
  rw [ht, Matrix.mul_assoc _ Aᵀ]
  generalize Aᵀ * diagonal (fun j => (psi j)⁻¹) = B
  rw [← mulVec_mulVec, ← mulVec_mulVec, dotProduct_mulVec v, vecMul_transpose]

theorem cov_logdet (psi : Fin p → ℝ) (h : ∀ j, 0 < psi j) (A : Matrix (Fin p) (Fin q) ℝ) :
    Real.log (diagonal psi + A * Aᵀ).det = (∑ j, Real.log (psi j)) +
      Real.log (1 + Aᵀ * diagonal (fun j => (psi j)⁻¹) * A).det := by
  have hQ := regPrec_posDef A (fun j => (psi j)⁻¹) (fun j => (inv_pos.2 (h j)).le)
  rw [Matrix.det_add_mul _ _ (diag_isUnit psi h), diag_inv psi h, Matrix.det_diagonal,
    Real.log_mul (Finset.prod_pos (fun j _ => h j)).ne' hQ.det_pos.ne',
    Real.log_prod (fun j _ => (h j).ne')]

theorem wood_logdet (psi : Fin p → ℝ) (h : ∀ j, 0 < psi j) (A : Matrix (Fin p) (Fin q) ℝ) :
    (woodCholAndLogdet (fun j => (psi j)⁻¹) A).2 = Real.log (diagonal psi + A * Aᵀ).det := by
  have hM := wood_posDef (fun j => (psi j)⁻¹) (fun j => inv_pos.2 (h j)) A
  have hl := lltInv_logdet hM
  simp only [woodCholAndLogdet]
  rw [hl, cov_logdet psi h, add_comm (1 : Matrix (Fin q) (Fin q) ℝ)]
  simp only [Real.log_inv, Finset.sum_neg_distrib]
  ring

end Bayesmix.Hierarchies
