import Verif.Hier.SymCoord

/-!
# Bordered matrices: definiteness, determinant, trace
-/

namespace Bayesmix.Hierarchies
open Real MeasureTheory ENNReal Matrix

variable {d : ℕ}

theorem border_symm {c : ℝ} {b : Fin d → ℝ} {A : Matrix (Fin d) (Fin d) ℝ} (hA : Aᵀ = A) :
    (border c b A)ᵀ = border c b A := by
  ext i j
  refine Fin.cases ?_ (fun i => ?_) i <;> refine Fin.cases ?_ (fun j => ?_) j <;> simp
  exact congrFun (congrFun hA i) j

theorem eq_border {T : Matrix (Fin (d + 1)) (Fin (d + 1)) ℝ} (hT : Tᵀ = T) :
    T = border (T 0 0) (fun j => T 0 j.succ) (T.submatrix Fin.succ Fin.succ) := by
  ext i j
  refine Fin.cases ?_ (fun i => ?_) i <;> refine Fin.cases ?_ (fun j => ?_) j <;> simp
  exact congrFun (congrFun hT 0) i.succ

theorem border_quad (c : ℝ) (b : Fin d → ℝ) (A : Matrix (Fin d) (Fin d) ℝ)
    (x : Fin (d + 1) → ℝ) :
    x ⬝ᵥ (border c b A *ᵥ x) = c * x 0 ^ 2 + 2 * x 0 * (b ⬝ᵥ Fin.tail x) +
      Fin.tail x ⬝ᵥ (A *ᵥ Fin.tail x) := by
  have h1 : ∀ i : Fin d, (border c b A *ᵥ x) i.succ = b i * x 0 + (A *ᵥ Fin.tail x) i := by
    intro i
    simp only [mulVec, dotProduct, Fin.sum_univ_succ, border_succ_zero, border_succ_succ, Fin.tail]
  have h0 : (border c b A *ᵥ x) 0 = c * x 0 + b ⬝ᵥ Fin.tail x := by
    simp only [mulVec, dotProduct, Fin.sum_univ_succ, border_zero_zero, border_zero_succ, Fin.tail]
  have h2 : x ⬝ᵥ (border c b A *ᵥ x) = x 0 * (border c b A *ᵥ x) 0 +
      ∑ i : Fin d, x i.succ * (border c b A *ᵥ x) i.succ := by
    simp only [dotProduct, Fin.sum_univ_succ]
  rw [h2, h0]
  simp only [h1]
  have h3 : ∑ i : Fin d, x i.succ * (b i * x 0 + (A *ᵥ Fin.tail x) i) =
      x 0 * (b ⬝ᵥ Fin.tail x) + Fin.tail x ⬝ᵥ (A *ᵥ Fin.tail x) := by
    simp only [dotProduct, Fin.tail, Finset.mul_sum, ← Finset.sum_add_distrib]
    refine Finset.sum_congr rfl fun i _ => ?_
    ring
  rw [h3]
  ring

/-- Completing the square. -/
theorem border_quad_schur {A : Matrix (Fin d) (Fin d) ℝ} (hA : A.PosDef) (c : ℝ) (b : Fin d → ℝ)
    (x : Fin (d + 1) → ℝ) :
    x ⬝ᵥ (border c b A *ᵥ x) = (c - b ⬝ᵥ (A⁻¹ *ᵥ b)) * x 0 ^ 2 +
      (Fin.tail x + x 0 • (A⁻¹ *ᵥ b)) ⬝ᵥ (A *ᵥ (Fin.tail x + x 0 • (A⁻¹ *ᵥ b))) := by
  rw [border_quad]
  have hu : A *ᵥ (A⁻¹ *ᵥ b) = b := by
    rw [mulVec_mulVec, mul_nonsing_inv _ (isUnit_iff_ne_zero.2 hA.det_pos.ne'), one_mulVec]
  have hs := PosDef.symm_real hA
  obtain ⟨u, hu'⟩ : ∃ u, u = A⁻¹ *ᵥ b := ⟨_, rfl⟩
  rw [← hu'] at hu ⊢
  have h1 : u ⬝ᵥ (A *ᵥ Fin.tail x) = b ⬝ᵥ Fin.tail x := by
    rw [dotProduct_mulVec, ← mulVec_transpose, hs, hu]
  rw [mulVec_add, mulVec_smul, hu]
  simp only [add_dotProduct, dotProduct_add, smul_dotProduct, dotProduct_smul, smul_eq_mul]
  rw [h1, dotProduct_comm (Fin.tail x) b, dotProduct_comm u b]
  ring

theorem posDef_border {A : Matrix (Fin d) (Fin d) ℝ} (hs : Aᵀ = A) (c : ℝ) (b : Fin d → ℝ) :
    (border c b A).PosDef ↔ A.PosDef ∧ b ⬝ᵥ (A⁻¹ *ᵥ b) < c := by
  constructor
  · intro h
    have hA : A.PosDef := by
      refine PosDef.of_dotProduct_mulVec_pos ?_ fun x hx => ?_
      · rw [IsHermitian, conjTranspose_eq_transpose_of_trivial, hs]
      · have := h.dotProduct_mulVec_pos (x := Fin.cons 0 x) (by
          intro h0
          apply hx
          funext i
          have := congrFun h0 i.succ
          simpa using this)
        simp only [star_trivial] at this ⊢
        rw [border_quad] at this
        simpa using this
    refine ⟨hA, ?_⟩
    have := h.dotProduct_mulVec_pos (x := Fin.cons 1 (-(A⁻¹ *ᵥ b))) (by
      intro h0
      have := congrFun h0 0
      simp at this)
    simp only [star_trivial] at this
    rw [border_quad_schur hA] at this
    simp only [Fin.cons_zero, Fin.tail_cons, one_smul, neg_add_cancel, zero_dotProduct] at this
    linarith
  · rintro ⟨hA, hc⟩
    refine PosDef.of_dotProduct_mulVec_pos ?_ fun x hx => ?_
    · rw [IsHermitian, conjTranspose_eq_transpose_of_trivial, border_symm hs]
    · simp only [star_trivial]
      rw [border_quad_schur hA]
      have hnn := hA.posSemidef.dotProduct_mulVec_nonneg (Fin.tail x + x 0 • (A⁻¹ *ᵥ b))
      simp only [star_trivial] at hnn
      by_cases h0 : x 0 = 0
      · have ht : Fin.tail x ≠ 0 := by
          intro ht
          apply hx
          funext i
          refine Fin.cases h0 (fun i => ?_) i
          exact congrFun ht i
        have := hA.dotProduct_mulVec_pos ht
        simp only [star_trivial] at this
        rw [h0]
        simpa using this
      · have h1 : 0 < (c - b ⬝ᵥ (A⁻¹ *ᵥ b)) * x 0 ^ 2 := by
          have : 0 < x 0 ^ 2 := by positivity
          exact mul_pos (by linarith) this
        linarith

/-- The sum type view of a bordered matrix. -/
def consEquiv (d : ℕ) : Unit ⊕ Fin d ≃ Fin (d + 1) where
  toFun
    | .inl _ => 0
    | .inr i => i.succ
  invFun := Fin.cases (.inl ()) .inr
  left_inv x := by rcases x with x | x <;> simp
  right_inv i := by refine Fin.cases ?_ (fun i => ?_) i <;> simp

theorem border_submatrix (c : ℝ) (b : Fin d → ℝ) (A : Matrix (Fin d) (Fin d) ℝ) :
    (border c b A).submatrix (consEquiv d) (consEquiv d) =
      fromBlocks (of fun _ _ => c) (replicateRow Unit b) (replicateCol Unit b) A := by
  ext i j
  rcases i with i | i <;> rcases j with j | j <;> simp [consEquiv]

theorem det_border {A : Matrix (Fin d) (Fin d) ℝ} (hA : A.PosDef) (c : ℝ) (b : Fin d → ℝ) :
    (border c b A).det = A.det * (c - b ⬝ᵥ (A⁻¹ *ᵥ b)) := by
  have hi : Invertible A := A.invertibleOfIsUnitDet (isUnit_iff_ne_zero.2 hA.det_pos.ne')
  rw [← det_submatrix_equiv_self (consEquiv d), border_submatrix, det_fromBlocks₂₂,
    invOf_eq_nonsing_inv]
  congr 1
  rw [det_unique]
  simp only [Matrix.sub_apply, of_apply, Matrix.mul_apply, replicateRow_apply, replicateCol_apply,
    dotProduct, mulVec]
  congr 1
  simp only [Finset.sum_mul, Finset.mul_sum]
  rw [Finset.sum_comm]
  refine Finset.sum_congr rfl fun i _ => Finset.sum_congr rfl fun j _ => ?_
  ring

/-- The complement of the first entry. -/
theorem schur_first {T : Matrix (Fin d) (Fin d) ℝ} (hs : Tᵀ = T) {τ : ℝ} {t : Fin d → ℝ}
    (h : (border τ t T).PosDef) : 0 < τ ∧ (T - τ⁻¹ • vecMulVec t t).PosDef ∧
      (border τ t T).det = τ * (T - τ⁻¹ • vecMulVec t t).det := by
  have hτ : 0 < τ := by
    have := h.dotProduct_mulVec_pos (x := Fin.cons 1 0) (by
      intro h0
      have := congrFun h0 0
      simp at this)
    simp only [star_trivial] at this
    rw [border_quad] at this
    simpa using this
  refine ⟨hτ, ?_, ?_⟩
  · refine PosDef.of_dotProduct_mulVec_pos ?_ fun x hx => ?_
    · rw [IsHermitian, conjTranspose_eq_transpose_of_trivial, transpose_sub, hs, transpose_smul,
        transpose_vecMulVec]
    · have := h.dotProduct_mulVec_pos (x := Fin.cons (-(τ⁻¹ * (t ⬝ᵥ x))) x) (by
        intro h0
        apply hx
        funext i
        have := congrFun h0 i.succ
        simpa using this)
      simp only [star_trivial] at this ⊢
      rw [border_quad] at this
      simp only [Fin.cons_zero, Fin.tail_cons] at this
      rw [sub_mulVec, dotProduct_sub, smul_mulVec, vecMulVec_mulVec, dotProduct_smul,
        dotProduct_smul]
      simp only [smul_eq_mul, MulOpposite.smul_eq_mul_unop, MulOpposite.unop_op]
      rw [dotProduct_comm x t]
      have e : τ * (-(τ⁻¹ * (t ⬝ᵥ x))) ^ 2 + 2 * (-(τ⁻¹ * (t ⬝ᵥ x))) * (t ⬝ᵥ x) =
          -(τ⁻¹ * ((t ⬝ᵥ x) * (t ⬝ᵥ x))) := by
        field_simp
        ring
      linarith
  · have hdet : (of fun (_ _ : Unit) => τ).det = τ := by simp [det_unique]
    have hi : Invertible (of fun (_ _ : Unit) => τ) :=
      Matrix.invertibleOfIsUnitDet _ (isUnit_iff_ne_zero.2 (by rw [hdet]; exact hτ.ne'))
    rw [← det_submatrix_equiv_self (consEquiv d), border_submatrix, det_fromBlocks₁₁,
      invOf_eq_nonsing_inv, hdet]
    congr 2
    congr 1
    have hinv : (of fun (_ _ : Unit) => τ)⁻¹ = of fun _ _ => τ⁻¹ := by
      refine inv_eq_left_inv ?_
      ext i j
      simp [Matrix.mul_apply, hτ.ne']
    rw [hinv]
    ext i j
    simp [Matrix.mul_apply, vecMulVec_apply]
    ring

theorem trace_border (τ c : ℝ) (t b : Fin d → ℝ) (T A : Matrix (Fin d) (Fin d) ℝ) :
    (border τ t T * border c b A).trace = τ * c + 2 * (t ⬝ᵥ b) + (T * A).trace := by
  simp only [trace, diag_apply, Matrix.mul_apply, Fin.sum_univ_succ, border_zero_zero,
    border_zero_succ, border_succ_zero, border_succ_succ, dotProduct, Finset.sum_add_distrib]
  ring

theorem quad_eq_trace (t : Fin d → ℝ) (A : Matrix (Fin d) (Fin d) ℝ) :
    t ⬝ᵥ (A *ᵥ t) = (vecMulVec t t * A).trace := by
  rw [vecMulVec_mul, trace_vecMulVec, dotProduct_mulVec, dotProduct_comm]

end Bayesmix.Hierarchies
