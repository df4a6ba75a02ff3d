import Mathlib.Analysis.Matrix.PosDef
import Mathlib.LinearAlgebra.Matrix.SchurComplement
import Mathlib.Tactic.Abel
import Verif.Hier.ConjLemmas

/-!
# Matrix facts for the multivariate conjugate updates
-/

namespace Bayesmix.Hierarchies

open Real Matrix

variable {d : ℕ}

theorem posSemidef_vecMulVec (x : Fin d → ℝ) : (vecMulVec x x).PosSemidef := by
  have := Matrix.posSemidef_vecMulVec_self_star x
  simpa using this

theorem PosDef.symm_real {M : Matrix (Fin d) (Fin d) ℝ} (h : M.PosDef) : Mᵀ = M := by
  have := h.isHermitian
  rwa [Matrix.IsHermitian, Matrix.conjTranspose_eq_transpose_of_trivial] at this

theorem PosDef.isUnit_det' {M : Matrix (Fin d) (Fin d) ℝ} (h : M.PosDef) : IsUnit M.det :=
  isUnit_iff_ne_zero.2 h.det_pos.ne'

theorem PosDef.dot_comm {M : Matrix (Fin d) (Fin d) ℝ} (h : M.PosDef) (u v : Fin d → ℝ) :
    u ⬝ᵥ (M *ᵥ v) = v ⬝ᵥ (M *ᵥ u) := by
  rw [dotProduct_comm, dotProduct_mulVec v, ← mulVec_transpose, PosDef.symm_real h]

theorem PosDef.quad_nonneg {M : Matrix (Fin d) (Fin d) ℝ} (h : M.PosDef) (v : Fin d → ℝ) :
    0 ≤ v ⬝ᵥ (M *ᵥ v) := by
  have := h.posSemidef.dotProduct_mulVec_nonneg v
  simpa using this

theorem vecMulVec_mulVec' (x y v : Fin d → ℝ) : vecMulVec x y *ᵥ v = (y ⬝ᵥ v) • x := by
  ext i
  simp only [mulVec, dotProduct, vecMulVec_apply, Pi.smul_apply, smul_eq_mul, Finset.sum_mul]
  exact Finset.sum_congr rfl (fun j _ => by ring)

/-- The matrix determinant lemma for a rank one update. -/
theorem det_add_vecMulVec {M : Matrix (Fin d) (Fin d) ℝ} (h : IsUnit M.det) (x y : Fin d → ℝ) :
    (M + vecMulVec x y).det = M.det * (1 + y ⬝ᵥ (M⁻¹ *ᵥ x)) := by
  have e : vecMulVec x y = replicateCol Unit x * replicateRow Unit y := by
    rw [vecMulVec_eq Unit]
  rw [e, Matrix.det_add_mul _ _ h]
  congr 1
  rw [Matrix.det_unique]
  simp only [Matrix.add_apply, Matrix.one_apply_eq]
  congr 1
  rw [Matrix.mul_assoc, Matrix.mul_apply']
  congr 1

theorem inv_mulVec_eq {M : Matrix (Fin d) (Fin d) ℝ} (h : IsUnit M.det) {u v : Fin d → ℝ}
    (e : M *ᵥ u = v) : M⁻¹ *ᵥ v = u := by
  rw [← e, mulVec_mulVec, nonsing_inv_mul _ h, one_mulVec]

theorem mulVec_inv_mulVec {M : Matrix (Fin d) (Fin d) ℝ} (h : IsUnit M.det) (v : Fin d → ℝ) :
    M *ᵥ (M⁻¹ *ᵥ v) = v := by
  rw [mulVec_mulVec, mul_nonsing_inv _ h, one_mulVec]

/-! ### Linear regression -/

theorem mnigInit_pos {p : MNIGPrior d} {h : MNIG d} (hp : mnigInit p = .ok h) :
    h.varScaling.PosDef ∧ 0 < h.shape ∧ 0 < h.scale := by
  cases p with
  | fixed m v a b =>
    by_cases hv : v.PosDef
    · simp only [mnigInit, inverseSpd, checkSpd, if_pos hv] at hp
      change (if a ≤ 0 then _ else _) = _ at hp
      (repeat' split at hp) <;> cases hp
      rename_i h1 h2
      exact ⟨hv, not_le.1 h1, not_le.1 h2⟩
    · simp only [mnigInit, inverseSpd, checkSpd, if_neg hv] at hp
      cases hp
  | unset => cases hp

theorem mnigInit_fixed {m : Fin d → ℝ} {v : Matrix (Fin d) (Fin d) ℝ} {a b : ℝ} (hv : v.PosDef)
    (ha : 0 < a) (hb : 0 < b) : mnigInit (.fixed m v a b) = .ok ⟨m, v, a, b⟩ := by
  simp only [mnigInit, inverseSpd, checkSpd, if_pos hv]
  change (if a ≤ 0 then _ else _) = _
  rw [if_neg (not_le.2 ha), if_neg (not_le.2 hb)]

theorem stanMultiNormalPrecLpdf_smul (b m : Fin d → ℝ) {L : Matrix (Fin d) (Fin d) ℝ}
    (hL : L.PosDef) {c : ℝ} (hc : 0 < c) :
    stanMultiNormalPrecLpdf b m (c • L) =
      -(d / 2) * log (2 * π) + (1 / 2) * (log L.det + d * log c)
        - (1 / 2) * (c * ((b - m) ⬝ᵥ (L *ᵥ (b - m)))) := by
  unfold stanMultiNormalPrecLpdf
  rw [det_smul, Fintype.card_fin, log_mul (pow_pos hc d).ne' hL.det_pos.ne', log_pow,
    smul_mulVec, dotProduct_smul, smul_eq_mul]
  ring

theorem posDef_add_vecMulVec {L : Matrix (Fin d) (Fin d) ℝ} (hL : L.PosDef) (x : Fin d → ℝ) :
    (vecMulVec x x + L).PosDef := by
  rw [add_comm]
  exact hL.add_posSemidef (posSemidef_vecMulVec x)

/-- The posterior mean after one datum in explicit form. -/
theorem mnig_mean_one {L : Matrix (Fin d) (Fin d) ℝ} (hL : L.PosDef) (m x : Fin d → ℝ) (y : ℝ) :
    (vecMulVec x x + L)⁻¹ *ᵥ (y • x + L *ᵥ m) =
      m + ((y - x ⬝ᵥ m) / (1 + x ⬝ᵥ (L⁻¹ *ᵥ x))) • (L⁻¹ *ᵥ x) := by
  have hq : 0 < 1 + x ⬝ᵥ (L⁻¹ *ᵥ x) := by
    have := PosDef.quad_nonneg hL.inv x
    linarith
  apply inv_mulVec_eq (PosDef.isUnit_det' (posDef_add_vecMulVec hL x))
  rw [mulVec_add, mulVec_smul, add_mulVec, add_mulVec, vecMulVec_mulVec', vecMulVec_mulVec',
    mulVec_inv_mulVec (PosDef.isUnit_det' hL)]
  ext i
  simp only [Pi.add_apply, Pi.smul_apply, smul_eq_mul]
  generalize x ⬝ᵥ (L⁻¹ *ᵥ x) = q at *
  field_simp
  ring

theorem mnig_scale_one {L : Matrix (Fin d) (Fin d) ℝ} (hL : L.PosDef) (m x : Fin d → ℝ) (y : ℝ)
    (m' : Fin d → ℝ) (hm' : m' = (vecMulVec x x + L)⁻¹ *ᵥ (y • x + L *ᵥ m)) :
    y ^ 2 + m ⬝ᵥ (L *ᵥ m) - m' ⬝ᵥ ((vecMulVec x x + L) *ᵥ m') =
      (y - x ⬝ᵥ m) ^ 2 / (1 + x ⬝ᵥ (L⁻¹ *ᵥ x)) := by
  have hq : 0 < 1 + x ⬝ᵥ (L⁻¹ *ᵥ x) := by
    have := PosDef.quad_nonneg hL.inv x
    linarith
  have e1 : (vecMulVec x x + L) *ᵥ m' = y • x + L *ᵥ m := by
    rw [hm', mulVec_inv_mulVec (PosDef.isUnit_det' (posDef_add_vecMulVec hL x))]
  rw [e1]
  rw [mnig_mean_one hL] at hm'
  rw [hm', add_dotProduct, smul_dotProduct, dotProduct_add, dotProduct_add, dotProduct_smul,
    dotProduct_smul, dotProduct_comm m x, dotProduct_comm (L⁻¹ *ᵥ x) x,
    PosDef.dot_comm hL (L⁻¹ *ᵥ x) m, mulVec_inv_mulVec (PosDef.isUnit_det' hL),
    dotProduct_comm m x]
  simp only [smul_eq_mul]
  generalize x ⬝ᵥ (L⁻¹ *ᵥ x) = q at *
  generalize x ⬝ᵥ m = s at *
  field_simp
  ring

theorem mnigPosterior_of_ne (h : MNIG d) (n : ℤ) (s : LinRegStats d) (hn : n ≠ 0) :
    mnigPosterior h n s =
      ⟨(s.covarSumSquares + h.varScaling)⁻¹ *ᵥ (s.mixedProd + h.varScaling *ᵥ h.mean),
        s.covarSumSquares + h.varScaling, h.shape + n / 2,
        h.scale + (s.dataSumSquares + h.mean ⬝ᵥ (h.varScaling *ᵥ h.mean)
          - ((s.covarSumSquares + h.varScaling)⁻¹ *ᵥ (s.mixedProd + h.varScaling *ᵥ h.mean)) ⬝ᵥ
            ((s.covarSumSquares + h.varScaling) *ᵥ ((s.covarSumSquares + h.varScaling)⁻¹ *ᵥ
              (s.mixedProd + h.varScaling *ᵥ h.mean)))) / 2⟩ := by
  unfold mnigPosterior
  rw [if_neg hn]
  ext
  · rfl
  · rfl
  · simp only []; norm_num; ring
  · simp only []; norm_num; ring

/-- Bayes' rule for one datum. -/
theorem mnig_bayes (h : MNIG d) (hL : h.varScaling.PosDef) (ha : 0 < h.shape) (hb : 0 < h.scale)
    (y : ℝ) (x : Fin d → ℝ) (st : UniLinRegLS d) (hv : 0 < st.var) :
    linRegLpdf st y x + mnigLpdf h st =
      linRegMargLpdf h y x +
        mnigLpdf (mnigPosterior h 1 ⟨y ^ 2, vecMulVec x x, y • x⟩) st := by
  rw [mnigPosterior_of_ne _ _ _ one_ne_zero]
  obtain ⟨m, L, a, b⟩ := h
  obtain ⟨be, v⟩ := st
  simp only at hL ha hb hv
  have hq0 := PosDef.quad_nonneg hL.inv x
  have hL' := posDef_add_vecMulVec hL x
  obtain ⟨m', hm'⟩ : ∃ m', m' = (vecMulVec x x + L)⁻¹ *ᵥ (y • x + L *ᵥ m) := ⟨_, rfl⟩
  have hsc := mnig_scale_one hL m x y m' hm'
  have e1 : (vecMulVec x x + L) *ᵥ m' = y • x + L *ᵥ m := by
    rw [hm', mulVec_inv_mulVec (PosDef.isUnit_det' hL')]
  have hdet : (vecMulVec x x + L).det = L.det * (1 + x ⬝ᵥ (L⁻¹ *ᵥ x)) := by
    rw [add_comm]; exact det_add_vecMulVec (PosDef.isUnit_det' hL) x x
  simp only [linRegLpdf, mnigLpdf, linRegMargLpdf, ← hm', Int.cast_one]
  rw [hsc]
  -- quadratic forms
  have hquad : (be - m') ⬝ᵥ ((vecMulVec x x + L) *ᵥ (be - m')) =
      (y - be ⬝ᵥ x) ^ 2 + (be - m) ⬝ᵥ (L *ᵥ (be - m))
        - (y - x ⬝ᵥ m) ^ 2 / (1 + x ⬝ᵥ (L⁻¹ *ᵥ x)) := by
    rw [← hsc]
    have c1 := PosDef.dot_comm hL' m' be
    rw [e1, dotProduct_add, dotProduct_smul, smul_eq_mul] at c1
    have c2 : be ⬝ᵥ ((vecMulVec x x + L) *ᵥ be) = (be ⬝ᵥ x) ^ 2 + be ⬝ᵥ (L *ᵥ be) := by
      rw [add_mulVec, vecMulVec_mulVec', dotProduct_add, dotProduct_smul, smul_eq_mul,
        dotProduct_comm x be, sq]
    have c3 := PosDef.dot_comm hL m be
    simp only [mulVec_sub, sub_dotProduct, dotProduct_sub]
    rw [c1, c2, c3, e1, dotProduct_add, dotProduct_add, dotProduct_smul, dotProduct_smul,
      smul_eq_mul, smul_eq_mul]
    ring
  rw [stanMultiNormalPrecLpdf_smul _ _ hL (by positivity : 0 < 1 / v),
    stanMultiNormalPrecLpdf_smul _ _ hL' (by positivity : 0 < 1 / v), hquad, hdet]
  generalize hqd : x ⬝ᵥ (L⁻¹ *ᵥ x) = q at *
  generalize x ⬝ᵥ m = s at *
  generalize (be - m) ⬝ᵥ (L *ᵥ (be - m)) = Q at *
  have hq1 : 0 < 1 + q := by positivity
  rw [normalLpdf_sqrt _ _ _ hv, studentTLpdf_sqrt _ _ _ _ ha (by positivity)]
  unfold invGammaLpdf
  have hb' : b + (y - s) ^ 2 / (1 + q) / 2 =
      b * (1 + (y - s) ^ 2 / (2 * a * ((1 + q) * b / a))) := by
    field_simp
  have hpos : 0 < 1 + (y - s) ^ 2 / (2 * a * ((1 + q) * b / a)) := by positivity
  have hdp := hL.det_pos
  rw [hb', log_mul (x := b) hb.ne' hpos.ne', log_mul (x := L.det) hdp.ne' hq1.ne',
    log_div (x := (1 + q) * b) (by positivity) (by positivity),
    log_mul (x := 1 + q) hq1.ne' hb.ne', log_div one_ne_zero hv.ne', log_one]
  have e : (y - be ⬝ᵥ x) ^ 2 / (2 * v) + 1 / 2 * (1 / v * Q) + b / v =
      1 / 2 * (1 / v * ((y - be ⬝ᵥ x) ^ 2 + Q - (y - s) ^ 2 / (1 + q))) +
      b * (1 + (y - s) ^ 2 / (2 * a * ((1 + q) * b / a))) / v := by
    field_simp
    ring
  generalize log (1 + (y - s) ^ 2 / (2 * a * ((1 + q) * b / a))) = r at *
  linear_combination -e

/-- Updating in two steps. -/
theorem mnigPosterior_add (h : MNIG d) (n m : ℕ) (s t : LinRegStats d)
    (hs : (s.covarSumSquares + h.varScaling).PosDef) (h0 : n = 0 → s = linRegZero d)
    (h1 : m = 0 → t = linRegZero d) :
    mnigPosterior (mnigPosterior h n s) m t =
      mnigPosterior h (n + m) ⟨s.dataSumSquares + t.dataSumSquares,
        s.covarSumSquares + t.covarSumSquares, s.mixedProd + t.mixedProd⟩ := by
  rcases Nat.eq_zero_or_pos n with rfl | hn
  · rw [h0 rfl]
    simp [mnigPosterior, linRegZero]
  rcases Nat.eq_zero_or_pos m with rfl | hm
  · rw [h1 rfl]
    simp [mnigPosterior, linRegZero]
  rw [mnigPosterior_of_ne h n s (by omega), mnigPosterior_of_ne _ m t (by omega),
    mnigPosterior_of_ne h (n + m) _ (by omega)]
  simp only [mulVec_inv_mulVec (PosDef.isUnit_det' hs)]
  have e1 : t.covarSumSquares + (s.covarSumSquares + h.varScaling) =
      s.covarSumSquares + t.covarSumSquares + h.varScaling := by abel
  have e2 : t.mixedProd + (s.mixedProd + h.varScaling *ᵥ h.mean) =
      s.mixedProd + t.mixedProd + h.varScaling *ᵥ h.mean := by abel
  rw [e1, e2]
  ext
  · rfl
  · rfl
  · simp only; push_cast; ring
  · simp only; ring

/-- One step keeps the hyperparameters valid. -/
theorem mnigPosterior_one_pos (h : MNIG d) (hL : h.varScaling.PosDef) (ha : 0 < h.shape)
    (hb : 0 < h.scale) (y : ℝ) (x : Fin d → ℝ) :
    (mnigPosterior h 1 ⟨y ^ 2, vecMulVec x x, y • x⟩).varScaling.PosDef ∧
    0 < (mnigPosterior h 1 ⟨y ^ 2, vecMulVec x x, y • x⟩).shape ∧
    0 < (mnigPosterior h 1 ⟨y ^ 2, vecMulVec x x, y • x⟩).scale := by
  rw [mnigPosterior_of_ne _ _ _ one_ne_zero]
  refine ⟨posDef_add_vecMulVec hL x, ?_, ?_⟩
  · simp only [Int.cast_one]; positivity
  · simp only []
    rw [mnig_scale_one hL h.mean x y _ rfl]
    have := PosDef.quad_nonneg hL.inv x
    positivity

/-- The statistics of a list of data. -/
def linRegSums (ys : List (ℝ × (Fin d → ℝ))) : LinRegStats d :=
  ⟨(ys.map (fun yx => yx.1 ^ 2)).sum, (ys.map (fun yx => vecMulVec yx.2 yx.2)).sum,
    (ys.map (fun yx => yx.1 • yx.2)).sum⟩

theorem linRegSums_posDef (ys : List (ℝ × (Fin d → ℝ))) {L : Matrix (Fin d) (Fin d) ℝ}
    (hL : L.PosDef) : ((linRegSums ys).covarSumSquares + L).PosDef := by
  induction ys with
  | nil => simpa [linRegSums] using hL
  | cons y ys ih =>
    simp only [linRegSums, List.map_cons, List.sum_cons, add_assoc] at ih ⊢
    exact posDef_add_vecMulVec ih y.2

theorem mnig_batch_eq_foldl (h : MNIG d) (hL : h.varScaling.PosDef)
    (ys : List (ℝ × (Fin d → ℝ))) :
    mnigPosterior h ys.length (linRegSums ys) =
      ys.foldl (fun h yx =>
        mnigPosterior h 1 ⟨yx.1 ^ 2, vecMulVec yx.2 yx.2, yx.1 • yx.2⟩) h := by
  induction ys using List.reverseRecOn with
  | nil => simp [mnigPosterior]
  | append_singleton ys y ih =>
    rw [List.foldl_append, List.foldl_cons, List.foldl_nil, ← ih]
    have := mnigPosterior_add h ys.length 1 (linRegSums ys)
      ⟨y.1 ^ 2, vecMulVec y.2 y.2, y.1 • y.2⟩ (linRegSums_posDef ys hL)
      (by intro h0; have := List.eq_nil_of_length_eq_zero h0; subst this; rfl) (by simp)
    simp only [Nat.cast_one] at this
    rw [this]
    simp [linRegSums]

theorem foldl_mnig_pos (ys : List (ℝ × (Fin d → ℝ))) : ∀ (h q : MNIG d), h.varScaling.PosDef →
    0 < h.shape → 0 < h.scale →
    q = ys.foldl (fun h yx =>
      mnigPosterior h 1 ⟨yx.1 ^ 2, vecMulVec yx.2 yx.2, yx.1 • yx.2⟩) h →
    q.varScaling.PosDef ∧ 0 < q.shape ∧ 0 < q.scale := by
  induction ys with
  | nil => intro h q a b c e; rw [e]; exact ⟨a, b, c⟩
  | cons y ys ih =>
    intro h q a b c e
    obtain ⟨a', b', c'⟩ := mnigPosterior_one_pos h a b c y.1 y.2
    exact ih _ q a' b' c' e

end Bayesmix.Hierarchies
