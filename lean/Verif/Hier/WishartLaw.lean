import Verif.Hier.Border
import Verif.Hier.NWLemmas

/-!
# Normalization of the Wishart density
-/

namespace Bayesmix.Hierarchies
open Real MeasureTheory ENNReal Matrix

variable {d : ℕ}

theorem continuous_symOf : Continuous (symOf (d := d)) :=
  continuous_matrix fun _ _ => continuous_apply _

theorem measurableSet_posDef : MeasurableSet {w : UT d → ℝ | (symOf w).PosDef} := by
  have e : {w : UT d → ℝ | (symOf w).PosDef} =
      {w | ∀ x : Fin d → ℝ, 0 ≤ x ⬝ᵥ (symOf w *ᵥ x)} ∩ {w | (symOf w).det ≠ 0} := by
    ext w
    constructor
    · intro h
      have h : (symOf w).PosDef := h
      exact ⟨fun x => by simpa using h.posSemidef.dotProduct_mulVec_nonneg x, h.det_pos.ne'⟩
    · rintro ⟨h1, h2⟩
      have h1 : ∀ x : Fin d → ℝ, 0 ≤ x ⬝ᵥ (symOf w *ᵥ x) := h1
      have hp : (symOf w).PosSemidef := by
        refine PosSemidef.of_dotProduct_mulVec_nonneg ?_ fun x => by simpa using h1 x
        rw [IsHermitian, conjTranspose_eq_transpose_of_trivial, symOf_symm]
      exact hp.posDef_iff_det_ne_zero.2 h2
  rw [e]
  refine MeasurableSet.inter ?_ ?_
  · rw [Set.setOf_forall]
    refine (isClosed_iInter fun x => ?_).measurableSet
    exact isClosed_le continuous_const
      (continuous_const.dotProduct (continuous_symOf.matrix_mulVec continuous_const))
  · exact (isOpen_ne_fun continuous_symOf.matrix_det continuous_const).measurableSet

/-- The Wishart density without its constant. -/
noncomputable def wishartKernel (nu : ℝ) (T W : Matrix (Fin d) (Fin d) ℝ) : ℝ≥0∞ :=
  {W : Matrix (Fin d) (Fin d) ℝ | W.PosDef}.indicator
    (fun W => ENNReal.ofReal (exp (((nu - d - 1) / 2) * log W.det - (1 / 2) * (T * W).trace))) W

theorem wishartKernel_pos {nu : ℝ} {T W : Matrix (Fin d) (Fin d) ℝ} (h : W.PosDef) :
    wishartKernel nu T W =
      ENNReal.ofReal (exp (((nu - d - 1) / 2) * log W.det - (1 / 2) * (T * W).trace)) :=
  Set.indicator_of_mem (show W ∈ {W : Matrix (Fin d) (Fin d) ℝ | W.PosDef} from h) _

theorem wishartKernel_neg {nu : ℝ} {T W : Matrix (Fin d) (Fin d) ℝ} (h : ¬ W.PosDef) :
    wishartKernel nu T W = 0 :=
  Set.indicator_of_notMem (show W ∉ {W : Matrix (Fin d) (Fin d) ℝ | W.PosDef} from h) _

theorem measurable_wishartKernel (nu : ℝ) (T : Matrix (Fin d) (Fin d) ℝ) :
    Measurable fun w : UT d → ℝ => wishartKernel nu T (symOf w) := by
  have h : Measurable fun w : UT d → ℝ => ENNReal.ofReal
      (exp (((nu - d - 1) / 2) * log (symOf w).det - (1 / 2) * (T * symOf w).trace)) := by
    have h1 : Measurable fun w : UT d → ℝ => (symOf w).det :=
      continuous_symOf.matrix_det.measurable
    have h2 : Measurable fun w : UT d → ℝ => (T * symOf w).trace :=
      ((continuous_const.matrix_mul continuous_symOf).matrix_trace).measurable
    fun_prop
  exact h.indicator measurableSet_posDef

theorem lintegral_corner {A : Matrix (Fin d) (Fin d) ℝ} (hA : A.PosDef) {nu τ : ℝ} (hτ : 0 < τ)
    (hnu : d < nu) (t b : Fin d → ℝ) (T : Matrix (Fin d) (Fin d) ℝ) :
    ∫⁻ c : ℝ, wishartKernel nu (border τ t T) (border c b A) =
      ENNReal.ofReal (exp (log (Gamma ((nu - d) / 2)) - ((nu - d) / 2) * log (τ / 2) +
        ((nu - d - 2) / 2) * log A.det -
        (1 / 2) * (τ * (b ⬝ᵥ (A⁻¹ *ᵥ b)) + 2 * (t ⬝ᵥ b) + (T * A).trace))) := by
  obtain ⟨q, hq⟩ : ∃ q, q = b ⬝ᵥ (A⁻¹ *ᵥ b) := ⟨_, rfl⟩
  obtain ⟨E, hE⟩ : ∃ E, E = log (Gamma ((nu - d) / 2)) - ((nu - d) / 2) * log (τ / 2) +
        ((nu - d - 2) / 2) * log A.det -
        (1 / 2) * (τ * q + 2 * (t ⬝ᵥ b) + (T * A).trace) := ⟨_, rfl⟩
  rw [← hq, ← hE]
  have hs := PosDef.symm_real hA
  have e : ∀ c : ℝ, wishartKernel nu (border τ t T) (border c b A) =
      (fun s => (Set.Ioi (0 : ℝ)).indicator (fun s => ENNReal.ofReal (exp E) *
        ENNReal.ofReal (exp (gammaLpdf s ((nu - d) / 2) (τ / 2)))) s) (c - q) := by
    intro c
    by_cases hc : q < c
    · have hW : (border c b A).PosDef := (posDef_border hs c b).2 ⟨hA, hq ▸ hc⟩
      have hsc : 0 < c - q := by linarith
      rw [wishartKernel_pos hW]
      simp only [Set.indicator_of_mem (show c - q ∈ Set.Ioi (0 : ℝ) from hsc)]
      rw [← ENNReal.ofReal_mul (exp_pos _).le, ← exp_add, det_border hA, trace_border, ← hq,
        log_mul hA.det_pos.ne' hsc.ne', hE, gammaLpdf]
      congr 2
      push_cast
      ring
    · have hW : ¬ (border c b A).PosDef := fun h => hc (hq ▸ ((posDef_border hs c b).1 h).2)
      rw [wishartKernel_neg hW]
      simp only [Set.indicator_of_notMem (show c - q ∉ Set.Ioi (0 : ℝ) by
        simp only [Set.mem_Ioi]; linarith)]
  have hg : Measurable fun s => ENNReal.ofReal (exp (gammaLpdf s ((nu - d) / 2) (τ / 2))) := by
    unfold gammaLpdf; fun_prop
  rw [lintegral_congr e, lintegral_sub_right_eq_self (fun s => (Set.Ioi (0 : ℝ)).indicator
    (fun s => ENNReal.ofReal (exp E) *
        ENNReal.ofReal (exp (gammaLpdf s ((nu - d) / 2) (τ / 2)))) s) q,
    lintegral_indicator measurableSet_Ioi, lintegral_const_mul _ hg,
    lintegral_gammaLpdf _ _ (by linarith) (by linarith), mul_one]

theorem wishart_row {A : Matrix (Fin d) (Fin d) ℝ} (hA : A.PosDef) {nu τ : ℝ} (hτ : 0 < τ)
    (t b : Fin d → ℝ) (T : Matrix (Fin d) (Fin d) ℝ) :
    log (Gamma ((nu - d) / 2)) - ((nu - d) / 2) * log (τ / 2) +
        ((nu - d - 2) / 2) * log A.det -
        (1 / 2) * (τ * (b ⬝ᵥ (A⁻¹ *ᵥ b)) + 2 * (t ⬝ᵥ b) + (T * A).trace) =
      (nu / 2 * log 2 + (d / 2) * log π + log (Gamma ((nu - d) / 2)) - nu / 2 * log τ) +
      (((nu - d - 1) / 2) * log A.det - (1 / 2) * ((T - τ⁻¹ • vecMulVec t t) * A).trace) +
      stanMultiNormalPrecLpdf b (-(τ⁻¹ • (A *ᵥ t))) (τ • A⁻¹) := by
  have hu : A⁻¹ *ᵥ (A *ᵥ t) = t := by
    rw [mulVec_mulVec, nonsing_inv_mul _ (isUnit_iff_ne_zero.2 hA.det_pos.ne'), one_mulVec]
  have hsi : (A⁻¹)ᵀ = A⁻¹ := PosDef.symm_real hA.inv
  have h1 : (A *ᵥ t) ⬝ᵥ (A⁻¹ *ᵥ b) = t ⬝ᵥ b := by
    rw [dotProduct_mulVec, ← mulVec_transpose, hsi, hu]
  rw [stanMultiNormalPrecLpdf, sub_neg_eq_add, smul_mulVec, dotProduct_smul, mulVec_add,
    mulVec_smul, hu]
  simp only [add_dotProduct, dotProduct_add, smul_dotProduct, dotProduct_smul, smul_eq_mul]
  rw [h1, dotProduct_comm b t, Matrix.sub_mul, trace_sub, smul_mul, trace_smul, ← quad_eq_trace,
    smul_eq_mul, dotProduct_comm (A *ᵥ t) t, det_smul, Fintype.card_fin, det_nonsing_inv,
    Ring.inverse_eq_inv', log_mul (by positivity) (inv_ne_zero hA.det_pos.ne'), log_pow, log_inv,
    log_div hτ.ne' two_ne_zero, log_mul two_ne_zero pi_pos.ne']
  field_simp
  ring

theorem lintegral_wishartKernel : ∀ (d : ℕ) (nu : ℝ) (T : Matrix (Fin d) (Fin d) ℝ), T.PosDef →
    (d : ℝ) - 1 < nu → ∫⁻ w : UT d → ℝ, wishartKernel nu T (symOf w) =
      ENNReal.ofReal (exp ((nu * d / 2) * log 2 + lmgamma d (nu / 2) - (nu / 2) * log T.det)) := by
  intro d
  induction d with
  | zero =>
    intro nu T hT hnu
    have hpd : ∀ w : UT 0 → ℝ, (symOf w).PosDef := fun w =>
      PosDef.of_dotProduct_mulVec_pos (by ext i; exact i.elim0) fun x hx =>
        absurd (Subsingleton.elim x 0) hx
    have e : ∀ w : UT 0 → ℝ, wishartKernel nu T (symOf w) = 1 := by
      intro w
      rw [wishartKernel_pos (hpd w)]
      simp
    rw [lintegral_congr e, lintegral_const, volume_pi, Measure.pi_empty_univ]
    simp [lmgamma]
  | succ d ih =>
    intro nu T hT hnu
    have hnu : (d : ℝ) < nu := by push_cast at hnu; linarith
    have hTs := PosDef.symm_real hT
    obtain ⟨τ, t, T', hs', hTe⟩ : ∃ τ t T', T'ᵀ = T' ∧ T = border τ t T' :=
      ⟨_, _, _, by rw [transpose_submatrix, hTs], eq_border hTs⟩
    rw [hTe] at hT
    obtain ⟨hτ, hS, hdet⟩ := schur_first hs' hT
    rw [lintegral_symOf_succ (measurable_wishartKernel nu T), hTe, hdet]
    obtain ⟨C, hC⟩ : ∃ C, C = nu / 2 * log 2 + (d / 2) * log π + log (Gamma ((nu - d) / 2)) -
      nu / 2 * log τ := ⟨_, rfl⟩
    have e : ∀ a : UT d → ℝ, ∫⁻ b : Fin d → ℝ, ∫⁻ c : ℝ,
        wishartKernel nu (border τ t T') (border c b (symOf a)) =
        ENNReal.ofReal (exp C) * wishartKernel nu (T' - τ⁻¹ • vecMulVec t t) (symOf a) := by
      intro a
      by_cases hA : (symOf a).PosDef
      · have e2 : ∀ b : Fin d → ℝ, ∫⁻ c : ℝ,
            wishartKernel nu (border τ t T') (border c b (symOf a)) =
            (ENNReal.ofReal (exp C) * wishartKernel nu (T' - τ⁻¹ • vecMulVec t t) (symOf a)) *
            ENNReal.ofReal (exp (stanMultiNormalPrecLpdf b (-(τ⁻¹ • (symOf a *ᵥ t)))
              (τ • (symOf a)⁻¹))) := by
          intro b
          rw [lintegral_corner hA hτ hnu, wishart_row hA hτ, wishartKernel_pos hA,
            ← ENNReal.ofReal_mul (exp_pos _).le, ← ENNReal.ofReal_mul
              (mul_pos (exp_pos _) (exp_pos _)).le, ← exp_add, ← exp_add, hC]
        have hm : Measurable fun b => ENNReal.ofReal (exp (stanMultiNormalPrecLpdf b
            (-(τ⁻¹ • (symOf a *ᵥ t))) (τ • (symOf a)⁻¹))) :=
          ENNReal.measurable_ofReal.comp (Real.measurable_exp.comp
            (measurable_stanMultiNormalPrecLpdf _ _))
        rw [lintegral_congr e2, lintegral_const_mul _ hm,
          lintegral_multiNormal _ (hA.inv.smul hτ), mul_one]
      · rw [wishartKernel_neg hA, mul_zero]
        have e2 : ∀ (b : Fin d → ℝ) (c : ℝ),
            wishartKernel nu (border τ t T') (border c b (symOf a)) = 0 := fun b c =>
          wishartKernel_neg fun h => hA ((posDef_border (symOf_symm a) c b).1 h).1
        simp only [e2, lintegral_zero]
    rw [lintegral_congr e, lintegral_const_mul _ (measurable_wishartKernel nu _),
      ih nu _ hS (by linarith), ← ENNReal.ofReal_mul (exp_pos _).le, ← exp_add,
      log_mul hτ.ne' hS.det_pos.ne', hC]
    congr 2
    unfold lmgamma
    rw [Fin.sum_univ_castSucc]
    simp only [Fin.val_castSucc, Fin.val_last]
    have e1 : nu / 2 - (d : ℝ) / 2 = (nu - d) / 2 := by ring
    rw [e1]
    push_cast
    ring

/-- The Wishart density integrates to one over the positive definite matrices. -/
theorem lintegral_wishart {nu : ℝ} {S : Matrix (Fin d) (Fin d) ℝ} (hS : S.PosDef)
    (hnu : (d : ℝ) - 1 < nu) :
    ∫⁻ w in {w : UT d → ℝ | (symOf w).PosDef}, ENNReal.ofReal (exp (wishartLpdf (symOf w) nu S)) =
      1 := by
  have h := lintegral_wishartKernel d nu S⁻¹ hS.inv hnu
  obtain ⟨C, hC⟩ : ∃ C, C = (nu * d / 2) * log 2 + lmgamma d (nu / 2) - (nu / 2) * log (S⁻¹).det :=
    ⟨_, rfl⟩
  rw [← hC] at h
  have e : ∀ w ∈ {w : UT d → ℝ | (symOf w).PosDef},
      ENNReal.ofReal (exp (wishartLpdf (symOf w) nu S)) =
      ENNReal.ofReal (exp (-C)) * wishartKernel nu S⁻¹ (symOf w) := by
    intro w hw
    rw [wishartKernel_pos hw, ← ENNReal.ofReal_mul (exp_pos _).le, ← exp_add, hC, det_nonsing_inv,
      Ring.inverse_eq_inv', log_inv, wishartLpdf]
    congr 2
    ring
  rw [setLIntegral_congr_fun measurableSet_posDef e,
    lintegral_const_mul _ (measurable_wishartKernel nu _)]
  have h2 : ∫⁻ w in {w : UT d → ℝ | (symOf w).PosDef}, wishartKernel nu S⁻¹ (symOf w) =
      ∫⁻ w : UT d → ℝ, wishartKernel nu S⁻¹ (symOf w) := by
    rw [← lintegral_indicator measurableSet_posDef]
    refine lintegral_congr fun w => ?_
    by_cases hw : (symOf w).PosDef
    · exact Set.indicator_of_mem (show w ∈ {w : UT d → ℝ | (symOf w).PosDef} from hw) _
    · rw [Set.indicator_of_notMem (show w ∉ {w : UT d → ℝ | (symOf w).PosDef} from hw),
        wishartKernel_neg hw]
  rw [h2, h, ← ENNReal.ofReal_mul (exp_pos _).le, ← exp_add, neg_add_cancel, exp_zero,
    ENNReal.ofReal_one]

end Bayesmix.Hierarchies
