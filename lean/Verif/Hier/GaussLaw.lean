import Verif.Hier.NigLaw
import Verif.Hier.PropsLinReg
import Mathlib.MeasureTheory.Integral.Pi
import Mathlib.MeasureTheory.Measure.Lebesgue.Basic
import Mathlib.MeasureTheory.Group.LIntegral

/-!
# Normalization of the multivariate densities
-/

namespace Bayesmix.Hierarchies
open Real MeasureTheory ENNReal Matrix

variable {d : ℕ}

theorem lintegral_std_normal (d : ℕ) :
    ∫⁻ z : Fin d → ℝ, ENNReal.ofReal (∏ i, exp (normalLpdf (z i) 0 (sqrt 1))) = 1 := by
  obtain ⟨h1, h2⟩ := integral_normal 0 1 one_pos
  rw [← ofReal_integral_eq_lintegral_ofReal]
  · rw [integral_fintype_prod_volume_eq_prod (fun _ x => exp (normalLpdf x 0 (sqrt 1))), h2]
    simp
  · exact Integrable.fintype_prod (f := fun _ x => exp (normalLpdf x 0 (sqrt 1))) fun _ => h1
  · exact Filter.Eventually.of_forall fun z => Finset.prod_nonneg fun i _ => (exp_pos _).le

theorem measurable_stanMultiNormalPrecLpdf (mu : Fin d → ℝ) (P : Matrix (Fin d) (Fin d) ℝ) :
    Measurable fun y => stanMultiNormalPrecLpdf y mu P := by
  unfold stanMultiNormalPrecLpdf dotProduct mulVec dotProduct
  fun_prop

theorem exp_stanMultiNormalPrecLpdf {L P : Matrix (Fin d) (Fin d) ℝ} (h : IsLLT L P)
    (y mu : Fin d → ℝ) : exp (stanMultiNormalPrecLpdf y mu P) =
      |L.det| * ∏ i, exp (normalLpdf ((Lᵀ *ᵥ (y - mu)) i) 0 (sqrt 1)) := by
  have ht : L.BlockTriangular OrderDual.toDual := fun i j hij => h.1 i j hij
  have hdet : L.det = ∏ i, L i i := Matrix.det_of_isLowerTriangular _ ht
  have hpos : 0 < L.det := by rw [hdet]; exact Finset.prod_pos fun i _ => h.2.1 i
  have hlog : (1 / 2) * log P.det = log L.det := by
    rw [h.det, ← hdet, log_pow]
    push_cast
    ring
  rw [abs_of_pos hpos, ← exp_sum, ← exp_log hpos, ← exp_add]
  congr 1
  rw [stanMultiNormalPrecLpdf, hlog, ← h.quad]
  simp only [normalLpdf, sqrt_one, log_one, sub_zero, div_one, dotProduct, Finset.sum_sub_distrib,
    Finset.sum_const, Finset.card_univ, Fintype.card_fin, nsmul_eq_mul, ← Finset.mul_sum, ← sq]
  ring

/-- The multivariate normal density integrates to one. -/
theorem lintegral_multiNormal (mu : Fin d → ℝ) {P : Matrix (Fin d) (Fin d) ℝ} (hP : P.PosDef) :
    ∫⁻ y, ENNReal.ofReal (exp (stanMultiNormalPrecLpdf y mu P)) = 1 := by
  have h := lltL_spec hP
  obtain ⟨L, hL⟩ : ∃ L, L = lltL P := ⟨_, rfl⟩
  rw [← hL] at h
  have ht : L.BlockTriangular OrderDual.toDual := fun i j hij => h.1 i j hij
  have hpos : 0 < L.det := by
    rw [Matrix.det_of_isLowerTriangular _ ht]; exact Finset.prod_pos fun i _ => h.2.1 i
  have hdet : Lᵀ.det ≠ 0 := by rw [det_transpose]; exact hpos.ne'
  obtain ⟨g, hg⟩ : ∃ g : (Fin d → ℝ) → ℝ≥0∞, g = fun z =>
      ENNReal.ofReal (∏ i, exp (normalLpdf (z i) 0 (sqrt 1))) := ⟨_, rfl⟩
  have hgm : Measurable g := by
    rw [hg]
    unfold normalLpdf
    fun_prop
  have hg1 : ∫⁻ z, g z = 1 := by rw [hg]; exact lintegral_std_normal d
  have e : ∀ y, ENNReal.ofReal (exp (stanMultiNormalPrecLpdf y mu P)) =
      ENNReal.ofReal |L.det| * g (toLin' Lᵀ (y - mu)) := by
    intro y
    rw [exp_stanMultiNormalPrecLpdf h, ENNReal.ofReal_mul (abs_nonneg _), hg, toLin'_apply]
  have hT : Measurable (toLin' Lᵀ) := (LinearMap.continuous_of_finiteDimensional _).measurable
  have hm : Measurable fun y : Fin d → ℝ => g (toLin' Lᵀ y) := hgm.comp hT
  have hm' : Measurable fun y : Fin d → ℝ => g (toLin' Lᵀ (y - mu)) :=
    hm.comp (measurable_id.sub_const mu)
  rw [lintegral_congr e, lintegral_const_mul _ hm',
    lintegral_sub_right_eq_self (fun y => g (toLin' Lᵀ y)) mu, ← lintegral_map hgm hT,
    Real.map_matrix_volume_pi_eq_smul_volume_pi hdet, lintegral_smul_measure, hg1, smul_eq_mul,
    mul_one, det_transpose, abs_inv, ← ENNReal.ofReal_mul (abs_nonneg _),
    mul_inv_cancel₀ (abs_ne_zero.mpr hpos.ne'), ENNReal.ofReal_one]

instance : MeasurableSpace (UniLinRegLS d) :=
  MeasurableSpace.comap (fun s => (s.regressionCoeffs, s.var)) inferInstance

theorem measurable_linReg_pair : Measurable fun s : UniLinRegLS d => (s.regressionCoeffs, s.var) :=
  comap_measurable _

theorem measurable_linReg_mk :
    Measurable fun x : (Fin d → ℝ) × ℝ => (⟨x.1, x.2⟩ : UniLinRegLS d) := by
  rintro _ ⟨t, ht, rfl⟩
  exact ht

theorem measurable_mnigLpdf (h : MNIG d) :
    Measurable fun x : (Fin d → ℝ) × ℝ => mnigLpdf h ⟨x.1, x.2⟩ := by
  refine Measurable.add ?_ (measurable_invGammaLpdf measurable_snd _ _)
  unfold stanMultiNormalPrecLpdf
  simp only [det_smul, smul_mulVec, dotProduct_smul, smul_eq_mul]
  unfold dotProduct mulVec dotProduct
  fun_prop

/-- The measure on coefficients and variances with log-density `mnigLpdf h`. -/
noncomputable def mnigLaw (h : MNIG d) : Measure (UniLinRegLS d) :=
  ((volume.prod (volume.restrict (Set.Ioi (0 : ℝ)))).withDensity
    fun x : (Fin d → ℝ) × ℝ => ENNReal.ofReal (exp (mnigLpdf h ⟨x.1, x.2⟩))).map
      fun x => ⟨x.1, x.2⟩

theorem lintegral_mnigLaw (h : MNIG d) {φ : UniLinRegLS d → ℝ≥0∞} (hφ : Measurable φ) :
    ∫⁻ s, φ s ∂(mnigLaw h) = ∫⁻ v in Set.Ioi 0, ∫⁻ m,
      ENNReal.ofReal (exp (mnigLpdf h ⟨m, v⟩)) * φ ⟨m, v⟩ := by
  have hm : Measurable fun x : (Fin d → ℝ) × ℝ => ENNReal.ofReal (exp (mnigLpdf h ⟨x.1, x.2⟩)) :=
    ENNReal.measurable_ofReal.comp (Real.measurable_exp.comp (measurable_mnigLpdf h))
  have hp : Measurable fun x : (Fin d → ℝ) × ℝ => φ ⟨x.1, x.2⟩ := hφ.comp measurable_linReg_mk
  rw [mnigLaw, lintegral_map hφ measurable_linReg_mk,
    lintegral_withDensity_eq_lintegral_mul _ hm hp,
    lintegral_prod_symm _ (hm.mul hp).aemeasurable]
  rfl

theorem mnigLaw_prob (h : MNIG d) (hl : h.varScaling.PosDef) (ha : 0 < h.shape) (hb : 0 < h.scale) :
    IsProbabilityMeasure (mnigLaw h) := by
  constructor
  have h1 := lintegral_mnigLaw h (φ := fun _ => 1) measurable_const
  rw [lintegral_const, one_mul] at h1
  rw [h1]
  refine Eq.trans ?_ (lintegral_invGammaLpdf h.shape h.scale ha hb)
  refine setLIntegral_congr_fun measurableSet_Ioi fun v hv => ?_
  have hv : 0 < v := hv
  have e : ∀ m, ENNReal.ofReal (exp (mnigLpdf h ⟨m, v⟩)) * 1 =
      ENNReal.ofReal (exp (invGammaLpdf v h.shape h.scale)) *
        ENNReal.ofReal (exp (stanMultiNormalPrecLpdf m h.mean ((1 / v) • h.varScaling))) := by
    intro m
    rw [mul_one, ← ENNReal.ofReal_mul (exp_pos _).le, ← exp_add, mnigLpdf, add_comm]
  have hm : Measurable fun m =>
      ENNReal.ofReal (exp (stanMultiNormalPrecLpdf m h.mean ((1 / v) • h.varScaling))) :=
    ENNReal.measurable_ofReal.comp (Real.measurable_exp.comp
      (measurable_stanMultiNormalPrecLpdf _ _))
  rw [lintegral_congr e, lintegral_const_mul _ hm,
    lintegral_multiNormal _ (hl.smul (div_pos one_pos hv)), mul_one]

theorem measurable_linRegLpdf (x : Fin d → ℝ) :
    Measurable fun z : ℝ × UniLinRegLS d => linRegLpdf z.2 z.1 x := by
  have h1 : Measurable fun z : ℝ × UniLinRegLS d => z.2.regressionCoeffs :=
    (measurable_fst.comp measurable_linReg_pair).comp measurable_snd
  have h2 : Measurable fun z : ℝ × UniLinRegLS d => z.2.var :=
    (measurable_snd.comp measurable_linReg_pair).comp measurable_snd
  refine measurable_normalLpdf measurable_fst ?_ h2.sqrt
  unfold dotProduct
  fun_prop

theorem mnigLaw_bayes (h : MNIG d) (hl : h.varScaling.PosDef) (ha : 0 < h.shape) (hb : 0 < h.scale)
    (y : ℝ) (x : Fin d → ℝ) {φ : UniLinRegLS d → ℝ≥0∞} (hφ : Measurable φ) :
    ∫⁻ s, ENNReal.ofReal (exp (linRegLpdf s y x)) * φ s ∂(mnigLaw h) =
      ENNReal.ofReal (exp (linRegMargLpdf h y x)) *
        ∫⁻ s, φ s ∂(mnigLaw (mnigPosterior h 1 ⟨y ^ 2, vecMulVec x x, y • x⟩)) := by
  have hL : Measurable fun s : UniLinRegLS d => ENNReal.ofReal (exp (linRegLpdf s y x)) :=
    ENNReal.measurable_ofReal.comp (Real.measurable_exp.comp
      ((measurable_linRegLpdf x).comp (measurable_const.prodMk measurable_id)))
  have hLφ : Measurable fun s : UniLinRegLS d =>
    ENNReal.ofReal (exp (linRegLpdf s y x)) * φ s := hL.mul hφ
  obtain ⟨p, hp⟩ : ∃ p, p = mnigPosterior h 1 ⟨y ^ 2, vecMulVec x x, y • x⟩ := ⟨_, rfl⟩
  obtain ⟨c, hc⟩ : ∃ c, c = linRegMargLpdf h y x := ⟨_, rfl⟩
  have hB : ∀ (m : Fin d → ℝ) (v : ℝ), 0 < v →
      linRegLpdf ⟨m, v⟩ y x + mnigLpdf h ⟨m, v⟩ = c + mnigLpdf p ⟨m, v⟩ := by
    intro m v hv
    rw [hp, hc]
    exact mnig_bayes h hl ha hb y x ⟨m, v⟩ hv
  have hcφ : Measurable fun s : UniLinRegLS d => ENNReal.ofReal (exp c) * φ s := hφ.const_mul _
  rw [← hp, ← hc, lintegral_mnigLaw h hLφ, ← lintegral_const_mul _ hφ, lintegral_mnigLaw p hcφ]
  refine setLIntegral_congr_fun measurableSet_Ioi fun v hv => ?_
  refine lintegral_congr fun m => ?_
  have hv : 0 < v := hv
  rw [← mul_assoc, ← mul_assoc, ← ENNReal.ofReal_mul (exp_pos _).le,
    ← ENNReal.ofReal_mul (exp_pos _).le, ← exp_add, ← exp_add, add_comm (mnigLpdf h _), hB m v hv,
    add_comm c]

theorem lintegral_linRegMarg (h : MNIG d) (hl : h.varScaling.PosDef) (ha : 0 < h.shape)
    (hb : 0 < h.scale) (x : Fin d → ℝ)
    (hpost : ∀ y : ℝ, IsProbabilityMeasure
      (mnigLaw (mnigPosterior h 1 ⟨y ^ 2, vecMulVec x x, y • x⟩))) :
    ∫⁻ y, ENNReal.ofReal (exp (linRegMargLpdf h y x)) = 1 := by
  have := mnigLaw_prob h hl ha hb
  have h1 : ∀ y : ℝ, ENNReal.ofReal (exp (linRegMargLpdf h y x)) =
      ∫⁻ s, ENNReal.ofReal (exp (linRegLpdf s y x)) ∂(mnigLaw h) := by
    intro y
    have := hpost y
    have e := mnigLaw_bayes h hl ha hb y x (φ := fun _ => 1) measurable_const
    simpa using e.symm
  have hm : Measurable fun z : ℝ × UniLinRegLS d => ENNReal.ofReal (exp (linRegLpdf z.2 z.1 x)) :=
    ENNReal.measurable_ofReal.comp (Real.measurable_exp.comp (measurable_linRegLpdf x))
  rw [lintegral_congr h1, lintegral_lintegral_swap hm.aemeasurable]
  have hm2 : Measurable fun s : UniLinRegLS d =>
    ∫⁻ y, ENNReal.ofReal (exp (linRegLpdf s y x)) := hm.lintegral_prod_left'
  have h2 := lintegral_mnigLaw h (φ := fun _ => 1) measurable_const
  rw [lintegral_mnigLaw h hm2]
  rw [lintegral_const, one_mul, measure_univ] at h2
  rw [h2]
  refine setLIntegral_congr_fun measurableSet_Ioi fun v hv => ?_
  refine lintegral_congr fun m => ?_
  rw [show ∫⁻ y, ENNReal.ofReal (exp (linRegLpdf ⟨m, v⟩ y x)) = 1 from lintegral_normalLpdf _ v hv]

end Bayesmix.Hierarchies
