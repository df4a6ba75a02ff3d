import Verif.Hier.GaussLaw
import Verif.Hier.NWLemmas

/-!
# Normalization of the Laplace and of the multivariate t density
-/

namespace Bayesmix.Hierarchies
open Real MeasureTheory ENNReal Matrix

variable {d : ℕ}

theorem lintegral_doubleExponential (m s : ℝ) (hs : 0 < s) :
    ∫⁻ y, ENNReal.ofReal (exp (doubleExponentialLpdf y m s)) = 1 := by
  obtain ⟨f, hf⟩ : ∃ f : ℝ → ℝ≥0∞, f = fun x =>
      ENNReal.ofReal (exp (doubleExponentialLpdf x 0 s)) := ⟨_, rfl⟩
  have e : ∀ y, ENNReal.ofReal (exp (doubleExponentialLpdf y m s)) = f (y - m) := by
    intro y; rw [hf]; simp [doubleExponentialLpdf]
  rw [lintegral_congr e, lintegral_sub_right_eq_self f m]
  have hhalf : ∫⁻ x in Set.Ioi 0, f x = ENNReal.ofReal (1 / 2) := by
    have h1 := lintegral_gammaLpdf 1 s⁻¹ one_pos (inv_pos.mpr hs)
    have hm : Measurable fun x => ENNReal.ofReal (exp (gammaLpdf x 1 s⁻¹)) := by
      unfold gammaLpdf; fun_prop
    rw [← mul_one (ENNReal.ofReal (1 / 2)), ← h1, ← lintegral_const_mul _ hm, hf]
    refine setLIntegral_congr_fun measurableSet_Ioi fun x hx => ?_
    have hx : 0 < x := hx
    rw [← ENNReal.ofReal_mul (by norm_num)]
    congr 1
    rw [doubleExponentialLpdf, gammaLpdf, sub_zero, abs_of_pos hx, log_inv, Gamma_one, log_one,
      sub_self, zero_mul, sub_sub, exp_sub, exp_neg, exp_log two_pos]
    rw [show 1 * -log s - 0 + 0 - s⁻¹ * x = -(log s + x / s) by ring, exp_neg]
    field_simp
  have hneg : ∫⁻ x in Set.Iio 0, f x = ∫⁻ x in Set.Ioi 0, f x := by
    have hp := (Measure.measurePreserving_neg (volume : Measure ℝ)).setLIntegral_comp_preimage
      (measurableSet_Ioi (a := (0 : ℝ))) (f := f) (by rw [hf]; unfold doubleExponentialLpdf; fun_prop)
    rw [← hp]
    have hset : (fun x : ℝ => -x) ⁻¹' Set.Ioi 0 = Set.Iio 0 := by ext x; simp
    rw [hset]
    refine lintegral_congr fun x => ?_
    rw [hf]; simp [doubleExponentialLpdf]
  rw [← lintegral_add_compl _ (measurableSet_Ioi (a := (0 : ℝ))), Set.compl_Ioi,
    setLIntegral_congr Iio_ae_eq_Iic.symm, hneg, hhalf, ← ENNReal.ofReal_add (by norm_num)
      (by norm_num)]
  norm_num

/-- A normal density with a random precision: the marginal density of the code mixes multivariate
normal densities. -/
theorem nnwMarg_mixture (h : NW d) (hv : NWValid h) (y : Fin d → ℝ) {u : ℝ} (hu : 0 < u) :
    stanMultiNormalPrecLpdf y h.mean
        ((2 * u * (h.varScaling / (h.varScaling + 1))) • h.scale) +
      gammaLpdf u ((h.degFree - d + 1) / 2) 1 =
    nnwMargLpdf (nwGetProto h) y + gammaLpdf u ((h.degFree + 1) / 2)
      (1 + h.varScaling / (h.varScaling + 1) * ((y - h.mean) ⬝ᵥ (h.scale *ᵥ (y - h.mean)))) := by
  rw [nnwMargLpdf_eq h hv]
  have hl := hv.scaling
  obtain ⟨k, hk⟩ : ∃ k, k = h.varScaling / (h.varScaling + 1) := ⟨_, rfl⟩
  have hkp : 0 < k := by rw [hk]; positivity
  rw [← hk]
  obtain ⟨q, hq⟩ : ∃ q, q = (y - h.mean) ⬝ᵥ (h.scale *ᵥ (y - h.mean)) := ⟨_, rfl⟩
  have hdet := hv.posDef.det_pos
  rw [stanMultiNormalPrecLpdf, smul_mulVec, dotProduct_smul, smul_eq_mul, det_smul,
    Fintype.card_fin, ← hq, gammaLpdf, gammaLpdf, log_mul (by positivity) hdet.ne', log_pow,
    log_mul (by positivity) hkp.ne', log_mul two_ne_zero hu.ne',
    log_mul two_ne_zero pi_pos.ne', log_one]
  ring

theorem lintegral_nnwMarg (h : NW d) (hv : NWValid h) :
    ∫⁻ y, ENNReal.ofReal (exp (nnwMargLpdf (nwGetProto h) y)) = 1 := by
  have hl := hv.scaling
  have hdf := hv.df
  have ha : 0 < (h.degFree - d + 1) / 2 := by linarith
  have hd0 : (0 : ℝ) ≤ d := Nat.cast_nonneg d
  have ha2 : 0 < (h.degFree + 1) / 2 := by linarith
  obtain ⟨k, hk⟩ : ∃ k, k = h.varScaling / (h.varScaling + 1) := ⟨_, rfl⟩
  have hkp : 0 < k := by rw [hk]; positivity
  have hm : Measurable fun z : (Fin d → ℝ) × ℝ =>
      ENNReal.ofReal (exp (stanMultiNormalPrecLpdf z.1 h.mean ((2 * z.2 * k) • h.scale))) *
        ENNReal.ofReal (exp (gammaLpdf z.2 ((h.degFree - d + 1) / 2) 1)) := by
    unfold stanMultiNormalPrecLpdf gammaLpdf
    simp only [det_smul, smul_mulVec, dotProduct_smul, smul_eq_mul]
    unfold dotProduct mulVec dotProduct
    fun_prop
  have h1 : ∀ y, ENNReal.ofReal (exp (nnwMargLpdf (nwGetProto h) y)) = ∫⁻ u in Set.Ioi 0,
      ENNReal.ofReal (exp (stanMultiNormalPrecLpdf y h.mean ((2 * u * k) • h.scale))) *
        ENNReal.ofReal (exp (gammaLpdf u ((h.degFree - d + 1) / 2) 1)) := by
    intro y
    have hq : 0 ≤ (y - h.mean) ⬝ᵥ (h.scale *ᵥ (y - h.mean)) := by
      simpa using hv.posDef.posSemidef.dotProduct_mulVec_nonneg (y - h.mean)
    obtain ⟨b, hb⟩ : ∃ b, b = 1 + k * ((y - h.mean) ⬝ᵥ (h.scale *ᵥ (y - h.mean))) := ⟨_, rfl⟩
    have hbp : 0 < b := by rw [hb]; positivity
    have hg : Measurable fun u => ENNReal.ofReal (exp (gammaLpdf u ((h.degFree + 1) / 2) b)) := by
      unfold gammaLpdf; fun_prop
    rw [← mul_one (ENNReal.ofReal _), ← lintegral_gammaLpdf _ b ha2 hbp,
      ← lintegral_const_mul _ hg]
    refine setLIntegral_congr_fun measurableSet_Ioi fun u hu => ?_
    have := nnwMarg_mixture h hv y hu
    rw [← hk, ← hb] at this
    rw [← ENNReal.ofReal_mul (exp_pos _).le, ← ENNReal.ofReal_mul (exp_pos _).le, ← exp_add,
      ← exp_add, this]
  rw [lintegral_congr h1, lintegral_lintegral_swap hm.aemeasurable]
  refine Eq.trans ?_ (lintegral_gammaLpdf _ 1 ha one_pos)
  refine setLIntegral_congr_fun measurableSet_Ioi fun u hu => ?_
  have hu : 0 < u := hu
  have hm1 : Measurable fun y =>
      ENNReal.ofReal (exp (stanMultiNormalPrecLpdf y h.mean ((2 * u * k) • h.scale))) :=
    ENNReal.measurable_ofReal.comp (Real.measurable_exp.comp
      (measurable_stanMultiNormalPrecLpdf _ _))
  rw [lintegral_mul_const _ hm1, lintegral_multiNormal _ (hv.posDef.smul (by positivity)), one_mul]

/-- The density of an affine image: any invertible factor. -/
theorem lintegral_affine (mu : Fin d → ℝ) {A : Matrix (Fin d) (Fin d) ℝ} (hA : A.det ≠ 0) :
    ∫⁻ y, ENNReal.ofReal (|A.det| * ∏ i, exp (normalLpdf ((A *ᵥ (y - mu)) i) 0 (sqrt 1))) = 1 := by
  obtain ⟨g, hg⟩ : ∃ g : (Fin d → ℝ) → ℝ≥0∞, g = fun z =>
      ENNReal.ofReal (∏ i, exp (normalLpdf (z i) 0 (sqrt 1))) := ⟨_, rfl⟩
  have hgm : Measurable g := by
    rw [hg]
    unfold normalLpdf
    fun_prop
  have hg1 : ∫⁻ z, g z = 1 := by rw [hg]; exact lintegral_std_normal d
  have e : ∀ y, ENNReal.ofReal (|A.det| * ∏ i, exp (normalLpdf ((A *ᵥ (y - mu)) i) 0 (sqrt 1))) =
      ENNReal.ofReal |A.det| * g (toLin' A (y - mu)) := by
    intro y
    rw [ENNReal.ofReal_mul (abs_nonneg _), hg, toLin'_apply]
  have hT : Measurable (toLin' A) := (LinearMap.continuous_of_finiteDimensional _).measurable
  have hm : Measurable fun y : Fin d → ℝ => g (toLin' A y) := hgm.comp hT
  have hm' : Measurable fun y : Fin d → ℝ => g (toLin' A (y - mu)) :=
    hm.comp (measurable_id.sub_const mu)
  rw [lintegral_congr e, lintegral_const_mul _ hm',
    lintegral_sub_right_eq_self (fun y => g (toLin' A y)) mu, ← lintegral_map hgm hT,
    Real.map_matrix_volume_pi_eq_smul_volume_pi hA, lintegral_smul_measure, hg1, smul_eq_mul,
    mul_one, abs_inv, ← ENNReal.ofReal_mul (abs_nonneg _),
    mul_inv_cancel₀ (abs_ne_zero.mpr hA), ENNReal.ofReal_one]

end Bayesmix.Hierarchies
