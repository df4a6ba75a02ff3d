import Verif.Hier.ConjLemmas
import Verif.Hier.PropsMixDist
import Mathlib.MeasureTheory.Function.JacobianOneDim
import Mathlib.MeasureTheory.Measure.WithDensity
import Mathlib.MeasureTheory.Measure.Prod
import Mathlib.Probability.Distributions.Gamma

/-!
# The laws of the unique values

The log-densities of the prior models as measures.
-/

namespace Bayesmix.Hierarchies
open Real MeasureTheory ENNReal

theorem lintegral_normalLpdf (m v : ℝ) (hv : 0 < v) :
    ∫⁻ x, ENNReal.ofReal (exp (normalLpdf x m (sqrt v))) = 1 := by
  rw [← ofReal_integral_eq_lintegral_ofReal (integral_normal m v hv).1
    (Filter.Eventually.of_forall fun x => (exp_pos _).le), (integral_normal m v hv).2,
    ENNReal.ofReal_one]

theorem lintegral_gammaLpdf (a b : ℝ) (ha : 0 < a) (hb : 0 < b) :
    ∫⁻ x in Set.Ioi 0, ENNReal.ofReal (exp (gammaLpdf x a b)) = 1 := by
  have h1 := ProbabilityTheory.lintegral_gammaPDF_eq_one ha hb
  rw [← lintegral_add_compl _ (measurableSet_Ioi (a := (0 : ℝ))), Set.compl_Ioi] at h1
  have h2 : ∫⁻ x in Set.Iic (0 : ℝ), ProbabilityTheory.gammaPDF a b x = 0 := by
    rw [setLIntegral_congr Iio_ae_eq_Iic.symm]
    exact ProbabilityTheory.lintegral_gammaPDF_of_nonpos le_rfl
  rw [h2, add_zero] at h1
  rw [← h1]
  refine setLIntegral_congr_fun measurableSet_Ioi fun x hx => ?_
  rw [gammaLpdf_eq_log_gammaPDFReal x a b hx ha hb,
    exp_log (ProbabilityTheory.gammaPDFReal_pos ha hb hx), ProbabilityTheory.gammaPDF]

theorem lintegral_invGammaLpdf (a b : ℝ) (ha : 0 < a) (hb : 0 < b) :
    ∫⁻ x in Set.Ioi 0, ENNReal.ofReal (exp (invGammaLpdf x a b)) = 1 := by
  have himg : (fun x : ℝ => x⁻¹) '' Set.Ioi 0 = Set.Ioi 0 := by
    ext x
    simp only [Set.mem_image, Set.mem_Ioi]
    exact ⟨by rintro ⟨y, hy, rfl⟩; exact inv_pos.mpr hy, fun hx => ⟨x⁻¹, inv_pos.mpr hx, inv_inv x⟩⟩
  have h := lintegral_image_eq_lintegral_abs_deriv_mul (s := Set.Ioi (0 : ℝ))
    (f := fun x : ℝ => x⁻¹) (f' := fun x => -(x ^ 2)⁻¹) measurableSet_Ioi
    (fun x hx => (hasDerivAt_inv (ne_of_gt hx)).hasDerivWithinAt) (inv_injective.injOn)
    (fun x => ENNReal.ofReal (exp (gammaLpdf x a b)))
  rw [himg, lintegral_gammaLpdf a b ha hb] at h
  rw [h]
  refine setLIntegral_congr_fun measurableSet_Ioi fun x hx => ?_
  have hx : 0 < x := hx
  rw [abs_neg, abs_of_pos (by positivity), ← ENNReal.ofReal_mul (by positivity),
    invGammaLpdf_eq_gammaLpdf, exp_sub, mul_comm 2, exp_mul, exp_log hx]
  congr 1
  norm_cast
  field_simp

instance : MeasurableSpace UniLS := MeasurableSpace.comap (fun s => (s.mean, s.var)) inferInstance

theorem measurable_pair : Measurable fun s : UniLS => (s.mean, s.var) := comap_measurable _

theorem measurable_mean : Measurable fun s : UniLS => s.mean := measurable_fst.comp measurable_pair

theorem measurable_var : Measurable fun s : UniLS => s.var := measurable_snd.comp measurable_pair

theorem measurable_mk : Measurable fun x : ℝ × ℝ => (⟨x.1, x.2⟩ : UniLS) := by
  rintro _ ⟨t, ht, rfl⟩
  exact ht

theorem measurable_normalLpdf {α : Type*} [MeasurableSpace α] {f g k : α → ℝ} (hf : Measurable f)
    (hg : Measurable g) (hk : Measurable k) : Measurable fun x => normalLpdf (f x) (g x) (k x) := by
  unfold normalLpdf
  fun_prop

theorem measurable_invGammaLpdf {α : Type*} [MeasurableSpace α] {f : α → ℝ} (hf : Measurable f)
    (a b : ℝ) : Measurable fun x => invGammaLpdf (f x) a b := by
  unfold invGammaLpdf
  fun_prop

theorem measurable_nigLpdf (h : NIG) : Measurable fun x : ℝ × ℝ => nigLpdf h ⟨x.1, x.2⟩ :=
  (measurable_normalLpdf measurable_fst measurable_const
    ((measurable_snd.div_const _).sqrt)).add (measurable_invGammaLpdf measurable_snd _ _)

theorem measurable_uniNormLpdf (y : ℝ) : Measurable fun s : UniLS => uniNormLpdf s y :=
  measurable_normalLpdf measurable_const measurable_mean (measurable_var.sqrt)

/-- The measure on means and variances with log-density `nigLpdf h`. -/
noncomputable def nigLaw (h : NIG) : Measure UniLS :=
  ((volume.prod (volume.restrict (Set.Ioi (0 : ℝ)))).withDensity
    fun x : ℝ × ℝ => ENNReal.ofReal (exp (nigLpdf h ⟨x.1, x.2⟩))).map fun x => ⟨x.1, x.2⟩

theorem lintegral_nigLaw (h : NIG) {φ : UniLS → ℝ≥0∞} (hφ : Measurable φ) :
    ∫⁻ s, φ s ∂(nigLaw h) = ∫⁻ v in Set.Ioi 0, ∫⁻ m,
      ENNReal.ofReal (exp (nigLpdf h ⟨m, v⟩)) * φ ⟨m, v⟩ := by
  have hm : Measurable fun x : ℝ × ℝ => ENNReal.ofReal (exp (nigLpdf h ⟨x.1, x.2⟩)) :=
    ENNReal.measurable_ofReal.comp (Real.measurable_exp.comp (measurable_nigLpdf h))
  have hp : Measurable fun x : ℝ × ℝ => φ ⟨x.1, x.2⟩ := hφ.comp measurable_mk
  rw [nigLaw, lintegral_map hφ measurable_mk, lintegral_withDensity_eq_lintegral_mul _ hm hp,
    lintegral_prod_symm _ (hm.mul hp).aemeasurable]
  rfl

/-- The density of the prior model integrates to one. -/
theorem nigLaw_prob (h : NIG) (hl : 0 < h.varScaling) (ha : 0 < h.shape) (hb : 0 < h.scale) :
    IsProbabilityMeasure (nigLaw h) := by
  constructor
  have h1 := lintegral_nigLaw h (φ := fun _ => 1) measurable_const
  rw [lintegral_const, one_mul] at h1
  rw [h1]
  refine Eq.trans ?_ (lintegral_invGammaLpdf h.shape h.scale ha hb)
  refine setLIntegral_congr_fun measurableSet_Ioi fun v hv => ?_
  have hv : 0 < v := hv
  have e : ∀ m, ENNReal.ofReal (exp (nigLpdf h ⟨m, v⟩)) * 1 =
      ENNReal.ofReal (exp (invGammaLpdf v h.shape h.scale)) *
        ENNReal.ofReal (exp (normalLpdf m h.mean (sqrt (v / h.varScaling)))) := by
    intro m
    rw [mul_one, ← ENNReal.ofReal_mul (exp_pos _).le, ← exp_add, nigLpdf, add_comm]
  have hm : Measurable fun m =>
      ENNReal.ofReal (exp (normalLpdf m h.mean (sqrt (v / h.varScaling)))) :=
    ENNReal.measurable_ofReal.comp (Real.measurable_exp.comp
      (measurable_normalLpdf measurable_id measurable_const measurable_const))
  rw [lintegral_congr e, lintegral_const_mul _ hm, lintegral_normalLpdf _ _ (div_pos hv hl), mul_one]

theorem lintegral_nigLaw_mul (p : NIG) (c : ℝ≥0∞) {φ : UniLS → ℝ≥0∞} (hφ : Measurable φ) :
    c * ∫⁻ s, φ s ∂(nigLaw p) = ∫⁻ v in Set.Ioi 0, ∫⁻ m,
      c * (ENNReal.ofReal (exp (nigLpdf p ⟨m, v⟩)) * φ ⟨m, v⟩) := by
  have hm : Measurable fun s : UniLS => c * φ s := hφ.const_mul c
  rw [← lintegral_const_mul c hφ, lintegral_nigLaw p hm]
  refine lintegral_congr fun v => lintegral_congr fun m => ?_
  ring

/-- Likelihood times prior is marginal times posterior, as measures. -/
theorem nigLaw_bayes (h : NIG) (hl : 0 < h.varScaling) (ha : 0 < h.shape) (hb : 0 < h.scale)
    (y : ℝ) {φ : UniLS → ℝ≥0∞} (hφ : Measurable φ) :
    ∫⁻ s, ENNReal.ofReal (exp (uniNormLpdf s y)) * φ s ∂(nigLaw h) =
      ENNReal.ofReal (exp (nnigMargLpdf h y)) *
        ∫⁻ s, φ s ∂(nigLaw (nnigPosterior h 1 ⟨y, y ^ 2⟩)) := by
  have hL : Measurable fun s : UniLS => ENNReal.ofReal (exp (uniNormLpdf s y)) :=
    ENNReal.measurable_ofReal.comp (Real.measurable_exp.comp (measurable_uniNormLpdf y))
  have hLφ : Measurable fun s : UniLS => ENNReal.ofReal (exp (uniNormLpdf s y)) * φ s := hL.mul hφ
  obtain ⟨p, hp⟩ : ∃ p, p = nnigPosterior h 1 ⟨y, y ^ 2⟩ := ⟨_, rfl⟩
  obtain ⟨c, hc⟩ : ∃ c, c = nnigMargLpdf h y := ⟨_, rfl⟩
  have hB : ∀ m v : ℝ, 0 < v → uniNormLpdf ⟨m, v⟩ y + nigLpdf h ⟨m, v⟩ = c + nigLpdf p ⟨m, v⟩ := by
    intro m v hv
    have := nnig_bayes h hl ha hb y ⟨m, v⟩ hv
    simp only [uniNormUpd, uniNormZero, if_true, zero_add] at this
    rw [this, hp, hc, sq]
  rw [← hp, ← hc, lintegral_nigLaw h hLφ, lintegral_nigLaw_mul p _ hφ]
  refine setLIntegral_congr_fun measurableSet_Ioi fun v hv => ?_
  refine lintegral_congr fun m => ?_
  rw [← mul_assoc, ← mul_assoc, ← ENNReal.ofReal_mul (exp_pos _).le,
    ← ENNReal.ofReal_mul (exp_pos _).le, ← exp_add, ← exp_add, add_comm (nigLpdf h _), hB m v hv]

/-- The marginal log-density is that of a probability density. -/
theorem lintegral_nnigMarg (h : NIG) (hl : 0 < h.varScaling) (ha : 0 < h.shape) (hb : 0 < h.scale)
    (hpost : ∀ y : ℝ, IsProbabilityMeasure (nigLaw (nnigPosterior h 1 ⟨y, y ^ 2⟩))) :
    ∫⁻ y, ENNReal.ofReal (exp (nnigMargLpdf h y)) = 1 := by
  have := nigLaw_prob h hl ha hb
  have h1 : ∀ y : ℝ, ENNReal.ofReal (exp (nnigMargLpdf h y)) =
      ∫⁻ s, ENNReal.ofReal (exp (uniNormLpdf s y)) ∂(nigLaw h) := by
    intro y
    have := hpost y
    have e := nigLaw_bayes h hl ha hb y (φ := fun _ => 1) measurable_const
    simpa using e.symm
  have hm : Measurable fun z : ℝ × UniLS => ENNReal.ofReal (exp (uniNormLpdf z.2 z.1)) :=
    ENNReal.measurable_ofReal.comp (Real.measurable_exp.comp (measurable_normalLpdf measurable_fst
      (measurable_mean.comp measurable_snd) ((measurable_var.comp measurable_snd).sqrt)))
  rw [lintegral_congr h1, lintegral_lintegral_swap hm.aemeasurable]
  have hm2 : Measurable fun s : UniLS => ∫⁻ y, ENNReal.ofReal (exp (uniNormLpdf s y)) :=
    hm.lintegral_prod_left'
  have h2 := lintegral_nigLaw h (φ := fun _ => 1) measurable_const
  rw [lintegral_nigLaw h hm2]
  rw [lintegral_const, one_mul, measure_univ] at h2
  rw [h2]
  refine setLIntegral_congr_fun measurableSet_Ioi fun v hv => ?_
  refine lintegral_congr fun m => ?_
  rw [show ∫⁻ y, ENNReal.ofReal (exp (uniNormLpdf ⟨m, v⟩ y)) = 1 from lintegral_normalLpdf m v hv]

end Bayesmix.Hierarchies
