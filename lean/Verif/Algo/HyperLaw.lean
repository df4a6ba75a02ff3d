import Verif.Algo.PropsMeanHyper
import Verif.Algo.TotalMass
import Mathlib.Probability.Moments.Variance

/-!
# The law of the hyperparameters together with the values of the clusters
-/

namespace Bayesmix.Chain
open Bayesmix Cond Hierarchies MeasureTheory ENNReal ProbabilityTheory

/-- The mean of `f` over the hyperparameters that a prior of `src/hierarchies/priors/nig_prior_model.cc`
describes: all fixed; a Normal mean; or a Normal mean, a Gamma scaling and a Gamma scale, independent. -/
noncomputable def hyperPriorMean (prior : NIGPrior) (f : NIG → ℝ≥0∞) : ℝ≥0∞ :=
  match prior with
  | .fixed m l sh sc => f ⟨m, l, sh, sc⟩
  | .normalMean mu00 sig200 l sh sc => ∫⁻ m, f ⟨m, l, sh, sc⟩ ∂normalLaw mu00 (Real.sqrt sig200)
  | .ngg mu00 sig200 alpha00 beta00 a00 b00 sh =>
    ∫⁻ l, ∫⁻ sc, ∫⁻ m, f ⟨m, l, sh, sc⟩ ∂normalLaw mu00 (Real.sqrt sig200)
      ∂gammaMeasure a00 b00 ∂gammaMeasure alpha00 beta00
  | .unset => 0

/-- The mean of `φ` over the hyperparameters and `K` values drawn independently given them. -/
noncomputable def hyperJoint (prior : NIGPrior) {K : ℕ} (φ : NIG → (Fin K → UniLS) → ℝ≥0∞) : ℝ≥0∞ :=
  hyperPriorMean prior fun h => ∫⁻ θ, φ h θ ∂Measure.pi fun _ : Fin K => nigLaw h

/-- The mean of `φ` after `NIGPriorModel::update_hypers` (`src/hierarchies/priors/nig_prior_model.cc`
99-162) with the values `θ` of the clusters; infinite where the update fails. -/
noncomputable def hypersAfter {Z W : Type} [MeasurableSpace Z] [MeasurableSpace W] (prior : NIGPrior)
    (gen : Z → ℝ → ℝ → ℝ) (ζ : Measure Z) (gam : W → ℝ → ℝ → ℝ) (ω : Measure W) {K : ℕ}
    (φ : NIG → (Fin K → UniLS) → ℝ≥0∞) (h : NIG) (θ : Fin K → UniLS) : ℝ≥0∞ :=
  ∫⁻ z, ∫⁻ w, ∫⁻ w', (match nigUpdateHypers prior h (List.ofFn θ) (gen z) (gam w) (gam w') with
    | .error _ => ∞
    | .ok h' => φ h' θ) ∂ω ∂ω ∂ζ

theorem normalLaw_gaussian (m : ℝ) {s : ℝ} (hs : 0 < s) :
    normalLaw m s = gaussianReal m (.mk (s ^ 2) (sq_nonneg s)) := by
  have hv : (NNReal.mk (s ^ 2) (sq_nonneg s)) ≠ 0 := by
    intro h
    have : s ^ 2 = 0 := congrArg NNReal.toReal h
    exact (pow_pos hs 2).ne' this
  rw [normalLaw, gaussianReal_of_var_ne_zero _ hv]
  congr 1
  funext x
  rw [normalLpdf_eq_log_gaussianPDFReal _ _ _ hs]
  change ENNReal.ofReal (Real.exp (Real.log (gaussianPDFReal m
    (NNReal.mk (s ^ 2) (sq_nonneg s)) x))) = _
  rw [Real.exp_log (gaussianPDFReal_pos _ _ _ hv)]
  rfl

theorem normalLaw_sq (m x : ℝ) {s : ℝ} (hs : 0 < s) {d : ℝ} (hd : 0 ≤ d) (a : ℝ) :
    ∫⁻ y, ENNReal.ofReal ((a * (y - m) + x) ^ 2 + d) ∂normalLaw m s =
      ENNReal.ofReal (a ^ 2 * s ^ 2 + x ^ 2 + d) := by
  rw [normalLaw_gaussian m hs]
  obtain ⟨v, hv⟩ : ∃ v, v = NNReal.mk (s ^ 2) (sq_nonneg s) := ⟨_, rfl⟩
  have hvr : (v : ℝ) = s ^ 2 := by rw [hv]; rfl
  rw [← hv, ← hvr]
  have hL : MemLp (fun y : ℝ => a * (y - m) + x) 2 (gaussianReal m v) := by
    have h1 : MemLp (fun y : ℝ => y) 2 (gaussianReal m v) := memLp_id_gaussianReal 2
    exact ((h1.sub (memLp_const m)).const_mul a).add (memLp_const x)
  have hvar : Var[fun y : ℝ => a * (y - m) + x; gaussianReal m v] = a ^ 2 * v := by
    have e : (fun y : ℝ => a * (y - m) + x) = fun y => a * y + (x - a * m) := by
      funext y; ring
    rw [e, variance_add_const (by fun_prop), variance_const_mul, variance_fun_id_gaussianReal]
  have hmean : ∫ y, (a * (y - m) + x) ∂gaussianReal m v = x := by
    have h1 : Integrable (fun y : ℝ => y) (gaussianReal m v) :=
      (memLp_id_gaussianReal (μ := m) (v := v) 1).integrable (by norm_num)
    have h2 : Integrable (fun y : ℝ => a * (y - m)) (gaussianReal m v) :=
      (h1.sub (integrable_const m)).const_mul a
    rw [integral_add h2 (integrable_const x), integral_const_mul, integral_sub h1 (integrable_const m), integral_id_gaussianReal]
    simp
  have h2 := variance_eq_sub hL
  rw [hvar, hmean] at h2
  have hi : Integrable (fun y : ℝ => (a * (y - m) + x) ^ 2) (gaussianReal m v) := hL.integrable_sq
  have h3 : ∫ y, (a * (y - m) + x) ^ 2 ∂gaussianReal m v = a ^ 2 * v + x ^ 2 := by
    have : ∫ y, ((fun y : ℝ => a * (y - m) + x) ^ 2) y ∂gaussianReal m v =
      ∫ y, (a * (y - m) + x) ^ 2 ∂gaussianReal m v := rfl
    rw [← this]; linarith
  have hi2 : Integrable (fun y : ℝ => (a * (y - m) + x) ^ 2 + d) (gaussianReal m v) :=
    hi.add (integrable_const d)
  rw [← ofReal_integral_eq_lintegral_ofReal hi2
    (Filter.Eventually.of_forall fun y => by positivity), integral_add hi (integrable_const d), h3]
  simp

theorem normalPi_sq {K : ℕ} (c : Fin K → ℝ) (x : ℝ) {d : ℝ} (hd : 0 ≤ d) :
    ∫⁻ z, ENNReal.ofReal ((x + ∑ i, c i * z i) ^ 2 + d)
        ∂Measure.pi (fun _ : Fin K => normalLaw 0 1) =
      ENNReal.ofReal (x ^ 2 + ∑ i, c i ^ 2 + d) := by
  have hg : normalLaw 0 1 = gaussianReal 0 1 := by
    rw [normalLaw_gaussian 0 one_pos]
    congr 1
    ext
    simp
  rw [hg]
  obtain ⟨μ, hμ⟩ : ∃ μ : Measure (Fin K → ℝ), μ = Measure.pi fun _ => gaussianReal 0 1 := ⟨_, rfl⟩
  have hp : IsProbabilityMeasure μ := by rw [hμ]; infer_instance
  have hX : ∀ i : Fin K, MemLp (fun y : ℝ => c i * y) 2 (gaussianReal 0 1) := fun i =>
    MemLp.const_mul (f := fun y : ℝ => y) (memLp_id_gaussianReal 2) (c i)
  have hXi : ∀ i : Fin K, MemLp (fun z : Fin K → ℝ => c i * z i) 2 μ := fun i => by
    rw [hμ]
    exact (hX i).comp_measurePreserving (measurePreserving_eval (fun _ : Fin K => gaussianReal 0 1) i)
  have hS : MemLp (fun z : Fin K → ℝ => ∑ i, c i * z i) 2 μ := memLp_finsetSum _ fun i _ => hXi i
  have hL : MemLp (fun z : Fin K → ℝ => x + ∑ i, c i * z i) 2 μ := (memLp_const x).add hS
  have hvar : Var[fun z : Fin K → ℝ => x + ∑ i, c i * z i; μ] = ∑ i, c i ^ 2 := by
    rw [variance_const_add hS.1]
    have := variance_sum_pi (μ := fun _ : Fin K => gaussianReal 0 1) (X := fun i y => c i * y) hX
    rw [← hμ] at this
    have e : (∑ i, fun z : Fin K → ℝ => c i * z i) = fun z => ∑ i, c i * z i := by
      funext z; simp
    rw [e] at this
    rw [this]
    refine Finset.sum_congr rfl fun i _ => ?_
    rw [variance_const_mul, variance_fun_id_gaussianReal]
    simp
  have hmean : ∫ z, (x + ∑ i, c i * z i) ∂μ = x := by
    have hi : ∀ i ∈ (Finset.univ : Finset (Fin K)), Integrable (fun z : Fin K → ℝ => c i * z i) μ :=
      fun i _ => (hXi i).integrable (by norm_num)
    rw [integral_add (integrable_const x) (integrable_finset_sum _ hi), integral_finset_sum _ hi]
    have e : ∀ i : Fin K, ∫ z, c i * z i ∂μ = 0 := by
      intro i
      rw [integral_const_mul, hμ]
      have hm := measurePreserving_eval (fun _ : Fin K => gaussianReal 0 1) i
      have h1 : ∫ z : Fin K → ℝ, z i ∂Measure.pi (fun _ => gaussianReal 0 1) =
          ∫ y, y ∂gaussianReal 0 1 := by
        have h0 := integral_map (μ := Measure.pi fun _ : Fin K => gaussianReal 0 1)
          (measurable_pi_apply i).aemeasurable (f := fun y : ℝ => y) (by fun_prop)
        exact h0.symm.trans (by rw [show (fun z : Fin K → ℝ => z i) = Function.eval i from rfl, hm.map_eq])
      rw [h1, integral_id_gaussianReal, mul_zero]
    simp [e]
  have h2 := variance_eq_sub hL
  rw [hvar, hmean] at h2
  have hi : Integrable (fun z : Fin K → ℝ => (x + ∑ i, c i * z i) ^ 2) μ := hL.integrable_sq
  have h3 : ∫ z, (x + ∑ i, c i * z i) ^ 2 ∂μ = x ^ 2 + ∑ i, c i ^ 2 := by
    have : ∫ z, ((fun z : Fin K → ℝ => x + ∑ i, c i * z i) ^ 2) z ∂μ =
      ∫ z, (x + ∑ i, c i * z i) ^ 2 ∂μ := rfl
    rw [← this]; linarith
  have hi2 : Integrable (fun z : Fin K → ℝ => (x + ∑ i, c i * z i) ^ 2 + d) μ :=
    hi.add (integrable_const d)
  rw [← hμ, ← ofReal_integral_eq_lintegral_ofReal hi2
    (Filter.Eventually.of_forall fun z => by positivity), integral_add hi (integrable_const d), h3]
  simp

/-- The law of the values, made from Gamma and standard Normal draws. -/
theorem lintegral_nigLaw_noise {h : NIG} (hl : 0 < h.varScaling) (ha : 0 < h.shape) (hb : 0 < h.scale)
    {f : UniLS → ℝ≥0∞} (hf : Measurable f) :
    ∫⁻ st, f st ∂nigLaw h = ∫⁻ g, ∫⁻ z, f ⟨h.mean + Real.sqrt (h.scale / g / h.varScaling) * z,
      h.scale / g⟩ ∂normalLaw 0 1 ∂gammaMeasure h.shape 1 := by
  have hG : Measurable fun p : ℝ × ℝ => f ⟨h.mean + Real.sqrt (p.1 / h.varScaling) * p.2, p.1⟩ :=
    hf.comp (measurable_mk.comp (f := fun p : ℝ × ℝ =>
      (h.mean + Real.sqrt (p.1 / h.varScaling) * p.2, p.1)) (by fun_prop))
  have := affine_normalGen.prob
  obtain ⟨F, hF⟩ : ∃ F : ℝ → ℝ≥0∞, F = fun v =>
    ∫⁻ z, f ⟨h.mean + Real.sqrt (v / h.varScaling) * z, v⟩ ∂normalLaw 0 1 := ⟨_, rfl⟩
  have hFm : Measurable F := by rw [hF]; exact hG.lintegral_prod_right'
  have hFg : Measurable fun g : ℝ => F (h.scale / g) := hFm.comp (by fun_prop)
  have hr : ∫⁻ g, ∫⁻ z, f ⟨h.mean + Real.sqrt (h.scale / g / h.varScaling) * z,
      h.scale / g⟩ ∂normalLaw 0 1 ∂gammaMeasure h.shape 1 =
      ∫⁻ g, F (h.scale / g) ∂gammaMeasure h.shape 1 := by rw [hF]
  rw [hr, lintegral_gammaMeasure ha one_pos hFg, lintegral_nigLaw h hf]
  have e1 : ∀ v ∈ Set.Ioi (0 : ℝ), ∫⁻ m, ENNReal.ofReal (Real.exp (nigLpdf h ⟨m, v⟩)) * f ⟨m, v⟩ =
      ENNReal.ofReal (Real.exp (invGammaLpdf v h.shape h.scale)) * F v := by
    intro v hv
    have hv : 0 < v := hv
    have hfv : Measurable fun m : ℝ => f ⟨m, v⟩ := hf.comp (measurable_mk.comp
      (f := fun m : ℝ => (m, v)) (by fun_prop))
    have hn : Measurable fun m : ℝ => ENNReal.ofReal (Real.exp (normalLpdf m h.mean
        (Real.sqrt (v / h.varScaling)))) := ENNReal.measurable_ofReal.comp (Real.measurable_exp.comp
      (measurable_normalLpdf measurable_id measurable_const measurable_const))
    have hnf : Measurable fun m : ℝ => ENNReal.ofReal (Real.exp (normalLpdf m h.mean
        (Real.sqrt (v / h.varScaling)))) * f ⟨m, v⟩ := hn.mul hfv
    rw [hF]
    dsimp only
    rw [affine_normalGen.lintegral (m := h.mean) (Real.sqrt_pos.2 (div_pos hv hl)) hfv,
      lintegral_normalLaw _ _ hfv, ← lintegral_const_mul _ hnf]
    refine lintegral_congr fun m => ?_
    rw [← mul_assoc, ← ENNReal.ofReal_mul (Real.exp_pos _).le, ← Real.exp_add, nigLpdf, add_comm]
  rw [setLIntegral_congr_fun measurableSet_Ioi e1]
  have himg : (fun x : ℝ => h.scale / x) '' Set.Ioi 0 = Set.Ioi 0 := by
    ext x
    simp only [Set.mem_image, Set.mem_Ioi]
    constructor
    · rintro ⟨y, hy, rfl⟩; exact div_pos hb hy
    · intro hx; exact ⟨h.scale / x, div_pos hb hx, by field_simp⟩
  have hd : ∀ x ∈ Set.Ioi (0 : ℝ), HasDerivWithinAt (fun x : ℝ => h.scale / x)
      (h.scale * -(x ^ 2)⁻¹) (Set.Ioi 0) x := fun x hx => by
    have := ((hasDerivAt_inv (ne_of_gt hx)).const_mul h.scale).hasDerivWithinAt (s := Set.Ioi (0 : ℝ))
    simpa only [div_eq_mul_inv] using this
  have hinj : Set.InjOn (fun x : ℝ => h.scale / x) (Set.Ioi 0) := by
    intro x hx y hy hxy
    have hx : 0 < x := hx
    have hy : 0 < y := hy
    dsimp only at hxy
    rw [div_eq_div_iff hx.ne' hy.ne'] at hxy
    exact (mul_left_cancel₀ hb.ne' hxy).symm
  have hc := lintegral_image_eq_lintegral_abs_deriv_mul (s := Set.Ioi (0 : ℝ)) measurableSet_Ioi hd hinj
    (fun v => ENNReal.ofReal (Real.exp (invGammaLpdf v h.shape h.scale)) * F v)
  rw [himg] at hc
  rw [hc]
  refine setLIntegral_congr_fun measurableSet_Ioi fun x hx => ?_
  have hx : 0 < x := hx
  rw [← mul_assoc, ← ENNReal.ofReal_mul (abs_nonneg _)]
  congr 2
  rw [abs_mul, abs_neg, abs_of_pos hb, abs_of_pos (by positivity)]
  have hΓ : 0 < Real.Gamma h.shape := Real.Gamma_pos_of_pos ha
  have e : h.shape * Real.log h.scale - Real.log (Real.Gamma h.shape) -
      (h.shape + 1) * Real.log (h.scale / x) - h.scale / (h.scale / x) =
      -Real.log h.scale - Real.log (Real.Gamma h.shape) + Real.log x * (h.shape - 1) +
        2 * Real.log x + -(1 * x) := by
    rw [Real.log_div hb.ne' hx.ne', div_div_cancel₀ hb.ne']
    ring
  rw [invGammaLpdf, e, Real.exp_add, Real.exp_add, Real.exp_add, Real.exp_sub, Real.exp_neg,
    Real.exp_log hb, Real.exp_log hΓ, ← Real.rpow_def_of_pos hx, mul_comm 2, Real.exp_mul,
    Real.exp_log hx, Real.one_rpow]
  norm_cast
  field_simp

end Bayesmix.Chain
