import Verif.Algo.PropsBlocked
import Verif.Hier.PropsHyper

/-!
# Blocked Gibbs with a prior on the mean of the base measure
-/

namespace Bayesmix.Cond
open Bayesmix Mixing Slice Gibbs MeasureTheory ENNReal Hierarchies

/-- The law of a draw of `normal_rng(mean, sd)`. -/
noncomputable def normalLaw (mean sd : ℝ) : Measure ℝ :=
  volume.withDensity fun x => ENNReal.ofReal (Real.exp (normalLpdf x mean sd))

theorem lintegral_normalLaw (mean sd : ℝ) {f : ℝ → ℝ≥0∞} (hf : Measurable f) :
    ∫⁻ x, f x ∂normalLaw mean sd =
      ∫⁻ x, ENNReal.ofReal (Real.exp (normalLpdf x mean sd)) * f x := by
  have hm : Measurable fun x => ENNReal.ofReal (Real.exp (normalLpdf x mean sd)) :=
    ENNReal.measurable_ofReal.comp (Real.measurable_exp.comp
      (measurable_normalLpdf measurable_id measurable_const measurable_const))
  rw [normalLaw, lintegral_withDensity_eq_lintegral_mul _ hm hf]
  rfl

theorem normalLaw_prob (mean : ℝ) {w : ℝ} (hw : 0 < w) :
    IsProbabilityMeasure (normalLaw mean (Real.sqrt w)) := by
  constructor
  have h := lintegral_normalLaw mean (Real.sqrt w) (f := fun _ => 1) measurable_const
  rw [lintegral_const, one_mul] at h
  rw [h]
  simp only [mul_one]
  exact lintegral_normalLpdf mean w hw

/-- Moment generating function. -/
theorem normalLaw_exp (mean t : ℝ) {w : ℝ} (hw : 0 < w) :
    ∫⁻ x, ENNReal.ofReal (Real.exp (t * x)) ∂normalLaw mean (Real.sqrt w) =
      ENNReal.ofReal (Real.exp (t * mean + t ^ 2 * w / 2)) := by
  have hm : Measurable fun x : ℝ => ENNReal.ofReal (Real.exp (t * x)) := by fun_prop
  have hm2 : Measurable fun x : ℝ =>
      ENNReal.ofReal (Real.exp (normalLpdf x (mean + t * w) (Real.sqrt w))) :=
    ENNReal.measurable_ofReal.comp (Real.measurable_exp.comp
      (measurable_normalLpdf measurable_id measurable_const measurable_const))
  rw [lintegral_normalLaw _ _ hm]
  have e : ∀ x : ℝ, ENNReal.ofReal (Real.exp (normalLpdf x mean (Real.sqrt w))) *
      ENNReal.ofReal (Real.exp (t * x)) = ENNReal.ofReal (Real.exp (t * mean + t ^ 2 * w / 2)) *
        ENNReal.ofReal (Real.exp (normalLpdf x (mean + t * w) (Real.sqrt w))) := by
    intro x
    rw [← ENNReal.ofReal_mul (Real.exp_pos _).le, ← ENNReal.ofReal_mul (Real.exp_pos _).le,
      ← Real.exp_add, ← Real.exp_add]
    congr 2
    unfold normalLpdf
    rw [div_pow, div_pow, Real.sq_sqrt hw.le]
    field_simp
    ring
  rw [lintegral_congr e, lintegral_const_mul _ hm2, lintegral_normalLpdf _ _ hw, mul_one]

/-- Means and positive variances. -/
noncomputable def lsVol : Measure (ℝ × ℝ) := volume.prod (volume.restrict (Set.Ioi (0 : ℝ)))

theorem lsVol_ae : ∀ᵐ p ∂lsVol, 0 < p.2 := by
  have h : ∀ᵐ v ∂(volume.restrict (Set.Ioi (0 : ℝ))), 0 < v := by
    filter_upwards [ae_restrict_mem measurableSet_Ioi] with v hv using hv
  exact Measure.quasiMeasurePreserving_snd.ae h

theorem lsVol_ne : lsVol ≠ 0 := by
  intro h
  have h1 : lsVol (Set.univ ×ˢ Set.univ) = 0 := by rw [h]; rfl
  rw [lsVol, Measure.prod_prod] at h1
  simp at h1

theorem lintegral_nigLaw_pair (h : NIG) {f : UniLS → ℝ≥0∞} (hf : Measurable f) :
    ∫⁻ s, f s ∂(nigLaw h) =
      ∫⁻ p, ENNReal.ofReal (Real.exp (nigLpdf h ⟨p.1, p.2⟩)) * f ⟨p.1, p.2⟩ ∂lsVol := by
  have hm : Measurable fun x : ℝ × ℝ => ENNReal.ofReal (Real.exp (nigLpdf h ⟨x.1, x.2⟩)) :=
    ENNReal.measurable_ofReal.comp (Real.measurable_exp.comp (measurable_nigLpdf h))
  have hp : Measurable fun x : ℝ × ℝ => f ⟨x.1, x.2⟩ := hf.comp measurable_mk
  rw [nigLaw, lintegral_map hf measurable_mk, lintegral_withDensity_eq_lintegral_mul _ hm hp]
  rfl

section mean

variable {mu00 sig200 lam sh sc : ℝ}

/-- `exp(mean - var / (2 lambda))`, whose mean under the base measure is `exp` of its location. -/
noncomputable def tilt (lam : ℝ) (st : UniLS) : ℝ≥0∞ :=
  ENNReal.ofReal (Real.exp (st.mean - st.var / (2 * lam)))

theorem measurable_tilt (lam : ℝ) : Measurable (tilt lam) := by
  have h1 := measurable_mean
  have h2 := measurable_var
  unfold tilt
  fun_prop

theorem nigLaw_tilt (m : ℝ) (hl : 0 < lam) (ha : 0 < sh) (hb : 0 < sc) :
    ∫⁻ s, tilt lam s ∂(nigLaw ⟨m, lam, sh, sc⟩) = ENNReal.ofReal (Real.exp m) := by
  rw [lintegral_nigLaw _ (measurable_tilt lam)]
  have hin : ∀ v : ℝ, 0 < v → ∫⁻ x, ENNReal.ofReal (Real.exp (nigLpdf ⟨m, lam, sh, sc⟩ ⟨x, v⟩)) *
      tilt lam ⟨x, v⟩ = ENNReal.ofReal (Real.exp m) *
        ENNReal.ofReal (Real.exp (invGammaLpdf v sh sc)) := by
    intro v hv
    have h1 := normalLaw_exp m 1 (w := v / lam) (div_pos hv hl)
    have hm : Measurable fun x : ℝ => ENNReal.ofReal (Real.exp (1 * x)) := by fun_prop
    have hm2 : Measurable fun x : ℝ => ENNReal.ofReal (Real.exp (normalLpdf x m (Real.sqrt (v / lam)))) *
        ENNReal.ofReal (Real.exp (1 * x)) :=
      (ENNReal.measurable_ofReal.comp (Real.measurable_exp.comp
        (measurable_normalLpdf measurable_id measurable_const measurable_const))).mul hm
    rw [lintegral_normalLaw _ _ hm] at h1
    have e : ∀ x : ℝ, ENNReal.ofReal (Real.exp (nigLpdf ⟨m, lam, sh, sc⟩ ⟨x, v⟩)) *
        tilt lam ⟨x, v⟩ = ENNReal.ofReal (Real.exp (invGammaLpdf v sh sc - v / (2 * lam))) *
          (ENNReal.ofReal (Real.exp (normalLpdf x m (Real.sqrt (v / lam)))) *
            ENNReal.ofReal (Real.exp (1 * x))) := by
      intro x
      rw [tilt, ← ENNReal.ofReal_mul (Real.exp_pos _).le, ← ENNReal.ofReal_mul (Real.exp_pos _).le,
        ← ENNReal.ofReal_mul (Real.exp_pos _).le, ← Real.exp_add, ← Real.exp_add, ← Real.exp_add,
        nigLpdf]
      congr 2
      ring
    rw [lintegral_congr e, lintegral_const_mul _ hm2, h1, ← ENNReal.ofReal_mul (Real.exp_pos _).le,
      ← ENNReal.ofReal_mul (Real.exp_pos _).le, ← Real.exp_add, ← Real.exp_add]
    congr 2
    field_simp
    ring
  rw [setLIntegral_congr_fun measurableSet_Ioi fun v hv => hin v hv]
  have hm3 : Measurable fun v => ENNReal.ofReal (Real.exp (invGammaLpdf v sh sc)) :=
    ENNReal.measurable_ofReal.comp (Real.measurable_exp.comp (measurable_invGammaLpdf measurable_id _ _))
  rw [lintegral_const_mul _ hm3, lintegral_invGammaLpdf sh sc ha hb, mul_one]

/-- Posterior variance of the mean of the base measure given one value. -/
noncomputable def meanVar (sig200 lam : ℝ) (st : UniLS) : ℝ := 1 / (1 / sig200 + lam * (1 / st.var))

theorem meanVar_pos (hs : 0 < sig200) (hl : 0 < lam) {st : UniLS} (hv : 0 < st.var) :
    0 < meanVar sig200 lam st := by
  unfold meanVar
  positivity

theorem meanParams_one (mu00 sig200 lam : ℝ) (st : UniLS) :
    nigMeanParams mu00 sig200 lam [st] =
      ((mu00 / sig200 + lam * (st.mean / st.var)) / (1 / sig200 + lam * (1 / st.var)),
        Real.sqrt (meanVar sig200 lam st)) := by
  simp [nigMeanParams, meanVar]

/-- Prior of the mean times density of a value: marginal density of the value times conditional
density of the mean. -/
theorem mean_joint (hs : 0 < sig200) (hl : 0 < lam) {st : UniLS} (hv : 0 < st.var) (m : ℝ) :
    normalLpdf m mu00 (Real.sqrt sig200) + nigLpdf ⟨m, lam, sh, sc⟩ st =
      (normalLpdf 0 mu00 (Real.sqrt sig200) + nigLpdf ⟨0, lam, sh, sc⟩ st -
        normalLpdf 0 (nigMeanParams mu00 sig200 lam [st]).1 (nigMeanParams mu00 sig200 lam [st]).2) +
      normalLpdf m (nigMeanParams mu00 sig200 lam [st]).1 (nigMeanParams mu00 sig200 lam [st]).2 := by
  have h1 := nig_mean_diff mu00 sig200 hs ⟨0, lam, sh, sc⟩ hl [st] (by simpa using hv) m 0
  have h2 := normal_diff m 0 ((mu00 / sig200 + lam * (st.mean / st.var)) /
    (1 / sig200 + lam * (1 / st.var))) (meanVar sig200 lam st) (meanVar_pos hs hl hv)
  simp only [List.map_cons, List.map_nil, List.sum_cons, List.sum_nil, add_zero] at h1
  rw [meanParams_one]
  simp only
  have hP : 0 < 1 / sig200 + lam * (1 / st.var) := by positivity
  have e : (meanVar sig200 lam st)⁻¹ = 1 / sig200 + lam * (1 / st.var) := by
    rw [meanVar, one_div, inv_inv]
  rw [e, mul_div_cancel₀ _ hP.ne'] at h2
  linarith

theorem measurable_nigLpdf_mean (lam sh sc : ℝ) :
    Measurable fun x : ℝ × (ℝ × ℝ) => nigLpdf ⟨x.1, lam, sh, sc⟩ ⟨x.2.1, x.2.2⟩ :=
  (measurable_normalLpdf (by fun_prop) (by fun_prop) (by fun_prop)).add
    (measurable_invGammaLpdf (by fun_prop) _ _)

/-- Marginal density of a value, the mean of the base measure integrated out. -/
noncomputable def margDens (mu00 sig200 lam sh sc : ℝ) (p : ℝ × ℝ) : ℝ≥0∞ :=
  ∫⁻ m, ENNReal.ofReal (Real.exp (nigLpdf ⟨m, lam, sh, sc⟩ ⟨p.1, p.2⟩))
    ∂normalLaw mu00 (Real.sqrt sig200)

theorem measurable_nigDens (lam sh sc : ℝ) : Measurable fun x : ℝ × (ℝ × ℝ) =>
    ENNReal.ofReal (Real.exp (nigLpdf ⟨x.1, lam, sh, sc⟩ ⟨x.2.1, x.2.2⟩)) :=
  ENNReal.measurable_ofReal.comp (Real.measurable_exp.comp (measurable_nigLpdf_mean lam sh sc))

theorem measurable_margDens (hs : 0 < sig200) : Measurable (margDens mu00 sig200 lam sh sc) := by
  have := normalLaw_prob mu00 hs
  exact (measurable_nigDens lam sh sc).lintegral_prod_left'

theorem mean_disintegrate (hs : 0 < sig200) (hl : 0 < lam) {p : ℝ × ℝ} (hv : 0 < p.2)
    {f : ℝ → ℝ≥0∞} (hf : Measurable f) :
    ∫⁻ m, ENNReal.ofReal (Real.exp (nigLpdf ⟨m, lam, sh, sc⟩ ⟨p.1, p.2⟩)) * f m
      ∂normalLaw mu00 (Real.sqrt sig200) = margDens mu00 sig200 lam sh sc p *
        ∫⁻ m, f m ∂normalLaw (nigMeanParams mu00 sig200 lam [⟨p.1, p.2⟩]).1
          (nigMeanParams mu00 sig200 lam [⟨p.1, p.2⟩]).2 ∧
    0 < margDens mu00 sig200 lam sh sc p := by
  obtain ⟨M, hM⟩ : ∃ M : ℝ, M = normalLpdf 0 mu00 (Real.sqrt sig200) +
      nigLpdf ⟨0, lam, sh, sc⟩ ⟨p.1, p.2⟩ - normalLpdf 0
        (nigMeanParams mu00 sig200 lam [⟨p.1, p.2⟩]).1
        (nigMeanParams mu00 sig200 lam [⟨p.1, p.2⟩]).2 := ⟨_, rfl⟩
  have hd : Measurable fun m : ℝ => ENNReal.ofReal (Real.exp (nigLpdf ⟨m, lam, sh, sc⟩ ⟨p.1, p.2⟩)) :=
    (measurable_nigDens lam sh sc).comp
      (f := fun m : ℝ => (m, p)) (measurable_id.prodMk measurable_const)
  have key : ∀ g : ℝ → ℝ≥0∞, Measurable g →
      ∫⁻ m, ENNReal.ofReal (Real.exp (nigLpdf ⟨m, lam, sh, sc⟩ ⟨p.1, p.2⟩)) * g m
        ∂normalLaw mu00 (Real.sqrt sig200) = ENNReal.ofReal (Real.exp M) *
          ∫⁻ m, g m ∂normalLaw (nigMeanParams mu00 sig200 lam [⟨p.1, p.2⟩]).1
            (nigMeanParams mu00 sig200 lam [⟨p.1, p.2⟩]).2 := by
    intro g hg
    have hdg : Measurable fun m : ℝ =>
        ENNReal.ofReal (Real.exp (nigLpdf ⟨m, lam, sh, sc⟩ ⟨p.1, p.2⟩)) * g m := hd.mul hg
    have hng : Measurable fun m : ℝ => ENNReal.ofReal (Real.exp (normalLpdf m
        (nigMeanParams mu00 sig200 lam [⟨p.1, p.2⟩]).1
        (nigMeanParams mu00 sig200 lam [⟨p.1, p.2⟩]).2)) * g m :=
      (ENNReal.measurable_ofReal.comp (Real.measurable_exp.comp
        (measurable_normalLpdf measurable_id measurable_const measurable_const))).mul hg
    rw [lintegral_normalLaw _ _ hdg, lintegral_normalLaw _ _ hg, ← lintegral_const_mul _ hng]
    refine lintegral_congr fun m => ?_
    rw [← mul_assoc, ← mul_assoc, ← ENNReal.ofReal_mul (Real.exp_pos _).le,
      ← ENNReal.ofReal_mul (Real.exp_pos _).le, ← Real.exp_add, ← Real.exp_add,
      mean_joint hs hl (st := ⟨p.1, p.2⟩) hv m, ← hM]
  have hprob : IsProbabilityMeasure (normalLaw (nigMeanParams mu00 sig200 lam [⟨p.1, p.2⟩]).1
      (nigMeanParams mu00 sig200 lam [⟨p.1, p.2⟩]).2) := by
    rw [meanParams_one]
    exact normalLaw_prob _ (meanVar_pos hs hl (st := ⟨p.1, p.2⟩) hv)
  have hmarg : margDens mu00 sig200 lam sh sc p = ENNReal.ofReal (Real.exp M) := by
    have := key (fun _ => 1) measurable_const
    rw [lintegral_const, measure_univ, mul_one, mul_one] at this
    rw [margDens, ← this]
    exact lintegral_congr fun m => (mul_one _).symm
  rw [hmarg]
  exact ⟨key f hf, ENNReal.ofReal_pos.mpr (Real.exp_pos _)⟩

/-- Mean of `exp(-m)` after the hyperparameters are drawn given one value. -/
noncomputable def redrawn (mu00 sig200 lam : ℝ) (st : UniLS) : ℝ≥0∞ :=
  ∫⁻ m, ENNReal.ofReal (Real.exp (-m)) ∂normalLaw (nigMeanParams mu00 sig200 lam [st]).1
    (nigMeanParams mu00 sig200 lam [st]).2

theorem measurable_redrawn (mu00 sig200 lam : ℝ) : Measurable (redrawn mu00 sig200 lam) := by
  have h1 := measurable_mean
  have h2 := measurable_var
  have hm : Measurable fun m : ℝ => ENNReal.ofReal (Real.exp (-m)) := by fun_prop
  have e : redrawn mu00 sig200 lam = fun st => ∫⁻ m, ENNReal.ofReal (Real.exp (normalLpdf m
      ((mu00 / sig200 + lam * (st.mean / st.var)) / (1 / sig200 + lam * (1 / st.var)))
      (Real.sqrt (1 / (1 / sig200 + lam * (1 / st.var)))))) * ENNReal.ofReal (Real.exp (-m)) := by
    funext st
    rw [redrawn, lintegral_normalLaw _ _ hm, meanParams_one]
    rfl
  rw [e]
  have h3 : Measurable fun x : UniLS × ℝ => ENNReal.ofReal (Real.exp (normalLpdf x.2
      ((mu00 / sig200 + lam * (x.1.mean / x.1.var)) / (1 / sig200 + lam * (1 / x.1.var)))
      (Real.sqrt (1 / (1 / sig200 + lam * (1 / x.1.var)))))) * ENNReal.ofReal (Real.exp (-x.2)) := by
    refine (ENNReal.measurable_ofReal.comp (Real.measurable_exp.comp
      (measurable_normalLpdf measurable_snd ?_ ?_))).mul (by fun_prop)
    · fun_prop
    · fun_prop
  exact h3.lintegral_prod_right'

/-- The discrepancy: value drawn given the mean `m`, mean redrawn given the value. -/
theorem redraw_gt (hs : 0 < sig200) (hl : 0 < lam) (ha : 0 < sh) (hb : 0 < sc) :
    1 < ∫⁻ m, ENNReal.ofReal (Real.exp m) * ∫⁻ st, redrawn mu00 sig200 lam st
      ∂(nigLaw ⟨m, lam, sh, sc⟩) ∂normalLaw mu00 (Real.sqrt sig200) := by
  have hN := normalLaw_prob mu00 hs
  have hsf : SFinite lsVol := by unfold lsVol; infer_instance
  have hR := measurable_redrawn mu00 sig200 lam
  have hRp : Measurable fun p : ℝ × ℝ => redrawn mu00 sig200 lam ⟨p.1, p.2⟩ := hR.comp measurable_mk
  have hswap : ∀ (f : ℝ → ℝ≥0∞) (g : ℝ × ℝ → ℝ≥0∞), Measurable f → Measurable g →
      ∫⁻ m, f m * ∫⁻ p, ENNReal.ofReal (Real.exp (nigLpdf ⟨m, lam, sh, sc⟩ ⟨p.1, p.2⟩)) * g p ∂lsVol
        ∂normalLaw mu00 (Real.sqrt sig200) = ∫⁻ p, g p * (margDens mu00 sig200 lam sh sc p *
          ∫⁻ m, f m ∂normalLaw (nigMeanParams mu00 sig200 lam [⟨p.1, p.2⟩]).1
            (nigMeanParams mu00 sig200 lam [⟨p.1, p.2⟩]).2) ∂lsVol := by
    intro f g hf hg
    have hd := measurable_nigDens lam sh sc
    have h1 : ∀ m, f m * ∫⁻ p, ENNReal.ofReal (Real.exp (nigLpdf ⟨m, lam, sh, sc⟩ ⟨p.1, p.2⟩)) * g p
        ∂lsVol = ∫⁻ p, g p * (ENNReal.ofReal (Real.exp (nigLpdf ⟨m, lam, sh, sc⟩ ⟨p.1, p.2⟩)) * f m)
          ∂lsVol := by
      intro m
      have hm : Measurable fun p : ℝ × ℝ =>
          ENNReal.ofReal (Real.exp (nigLpdf ⟨m, lam, sh, sc⟩ ⟨p.1, p.2⟩)) * g p :=
        (hd.comp (measurable_const.prodMk measurable_id)).mul hg
      rw [← lintegral_const_mul _ hm]
      refine lintegral_congr fun p => ?_
      ring
    have hj : Measurable (Function.uncurry fun (m : ℝ) (p : ℝ × ℝ) => g p *
        (ENNReal.ofReal (Real.exp (nigLpdf ⟨m, lam, sh, sc⟩ ⟨p.1, p.2⟩)) * f m)) :=
      (hg.comp measurable_snd).mul (hd.mul (hf.comp measurable_fst))
    rw [lintegral_congr h1, lintegral_lintegral_swap hj.aemeasurable]
    refine lintegral_congr_ae ?_
    filter_upwards [lsVol_ae] with p hp
    have hm : Measurable fun m : ℝ =>
        ENNReal.ofReal (Real.exp (nigLpdf ⟨m, lam, sh, sc⟩ ⟨p.1, p.2⟩)) * f m :=
      (hd.comp (measurable_id.prodMk measurable_const)).mul hf
    rw [lintegral_const_mul _ hm, (mean_disintegrate hs hl hp hf).1]
  have hone : ∫⁻ p, margDens mu00 sig200 lam sh sc p ∂lsVol = 1 := by
    have h1 := hswap (fun _ => 1) (fun _ => 1) measurable_const measurable_const
    have h2 : ∀ m : ℝ, (1 : ℝ≥0∞) * ∫⁻ p, ENNReal.ofReal
        (Real.exp (nigLpdf ⟨m, lam, sh, sc⟩ ⟨p.1, p.2⟩)) * 1 ∂lsVol = 1 := by
      intro m
      have := nigLaw_prob ⟨m, lam, sh, sc⟩ hl ha hb
      rw [one_mul, ← lintegral_nigLaw_pair ⟨m, lam, sh, sc⟩ (f := fun _ => 1) measurable_const,
        lintegral_const, measure_univ, mul_one]
    rw [lintegral_congr h2, lintegral_const, measure_univ, mul_one] at h1
    rw [h1]
    refine lintegral_congr_ae ?_
    filter_upwards [lsVol_ae] with p hp
    have := normalLaw_prob ((mu00 / sig200 + lam * (p.1 / p.2)) / (1 / sig200 + lam * (1 / p.2)))
      (meanVar_pos hs hl (st := ⟨p.1, p.2⟩) hp)
    rw [meanParams_one, lintegral_const, measure_univ, mul_one, one_mul, mul_one]
  have e1 : ∀ m : ℝ, ENNReal.ofReal (Real.exp m) * ∫⁻ st, redrawn mu00 sig200 lam st
      ∂(nigLaw ⟨m, lam, sh, sc⟩) = ENNReal.ofReal (Real.exp m) *
        ∫⁻ p, ENNReal.ofReal (Real.exp (nigLpdf ⟨m, lam, sh, sc⟩ ⟨p.1, p.2⟩)) *
          redrawn mu00 sig200 lam ⟨p.1, p.2⟩ ∂lsVol := fun m => by
    rw [lintegral_nigLaw_pair _ hR]
  rw [lintegral_congr e1, hswap _ _ (by fun_prop) hRp, ← hone]
  have heq : ∀ᵐ p ∂lsVol, redrawn mu00 sig200 lam ⟨p.1, p.2⟩ * (margDens mu00 sig200 lam sh sc p *
        ∫⁻ m, ENNReal.ofReal (Real.exp m) ∂normalLaw (nigMeanParams mu00 sig200 lam [⟨p.1, p.2⟩]).1
          (nigMeanParams mu00 sig200 lam [⟨p.1, p.2⟩]).2) = margDens mu00 sig200 lam sh sc p *
        ENNReal.ofReal (Real.exp (meanVar sig200 lam ⟨p.1, p.2⟩)) := by
    filter_upwards [lsVol_ae] with p hp
    have hw := meanVar_pos hs hl (st := ⟨p.1, p.2⟩) hp
    rw [mul_left_comm]
    congr 1
    rw [redrawn, meanParams_one]
    simp only
    obtain ⟨loc, hloc⟩ : ∃ loc, loc = (mu00 / sig200 + lam * (p.1 / p.2)) /
      (1 / sig200 + lam * (1 / p.2)) := ⟨_, rfl⟩
    rw [← hloc]
    have a1 := normalLaw_exp loc (-1) hw
    have a2 := normalLaw_exp loc 1 hw
    simp only [neg_mul, one_mul] at a1 a2
    rw [a1, a2, ← ENNReal.ofReal_mul (Real.exp_pos _).le, ← Real.exp_add]
    congr 2
    ring
  rw [lintegral_congr_ae heq]
  have hgt : ∀ᵐ p ∂lsVol, margDens mu00 sig200 lam sh sc p <
      margDens mu00 sig200 lam sh sc p *
        ENNReal.ofReal (Real.exp (meanVar sig200 lam ⟨p.1, p.2⟩)) := by
    have hfin := ae_lt_top (measurable_margDens (mu00 := mu00) (lam := lam) (sh := sh) (sc := sc) hs)
      (show ∫⁻ p, margDens mu00 sig200 lam sh sc p ∂lsVol ≠ ∞ by rw [hone]; exact one_ne_top)
    filter_upwards [lsVol_ae, hfin] with p hp hpf
    have hw := meanVar_pos hs hl (st := ⟨p.1, p.2⟩) hp
    have hpos := (mean_disintegrate (mu00 := mu00) (sh := sh) (sc := sc) hs hl hp
      (f := fun _ => 1) measurable_const).2
    have h1 : (1 : ℝ≥0∞) < ENNReal.ofReal (Real.exp (meanVar sig200 lam ⟨p.1, p.2⟩)) := by
      rw [← ENNReal.ofReal_one]
      exact ENNReal.ofReal_lt_ofReal_iff (Real.exp_pos _) |>.mpr (Real.one_lt_exp_iff.mpr hw)
    calc margDens mu00 sig200 lam sh sc p = margDens mu00 sig200 lam sh sc p * 1 := (mul_one _).symm
      _ < _ := (ENNReal.mul_lt_mul_iff_right hpos.ne' hpf.ne).mpr h1
  have hmm : Measurable fun p : ℝ × ℝ => margDens mu00 sig200 lam sh sc p *
      ENNReal.ofReal (Real.exp (meanVar sig200 lam ⟨p.1, p.2⟩)) := by
    refine (measurable_margDens hs).mul ?_
    unfold meanVar
    fun_prop
  exact lintegral_strict_mono lsVol_ne hmm.aemeasurable (by rw [hone]; exact one_ne_top) hgt

end mean

end Bayesmix.Cond
