import Verif.Hier.MetropolisState
import Verif.Hier.PropsStats
import Verif.Hier.Checks

/-!
# C43 for the univariate hierarchies, and C145: priors on the unconstrained scale
-/

namespace Bayesmix.Hierarchies

open Real MeasureTheory ENNReal ProbabilityTheory

variable {S P : Type}

theorem stateLaw_ne_zero {f : UniLS → ℝ} (hf : Measurable f) : stateLaw f Set.univ ≠ 0 := by
  have hm : Measurable fun x : Fin 2 → ℝ => f (uniState x) + x 1 :=
    (hf.comp uniState_meas).add (measurable_pi_apply 1)
  rw [stateLaw_univ hf]
  unfold logDensity
  rw [withDensity_apply _ MeasurableSet.univ, Measure.restrict_univ]
  intro h
  have hm' : Measurable fun x : Fin 2 → ℝ => ENNReal.ofReal (exp (f (uniState x) + x 1)) :=
    (measurable_exp.comp hm).ennreal_ofReal
  rw [lintegral_eq_zero_iff hm'] at h
  have h2 : ∀ᵐ x : Fin 2 → ℝ, False := by
    filter_upwards [h] with x hx
    exact (ENNReal.ofReal_pos.mpr (exp_pos _)).ne' hx
  rw [Filter.eventually_false_iff_eq_bot, ae_eq_bot] at h2
  exact NeZero.ne _ h2

theorem measurable_laplaceLpdf (y : ℝ) : Measurable fun s : UniLS => laplaceLpdf s y := by
  unfold laplaceLpdf doubleExponentialLpdf
  have h1 := measurable_mean
  have h2 := measurable_var
  have h3 : Measurable fun s : UniLS => sqrt (s.var / 2.0) := (h2.div_const _).sqrt
  have h4 : Measurable fun s : UniLS => |y - s.mean| :=
    continuous_abs.measurable.comp (measurable_const.sub h1)
  exact (measurable_const.sub (Real.measurable_log.comp h3)).sub (h4.div h3)

theorem measurable_nxigLpdf (h : NxIG) : Measurable (nxigLpdf h) :=
  (measurable_normalLpdf measurable_mean measurable_const measurable_const).add
    (measurable_invGammaLpdf measurable_var _ _)

theorem measurable_nigLpdf' (h : NIG) : Measurable (nigLpdf h) :=
  (measurable_nigLpdf h).comp measurable_pair

theorem laplaceLpdf_le (st : UniLS) (hv : 0 < st.var) (y : ℝ) :
    laplaceLpdf st y ≤ -log 2 + 1 / 2 * log 2 - 1 / 2 * log st.var := by
  unfold laplaceLpdf doubleExponentialLpdf
  have h1 : (0 : ℝ) < st.var / 2 := by positivity
  have e : (2.0 : ℝ) = 2 := by norm_num
  rw [e, log_sqrt h1.le, log_div hv.ne' two_ne_zero]
  have : 0 ≤ |y - st.mean| / sqrt (st.var / 2) := by positivity
  linarith

theorem uniNormLpdf_le (st : UniLS) (hv : 0 < st.var) (y : ℝ) :
    uniNormLpdf st y ≤ 0 - 1 / 2 * log st.var := by
  unfold uniNormLpdf normalLpdf
  rw [log_sqrt hv.le]
  have h2 : 0 ≤ Real.log (2 * π) := Real.log_nonneg (by linarith [Real.two_le_pi])
  nlinarith [sq_nonneg ((y - st.mean) / sqrt st.var)]

/-- **C43, violated: Laplace hierarchy.** For every cluster, every accepted prior and every positive
step, likelihood times prior is a law of the mean and the variance (its mass is finite and not zero),
and it is not kept by the random walk. -/
theorem c43_laplace_violated (p : NxIGPrior) (h : NxIG) (hp : nxigInit p = .ok h) (data : ℤ → ℝ)
    (c : Cluster S P) (step : ℝ) (hs : 0 < step) :
    stateLaw (fun st => (∑ i ∈ c.idx, laplaceLpdf st (data i)) + nxigLpdf h st) Set.univ ≠ 0 ∧
    stateLaw (fun st => (∑ i ∈ c.idx, laplaceLpdf st (data i)) + nxigLpdf h st) Set.univ ≠ ∞ ∧
    ¬ StateKeeps (fun x => laplaceClusterLpdf data c (x 0) (x 1)) (randomWalk 2 step)
      (stateLaw fun st => (∑ i ∈ c.idx, laplaceLpdf st (data i)) + nxigLpdf h st) := by
  obtain ⟨hv, ha, hb⟩ : 0 < h.var ∧ 0 < h.shape ∧ 0 < h.scale := by
    cases p with
    | unset => cases hp
    | fixed m v a b =>
      simp only [nxigInit] at hp
      split_ifs at hp with h1 h2 h3
      rw [← Except.ok.inj hp]
      exact ⟨not_le.mp h1, not_le.mp h2, not_le.mp h3⟩
  have hlm : Measurable fun st : UniLS => ∑ i ∈ c.idx, laplaceLpdf st (data i) :=
    Finset.measurable_sum _ fun i _ => measurable_laplaceLpdf _
  have hpm := measurable_nxigLpdf h
  have hfin : stateLaw (fun st => (∑ i ∈ c.idx, laplaceLpdf st (data i)) + nxigLpdf h st)
      Set.univ ≠ ∞ := by
    refine stateLaw_finite hlm hpm (c.idx.card * (-log 2 + 1 / 2 * log 2)) (c.idx.card * (1 / 2))
      h.mean h.shape h.scale (fun _ => h.var) (by positivity) ha hb (fun _ _ => hv) ?_
      (fun st => rfl)
    intro st hst
    refine (Finset.sum_le_card_nsmul _ _ _ fun i _ => laplaceLpdf_le st hst (data i)).trans ?_
    rw [nsmul_eq_mul]
    linarith
  have hpr : stateLaw (nxigLpdf h) Set.univ ≠ ∞ := by
    have := stateLaw_finite (like := fun _ => 0) measurable_const hpm 0 0 h.mean h.shape h.scale
      (fun _ => h.var) le_rfl ha hb (fun _ _ => hv) (fun st _ => by simp) (fun st => rfl)
    simpa using this
  exact ⟨stateLaw_ne_zero (hlm.add hpm), hfin,
    uni_not_kept (gaussProp_randomWalk hs) measurable_id hlm hpm
      (fun x => c44_cluster_lpdf_laplace data c _ _) hpr hfin⟩

/-- **C43, violated: normal likelihood and normal-inverse-Gamma prior.** For every cluster built by
adding and removing data, every accepted prior and every positive step, likelihood times prior is a
law of the mean and the variance, and neither the random walk nor the Langevin updater keeps it,
whatever the values of the gradient. -/
theorem c43_nnig_violated (p : NIGPrior) (h : NIG) (hp : nigInit p = .ok h) (data : ℤ → ℝ)
    (c0 c : Cluster UniNormStats P) (ops : List DataOp)
    (hc : runOps uniNormUpd data (clearAll uniNormZero c0) ops = .ok c)
    (grad : (Fin 2 → ℝ) → Fin 2 → ℝ) (hg : Measurable grad) (step : ℝ) (hs : 0 < step)
    (q : Proposal 2) (hq : q = randomWalk 2 step ∨ q = nnigMala c h grad step) :
    stateLaw (fun st => (∑ i ∈ c.idx, uniNormLpdf st (data i)) + nigLpdf h st) Set.univ ≠ 0 ∧
    stateLaw (fun st => (∑ i ∈ c.idx, uniNormLpdf st (data i)) + nigLpdf h st) Set.univ ≠ ∞ ∧
    ¬ StateKeeps (fun x => uniNormClusterLpdf c (x 0) (x 1)) q
      (stateLaw fun st => (∑ i ∈ c.idx, uniNormLpdf st (data i)) + nigLpdf h st) := by
  obtain ⟨hv, ha, hb⟩ : 0 < h.varScaling ∧ 0 < h.shape ∧ 0 < h.scale := by
    cases p with
    | unset => cases hp
    | fixed m l a b =>
      simp only [nigInit] at hp
      split_ifs at hp with h1 h2 h3
      rw [← Except.ok.inj hp]
      exact ⟨not_le.mp h1, not_le.mp h2, not_le.mp h3⟩
    | normalMean m v l a b =>
      simp only [nigInit] at hp
      split_ifs at hp with h1 h2 h3
      rw [← Except.ok.inj hp]
      exact ⟨not_le.mp h1, not_le.mp h2, not_le.mp h3⟩
    | ngg m v al be a b sh =>
      simp only [nigInit] at hp
      split_ifs at hp with h1 h2 h3 h4 h5 h6
      rw [← Except.ok.inj hp]
      exact ⟨div_pos (not_le.mp h2) (not_le.mp h3), not_le.mp h6,
        div_pos (not_le.mp h4) (not_le.mp h5)⟩
  have hlm : Measurable fun st : UniLS => ∑ i ∈ c.idx, uniNormLpdf st (data i) :=
    Finset.measurable_sum _ fun i _ => measurable_uniNormLpdf _
  have hpm := measurable_nigLpdf' h
  have hw : ∀ v : ℝ, 0 < v → 0 < v / h.varScaling := fun v hv' => div_pos hv' hv
  have hfin : stateLaw (fun st => (∑ i ∈ c.idx, uniNormLpdf st (data i)) + nigLpdf h st)
      Set.univ ≠ ∞ := by
    refine stateLaw_finite hlm hpm 0 (c.idx.card * (1 / 2))
      h.mean h.shape h.scale (fun v => v / h.varScaling) (by positivity) ha hb hw ?_
      (fun st => rfl)
    intro st hst
    refine (Finset.sum_le_card_nsmul _ _ _ fun i _ => uniNormLpdf_le st hst (data i)).trans ?_
    rw [nsmul_eq_mul]
    linarith
  have hpr : stateLaw (nigLpdf h) Set.univ ≠ ∞ := by
    have := stateLaw_finite (like := fun _ => 0) measurable_const hpm 0 0 h.mean h.shape h.scale
      (fun v => v / h.varScaling) le_rfl ha hb hw (fun st _ => by simp) (fun st => rfl)
    simpa using this
  have hcl : ∀ x : Fin 2 → ℝ, uniNormClusterLpdf c (x 0) (x 1) =
      ∑ i ∈ c.idx, uniNormLpdf (uniState x) (data i) :=
    fun x => c44_cluster_lpdf data c0 c ops hc _ _
  refine ⟨stateLaw_ne_zero (hlm.add hpm), hfin, ?_⟩
  rcases hq with rfl | rfl
  · exact uni_not_kept (gaussProp_randomWalk hs) measurable_id hlm hpm hcl hpr hfin
  · rw [c76_positive_step_partial.2]
    exact uni_not_kept (gaussProp_mala hs grad) (measurable_id.add (hg.const_smul step)) hlm hpm
      hcl hpr hfin

/-- **C145.** If the state has the law of the normal-inverse-Gamma prior, then its unconstrained
coordinates have the log density that the prior model reports for unconstrained parameters. -/
theorem c145_nig (h : NIG) (U : UniLS → Fin 2 → ℝ)
    (hU : ∀ st, uniLSGetUnconstrained st = .ok (List.ofFn (U st))) :
    ∃ f : (Fin 2 → ℝ) → ℝ, (∀ x, nigLpdfFromUnconstrained h x = .ok (f x)) ∧
      (nigLaw h).map U = logDensity f := by
  have e : U = uniUncon := by
    funext st
    apply List.ofFn_injective
    have h1 : uniLSGetUnconstrained st = .ok (List.ofFn (uniUncon st)) := rfl
    exact Except.ok.inj ((hU st).symm.trans h1)
  subst e
  refine ⟨fun x => nigLpdf h (uniState x) + x 1, fun x => ?_, ?_⟩
  · simp only [nigLpdfFromUnconstrained, log_exp, uniState]
  · ext B hB
    rw [Measure.map_apply uniUncon_meas hB]
    have hf := measurable_nigLpdf' h
    change stateLaw (nigLpdf h) (uniUncon ⁻¹' B) = _
    rw [← lintegral_indicator_one (uniUncon_meas hB), lintegral_stateLaw_uncon hf
      (measurable_one.indicator (uniUncon_meas hB)), ← lintegral_indicator_one hB]
    refine lintegral_congr fun x => ?_
    by_cases hx : x ∈ B
    · rw [Set.indicator_of_mem hx, Set.indicator_of_mem (by simpa [uniUncon_state] using hx)]
      rfl
    · rw [Set.indicator_of_notMem hx, Set.indicator_of_notMem (by simpa [uniUncon_state] using hx)]

/-- **C145, violated.** The prior model of the Laplace hierarchy reports no log density for
unconstrained parameters: every call throws. -/
theorem c145_nxig_violated (h : NxIG) (x : Fin 2 → ℝ) :
    ¬ ∃ a, nxigLpdfFromUnconstrained h x = .ok a := by
  rintro ⟨a, ha⟩
  cases ha

/-! ### Examples -/

example : ¬ StateKeeps (fun x => laplaceClusterLpdf (fun i => (i : ℝ))
      (⟨2, 0, {5, 9}, (), ()⟩ : Cluster Unit Unit) (x 0) (x 1)) (randomWalk 2 (1 / 10))
    (stateLaw fun st => (∑ i ∈ ({5, 9} : Finset ℤ), laplaceLpdf st (i : ℝ)) +
      nxigLpdf ⟨0, 1, 2, 3⟩ st) :=
  (c43_laplace_violated (.fixed 0 1 2 3) _ (by norm_num [nxigInit]) _ _ _ (by norm_num)).2.2

example : ∃ c : Cluster UniNormStats Unit, c.idx = {5, 9} ∧
    ¬ StateKeeps (fun x => uniNormClusterLpdf c (x 0) (x 1))
      (nnigMala c ⟨0, 1, 2, 3⟩ (fun x => -x) (1 / 10))
      (stateLaw fun st => (∑ i ∈ ({5, 9} : Finset ℤ), uniNormLpdf st (i : ℝ)) +
        nigLpdf ⟨0, 1, 2, 3⟩ st) := by
  obtain ⟨c, hc, hi⟩ := exOps_run uniNormUpd (fun i => (i : ℝ)) uniNormZero (exCluster ⟨1, 2⟩)
  refine ⟨c, hi, ?_⟩
  have := (c43_nnig_violated (.fixed 0 1 2 3) ⟨0, 1, 2, 3⟩ (by norm_num [nigInit]) _ _ c exOps hc
    (fun x => -x) measurable_id.neg (1 / 10) (by norm_num) _ (.inr rfl)).2.2
  rwa [hi] at this

example : ∃ f : (Fin 2 → ℝ) → ℝ, (∀ x, nigLpdfFromUnconstrained ⟨0, 1, 2, 3⟩ x = .ok (f x)) ∧
    (nigLaw ⟨0, 1, 2, 3⟩).map (fun st => ![st.mean, log st.var]) = logDensity f :=
  c145_nig _ _ fun _ => rfl

example : ¬ ∃ a, nxigLpdfFromUnconstrained ⟨0, 1, 2, 3⟩ ![1, 0] = .ok a := c145_nxig_violated _ _

end Bayesmix.Hierarchies
