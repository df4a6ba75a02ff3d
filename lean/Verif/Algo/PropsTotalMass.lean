import Verif.Algo.PropsNeal2Chain
import Verif.Algo.TotalMass

/-!
# C139: the total mass of a Dirichlet process with a gamma prior follows its full conditional
-/

namespace Bayesmix.Chain
open Bayesmix Gibbs SplitMerge Mixing MeasureTheory ENNReal Set

/-- The update keeps the full conditional of the total mass given the labels `al`: its gamma prior times
the probability of the labels under a Dirichlet process with that total mass. -/
def KeepsTotalMass {Z W : Type} [MeasurableSpace Z] [MeasurableSpace W] (phi : Z → ℝ → ℝ → ℝ)
    (ζ : Measure Z) (gen : W → ℝ → ℝ → ℝ) (ω : Measure W) (a b : ℝ) (al : List ℕ) : Prop :=
  ∀ (l : ℝ) (g : DPState → ℝ≥0∞), (Measurable fun x => g ⟨x, l⟩) →
    ∫⁻ x, massMean phi ζ gen ω a b al.length al.toFinset.card g ⟨x, l⟩ * ENNReal.ofReal (dpPrior x al)
        ∂ProbabilityTheory.gammaMeasure a b =
      ∫⁻ x, g ⟨x, l⟩ * ENNReal.ofReal (dpPrior x al) ∂ProbabilityTheory.gammaMeasure a b

/-- **C139, part.** With an auxiliary variable from the Beta distribution with the two parameters of the
call, the update would keep the full conditional (and not fail). The code draws it from the Gamma
distribution with these parameters. -/
theorem c139_total_mass_partial {Z W : Type} [MeasurableSpace Z] [MeasurableSpace W]
    {phi : Z → ℝ → ℝ → ℝ} {ζ : Measure Z} (hz : GenLaw ζ phi ProbabilityTheory.betaMeasure)
    {gen : W → ℝ → ℝ → ℝ} {ω : Measure W} (hw : GenLaw ω gen ProbabilityTheory.gammaMeasure)
    {a b : ℝ} {dp : DPState} (hdp : dpInit dpFresh (.gamma a b) = .ok dp) (al : List ℕ) (hal : al ≠ []) :
    KeepsTotalMass phi ζ gen ω a b al := by
  have hab : 0 < a ∧ 0 < b := by
    simp only [dpInit] at hdp
    split_ifs at hdp with h1 h2
    exact ⟨not_le.1 h1, not_le.1 h2⟩
  exact fun l g hg => mass_balance hz hw hab.1 hab.2 (List.length_pos_iff.2 hal) al rfl l hg

/-- **C139 is violated.** As the code draws the auxiliary variable, the full conditional is not kept,
whatever the prior and the labels. -/
theorem c139_total_mass_violated {Z W : Type} [MeasurableSpace Z] [MeasurableSpace W]
    {phi : Z → ℝ → ℝ → ℝ} {ζ : Measure Z} (hz : GenLaw ζ phi ProbabilityTheory.gammaMeasure)
    {gen : W → ℝ → ℝ → ℝ} {ω : Measure W} (hw : GenLaw ω gen ProbabilityTheory.gammaMeasure)
    {a b : ℝ} {dp : DPState} (hdp : dpInit dpFresh (.gamma a b) = .ok dp) (al : List ℕ)
    (hal : 2 ≤ al.length) : ¬ KeepsTotalMass phi ζ gen ω a b al := by
  have hab : 0 < a ∧ 0 < b := by
    simp only [dpInit] at hdp
    split_ifs at hdp with h1 h2
    exact ⟨not_le.1 h1, not_le.1 h2⟩
  intro h
  have hp := ProbabilityTheory.isProbabilityMeasure_gammaMeasure hab.1 hab.2
  have h0 := h 0 (fun _ => 0) measurable_const
  simp only [zero_mul, lintegral_zero] at h0
  have h1 : ∫⁻ x, massMean phi ζ gen ω a b al.length al.toFinset.card (fun _ => 0) ⟨x, 0⟩ *
      ENNReal.ofReal (dpPrior x al) ∂ProbabilityTheory.gammaMeasure a b =
      ∫⁻ _, ∞ ∂ProbabilityTheory.gammaMeasure a b := by
    refine lintegral_congr_ae ?_
    filter_upwards [ae_gammaMeasure a b] with x hx
    rw [massMean_top hz hw (by omega) _ _ (s := ⟨x, 0⟩) hx, ENNReal.top_mul]
    simpa using dpPrior_pos hx hal al rfl
  rw [h1, lintegral_const, measure_univ, mul_one] at h0
  exact ENNReal.top_ne_zero h0

/-- **C139 is violated.** Whatever an iteration does to labels, values and hyperparameters (any kernel
`κ`), the probability that the updates of the total mass do not fail in `N` iterations is at most
`(1 - exp(-n exp b))^N`: a run that is long enough ends with an exception, with probability one. -/
theorem c139_run_violated {Z W X : Type} [MeasurableSpace Z] [MeasurableSpace W] [MeasurableSpace X]
    {phi : Z → ℝ → ℝ → ℝ} {ζ : Measure Z} (hz : GenLaw ζ phi ProbabilityTheory.gammaMeasure)
    {gen : W → ℝ → ℝ → ℝ} {ω : Measure W} (hw : GenLaw ω gen ProbabilityTheory.gammaMeasure)
    {a b : ℝ} {dp : DPState} (hdp : dpInit dpFresh (.gamma a b) = .ok dp) {n : ℕ} (hn : 0 < n)
    {κ : DPState → X → Measure X} (hκ : ∀ s x, IsProbabilityMeasure (κ s x)) (cl : X → ℕ) (x : X) :
    (∀ N, massRunOk phi ζ gen ω a b n κ cl N dp x ≤
      ENNReal.ofReal ((1 - Real.exp (-(n * Real.exp b))) ^ N)) ∧
    Filter.Tendsto (fun N => massRunOk phi ζ gen ω a b n κ cl N dp x) Filter.atTop (nhds 0) := by
  have hpos : 0 < dp.totalmass := (DPRun.init hdp).pos.1
  have hn' : (0 : ℝ) < n := by exact_mod_cast hn
  have he : Real.exp (-(n * Real.exp b)) ≤ 1 :=
    Real.exp_le_one_iff.2 (by have := mul_pos hn' (Real.exp_pos b); linarith)
  have h1 : ∀ N, massRunOk phi ζ gen ω a b n κ cl N dp x ≤
      ENNReal.ofReal ((1 - Real.exp (-(n * Real.exp b))) ^ N) := by
    intro N
    rw [ENNReal.ofReal_pow (by linarith), ENNReal.ofReal_sub _ (Real.exp_pos _).le, ENNReal.ofReal_one]
    exact massRunOk_le hz hw hn hκ cl N dp x hpos
  refine ⟨h1, tendsto_of_tendsto_of_tendsto_of_le_of_le tendsto_const_nhds ?_ (fun _ => zero_le) h1⟩
  have h2 := tendsto_pow_atTop_nhds_zero_of_lt_one (r := 1 - Real.exp (-(n * Real.exp b)))
    (by linarith) (by linarith [Real.exp_pos (-(n * Real.exp b))])
  have h3 := (ENNReal.continuous_ofReal.tendsto 0).comp h2
  rwa [ENNReal.ofReal_zero] at h3

/-! ### Examples -/

open Classical in
/-- Independent seeds for all parameters. -/
noncomputable def lawSeeds (law : ℝ → ℝ → Measure ℝ) : Measure (ℝ × ℝ → ℝ) :=
  Measure.infinitePi fun p =>
    if h : IsProbabilityMeasure (law p.1 p.2) then law p.1 p.2 else Measure.dirac 0

theorem lawSeeds_genLaw {law : ℝ → ℝ → Measure ℝ}
    (h : ∀ a r, 0 < a → 0 < r → IsProbabilityMeasure (law a r)) :
    GenLaw (lawSeeds law) (fun z a r => z (a, r)) law := by
  classical
  have hp : ∀ p : ℝ × ℝ, IsProbabilityMeasure (if h : IsProbabilityMeasure (law p.1 p.2) then
      law p.1 p.2 else Measure.dirac 0) := by
    intro p
    split_ifs with h1
    · exact h1
    · infer_instance
  refine ⟨by unfold lawSeeds; infer_instance, fun a r _ _ => measurable_pi_apply _, fun a r ha hr => ?_⟩
  have := (measurePreserving_eval_infinitePi (fun p : ℝ × ℝ =>
    if h : IsProbabilityMeasure (law p.1 p.2) then law p.1 p.2 else Measure.dirac 0) (a, r)).map_eq
  rw [dif_pos (h a r ha hr)] at this
  exact this

theorem gammaSeeds : GenLaw (lawSeeds ProbabilityTheory.gammaMeasure) (fun z a r => z (a, r))
    ProbabilityTheory.gammaMeasure :=
  lawSeeds_genLaw fun _ _ => ProbabilityTheory.isProbabilityMeasure_gammaMeasure

theorem betaSeeds : GenLaw (lawSeeds ProbabilityTheory.betaMeasure) (fun z a r => z (a, r))
    ProbabilityTheory.betaMeasure :=
  lawSeeds_genLaw fun _ _ => ProbabilityTheory.isProbabilityMeasureBeta

/-- Three rows in two clusters, gamma prior with shape 4 and rate 2. -/
example : KeepsTotalMass (fun z a r => z (a, r)) (lawSeeds ProbabilityTheory.betaMeasure)
    (fun z a r => z (a, r)) (lawSeeds ProbabilityTheory.gammaMeasure) 4 2 [0, 0, 1] :=
  c139_total_mass_partial betaSeeds gammaSeeds (dp := ⟨2, 0⟩)
    (by norm_num [dpInit, dpFresh]) _ (by simp)

example : ¬ KeepsTotalMass (fun z a r => z (a, r)) (lawSeeds ProbabilityTheory.gammaMeasure)
    (fun z a r => z (a, r)) (lawSeeds ProbabilityTheory.gammaMeasure) 4 2 [0, 0, 1] :=
  c139_total_mass_violated gammaSeeds gammaSeeds (dp := ⟨2, 0⟩)
    (by norm_num [dpInit, dpFresh]) _ (by simp)

/-- One row in one cluster. -/
example : Filter.Tendsto (fun N => massRunOk (fun z a r => z (a, r))
    (lawSeeds ProbabilityTheory.gammaMeasure) (fun z a r => z (a, r))
    (lawSeeds ProbabilityTheory.gammaMeasure) 4 2 1 (fun _ _ => Measure.dirac ()) (fun _ => 1) N ⟨2, 0⟩ ())
    Filter.atTop (nhds 0) :=
  (c139_run_violated gammaSeeds gammaSeeds (by norm_num [dpInit, dpFresh]) one_pos
    (fun _ _ => inferInstance) _ _).2

end Bayesmix.Chain
