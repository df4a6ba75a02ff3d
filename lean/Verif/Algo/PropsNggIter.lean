import Verif.Algo.PropsHyperLaw

/-!
# C154: with the Normal-Gamma-Gamma hyperprior an iteration does not keep the joint posterior
-/

namespace Bayesmix.Chain
open Bayesmix Cond Gibbs SplitMerge Slice Mixing Hierarchies MeasureTheory ENNReal ProbabilityTheory

/-- The joint posterior of the hyperparameters, the partition and the values, up to its normalizing
constant: hyperparameters from their prior, independent values of the blocks given them, the rows
given the values. -/
noncomputable def hyperPosterior {n : ℕ} (y : ℕ → ℝ) (prior : List ℕ → ℝ) (hp : NIGPrior)
    (φ : NIG → Setoid (Fin n) → (Fin n → UniLS) → ℝ≥0∞) : ℝ≥0∞ :=
  hyperPriorMean hp fun h =>
    partPost (weight prior) (fun st i => uniNormLpdf st (y i)) (nigLaw h) (φ h)

/-- `NIGPriorModel::update_hypers` (`src/hierarchies/priors/nig_prior_model.cc` 99-162) with the noise
`z`; the hyperparameters stay as they are where a generator throws. -/
noncomputable def nigUp {Z W : Type} (hp : NIGPrior) (gen : Z → ℝ → ℝ → ℝ) (gam : W → ℝ → ℝ → ℝ)
    (z : Z × W × W) (h : NIG) (v : List UniLS) : NIG :=
  match nigUpdateHypers hp h v (gen z.1) (gam z.2.1) (gam z.2.2) with
  | .ok h' => h'
  | .error _ => h

/-- The Normal - Normal-inverse-Gamma hierarchy with a prior on its hyperparameters. -/
noncomputable def nigHyperEnv {Z W : Type} (y : ℕ → ℝ) (draw : NIG → ℕ → UniLS) (hp : NIGPrior)
    (gen : Z → ℝ → ℝ → ℝ) (gam : W → ℝ → ℝ → ℝ) (z : Z × W × W) : Env (ℝ × ℝ) NIG UniLS :=
  nnigEnv y draw fun h l _ => nigUp hp gen gam z h (l.map Prod.fst)

/-- The mean of `g` after an iteration of Neal2 (`src/algorithms/base_algorithm.h` 179-184):
allocations and unique values, then the hyperparameters. The mixing is not updated. -/
noncomputable def neal2HyperIter {Z W : Type} [MeasurableSpace Z] [MeasurableSpace W] (y : ℕ → ℝ)
    (draw : NIG → ℕ → UniLS) (S : Scores NIG) (hp : NIGPrior) (gen : Z → ℝ → ℝ → ℝ) (ζ : Measure Z)
    (gam : W → ℝ → ℝ → ℝ) (ω : Measure W) (n : ℕ) [Nonempty UniLS]
    (g : Alg (ℝ × ℝ) NIG UniLS → ℝ≥0∞) : Alg (ℝ × ℝ) NIG UniLS → ℝ≥0∞ :=
  neal2IterMean (plainEnv y draw) (fun st i => uniNormLpdf st (y i)) S nigLaw n
    (hyperMean (nigHyperEnv y draw hp gen gam) (ζ.prod (ω.prod ω)) g)

/-- The same for Neal8. -/
noncomputable def neal8HyperIter {Z W : Type} [MeasurableSpace Z] [MeasurableSpace W] (y : ℕ → ℝ)
    (draw : NIG → ℕ → UniLS) (S : Scores NIG) (hp : NIGPrior) (gen : Z → ℝ → ℝ → ℝ) (ζ : Measure Z)
    (gam : W → ℝ → ℝ → ℝ) (ω : Measure W) (n : ℕ) [Nonempty UniLS]
    (g : Alg8 (ℝ × ℝ) NIG UniLS → ℝ≥0∞) : Alg8 (ℝ × ℝ) NIG UniLS → ℝ≥0∞ :=
  neal8IterMean (plainEnv y draw) (fun st i => uniNormLpdf st (y i)) S nigLaw n fun s =>
    hyperMean (nigHyperEnv y draw hp gen gam) (ζ.prod (ω.prod ω))
      (fun b => g { s with base := b }) s.base

/-- `M` is `φ` after an iteration from the states without saved hyperparameters, and has another
posterior mean. `after s` is the mean of `φ` after an iteration from the state `s`. -/
structure MovesHypers {n : ℕ} (y : ℕ → ℝ) (draw : NIG → ℕ → UniLS) (prior : List ℕ → ℝ)
    (hp : NIGPrior) (sh : ℝ) (θ0 : UniLS) (after : Alg (ℝ × ℝ) NIG UniLS → ℝ≥0∞)
    (φ M : NIG → Setoid (Fin n) → (Fin n → UniLS) → ℝ≥0∞) : Prop where
  meas : ∀ σ, Measurable fun p : (ℝ × ℝ × ℝ × ℝ) × (Fin n → UniLS) =>
    φ ⟨p.1.1, p.1.2.1, p.1.2.2.1, p.1.2.2.2⟩ σ p.2
  step : ∀ m l sc, 0 < l → 0 < sc → ∀ s, Clean (plainEnv y draw) n ⟨m, l, sh, sc⟩ s →
    after s = observeH θ0 M s
  reach : ∀ m l sc (σ : Setoid (Fin n)) (θ : Quotient σ → UniLS), ∃ s,
    Clean (plainEnv y draw) n ⟨m, l, sh, sc⟩ s ∧ partOf n s.alloc = σ ∧
      rowValues n θ0 s = fun j => θ (Quotient.mk σ j)
  moved : hyperPosterior y prior hp M ≠ hyperPosterior y prior hp φ

section proof

variable {n : ℕ} {y : ℕ → ℝ} {prior : List ℕ → ℝ} {mu00 sig200 alpha00 beta00 a00 b00 sh : ℝ}
  {Z W : Type} [MeasurableSpace Z] [MeasurableSpace W] {ζ : Measure Z} {gen : Z → ℝ → ℝ → ℝ}
  {ω : Measure W} {gam : W → ℝ → ℝ → ℝ}

theorem nigHyperEnv_up (y : ℕ → ℝ) (draw : NIG → ℕ → UniLS) (z : Z × W × W) (h : NIG)
    (l : List (UniLS × ℤ)) (v : List UniLS) (hl : (l.map Prod.fst).Perm v) :
    (nigHyperEnv y draw (.ngg mu00 sig200 alpha00 beta00 a00 b00 sh) gen gam z).hyperUpdate h l 0 =
      nigUp (.ngg mu00 sig200 alpha00 beta00 a00 b00 sh) gen gam z h v := by
  simp only [nigHyperEnv, nnigEnv, nigUp, nigUpdateHypers, nggMeanParams, nggScalingParams,
    nggScaleParams, (hl.map _).sum_eq, hl.length_eq]

/-- The parameters that the generators accept. -/
def AcceptsOne (mu00 sig200 alpha00 beta00 a00 b00 : ℝ) (h : NIG) (st : UniLS) : Prop :=
  (0 < (nggMeanParams mu00 sig200 h [st]).2 ∧ 0 < (nggScalingParams alpha00 beta00 h [st]).1 ∧
    0 < (nggScalingParams alpha00 beta00 h [st]).2) ∧
  0 < (nggScaleParams a00 b00 h [st]).1 ∧ 0 < (nggScaleParams a00 b00 h [st]).2

theorem update_one_ok {h : NIG} {st : UniLS} (hs : AcceptsOne mu00 sig200 alpha00 beta00 a00 b00 h st)
    (g : ℝ → ℝ → ℝ) (g1 g2 : ℝ → ℝ → ℝ) :
    nigUpdateHypers (.ngg mu00 sig200 alpha00 beta00 a00 b00 sh) h [st] g g1 g2 = .ok
      ⟨g (nggMeanParams mu00 sig200 h [st]).1 (nggMeanParams mu00 sig200 h [st]).2,
        g1 (nggScalingParams alpha00 beta00 h [st]).1 (nggScalingParams alpha00 beta00 h [st]).2,
        h.shape, g2 (nggScaleParams a00 b00 h [st]).1 (nggScaleParams a00 b00 h [st]).2⟩ := by
  obtain ⟨⟨h1, h2, h3⟩, h4, h5⟩ := hs
  simp only [nigUpdateHypers, normalRngChk, gammaRngChk, not_le.2 h1, not_le.2 h2, not_le.2 h3,
    not_le.2 h4, not_le.2 h5, if_false, ok_bind]

theorem update_one_bad {h : NIG} {st : UniLS}
    (hs : ¬ AcceptsOne mu00 sig200 alpha00 beta00 a00 b00 h st) (z : Z × W × W) :
    nigUp (.ngg mu00 sig200 alpha00 beta00 a00 b00 sh) gen gam z h [st] = h := by
  unfold AcceptsOne at hs
  simp only [nigUp, nigUpdateHypers, normalRngChk, gammaRngChk]
  by_cases h1 : (nggMeanParams mu00 sig200 h [st]).2 ≤ 0
  · simp only [h1, if_true]; rfl
  by_cases h2 : (nggScalingParams alpha00 beta00 h [st]).1 ≤ 0
  · simp only [h1, h2, if_true, if_false]; rfl
  by_cases h3 : (nggScalingParams alpha00 beta00 h [st]).2 ≤ 0
  · simp only [h1, h2, h3, if_true, if_false]; rfl
  by_cases h4 : (nggScaleParams a00 b00 h [st]).1 ≤ 0
  · simp only [h1, h2, h3, h4, if_true, if_false]; rfl
  by_cases h5 : (nggScaleParams a00 b00 h [st]).2 ≤ 0
  · simp only [h1, h2, h3, h4, h5, if_true, if_false]; rfl
  push Not at h1 h2 h3 h4 h5
  exact absurd ⟨⟨h1, h2, h3⟩, h4, h5⟩ hs

theorem accepts_of_var (hs : 0 < sig200) (h1 : 0 < alpha00) (h2 : 0 < beta00) (h3 : 0 < a00)
    (h4 : 0 < b00) {h : NIG} (hl : 0 < h.varScaling) (ha : 0 < h.shape) {st : UniLS} (hv : 0 < st.var) :
    AcceptsOne mu00 sig200 alpha00 beta00 a00 b00 h st := by
  have hsq := mul_self_nonneg (h.mean - st.mean)
  refine ⟨⟨?_, ?_, ?_⟩, ?_, ?_⟩
  · simp only [nggMeanParams, List.map_cons, List.map_nil, List.sum_cons, List.sum_nil]; positivity
  · simp only [nggScalingParams]; positivity
  · simp only [nggScalingParams, List.map_cons, List.map_nil, List.sum_cons, List.sum_nil]; positivity
  · simp only [nggScaleParams]; positivity
  · simp only [nggScaleParams, List.map_cons, List.map_nil, List.sum_cons, List.sum_nil]; positivity

/-- The mean over the laws from which the three hyperparameters are drawn, with one cluster. -/
noncomputable def oneKernel (mu00 sig200 alpha00 beta00 a00 b00 : ℝ) (χ : NIG → UniLS → ℝ≥0∞) (h : NIG)
    (st : UniLS) : ℝ≥0∞ :=
  ∫⁻ m, ENNReal.ofReal (Real.exp (normalLpdf m (nggMeanParams mu00 sig200 h [st]).1
      (nggMeanParams mu00 sig200 h [st]).2)) *
    ∫⁻ l in Set.Ioi (0 : ℝ), ENNReal.ofReal ((nggScalingParams alpha00 beta00 h [st]).2 ^
        (alpha00 + 0.5) / Real.Gamma (alpha00 + 0.5) * l ^ (alpha00 + 0.5 - 1) *
        Real.exp (-((nggScalingParams alpha00 beta00 h [st]).2 * l))) *
      ∫⁻ sc in Set.Ioi (0 : ℝ), ENNReal.ofReal ((nggScaleParams a00 b00 h [st]).2 ^
          (a00 + h.shape) / Real.Gamma (a00 + h.shape) * sc ^ (a00 + h.shape - 1) *
          Real.exp (-((nggScaleParams a00 b00 h [st]).2 * sc))) * χ ⟨m, l, h.shape, sc⟩ st

/-- Joint measurability in the four hyperparameters and the value. -/
def MeasOne (χ : NIG → UniLS → ℝ≥0∞) : Prop :=
  Measurable fun p : (ℝ × ℝ × ℝ × ℝ) × UniLS => χ ⟨p.1.1, p.1.2.1, p.1.2.2.1, p.1.2.2.2⟩ p.2

theorem measurable_oneKernel {χ : NIG → UniLS → ℝ≥0∞} (hχ : MeasOne χ) (h : NIG) :
    Measurable (oneKernel mu00 sig200 alpha00 beta00 a00 b00 χ h) := by
  have hm := measurable_mean
  have hv := measurable_var
  have q1 : Measurable fun st : UniLS => (nggMeanParams mu00 sig200 h [st]).1 := by
    simp only [nggMeanParams, List.map_cons, List.map_nil, List.sum_cons, List.sum_nil]; fun_prop
  have q2 : Measurable fun st : UniLS => (nggMeanParams mu00 sig200 h [st]).2 := by
    simp only [nggMeanParams, List.map_cons, List.map_nil, List.sum_cons, List.sum_nil]; fun_prop
  have q3 : Measurable fun st : UniLS => (nggScalingParams alpha00 beta00 h [st]).2 := by
    simp only [nggScalingParams, List.map_cons, List.map_nil, List.sum_cons, List.sum_nil]; fun_prop
  have q4 : Measurable fun st : UniLS => (nggScaleParams a00 b00 h [st]).2 := by
    simp only [nggScaleParams, List.map_cons, List.map_nil, List.sum_cons, List.sum_nil]; fun_prop
  have i3 : Measurable fun p : (UniLS × ℝ × ℝ) × ℝ =>
      ENNReal.ofReal ((nggScaleParams a00 b00 h [p.1.1]).2 ^
          (a00 + h.shape) / Real.Gamma (a00 + h.shape) * p.2 ^ (a00 + h.shape - 1) *
          Real.exp (-((nggScaleParams a00 b00 h [p.1.1]).2 * p.2))) *
        χ ⟨p.1.2.1, p.1.2.2, h.shape, p.2⟩ p.1.1 := by
    have e : Measurable fun p : (UniLS × ℝ × ℝ) × ℝ => (nggScaleParams a00 b00 h [p.1.1]).2 :=
      q4.comp (measurable_fst.comp measurable_fst)
    refine Measurable.mul (by fun_prop) ?_
    exact hχ.comp (f := fun p : (UniLS × ℝ × ℝ) × ℝ => ((p.1.2.1, p.1.2.2, h.shape, p.2), p.1.1))
      (by fun_prop)
  have j3 := i3.lintegral_prod_right' (ν := volume.restrict (Set.Ioi (0 : ℝ)))
  have i2 : Measurable fun p : (UniLS × ℝ) × ℝ =>
      ENNReal.ofReal ((nggScalingParams alpha00 beta00 h [p.1.1]).2 ^
        (alpha00 + 0.5) / Real.Gamma (alpha00 + 0.5) * p.2 ^ (alpha00 + 0.5 - 1) *
        Real.exp (-((nggScalingParams alpha00 beta00 h [p.1.1]).2 * p.2))) *
      ∫⁻ sc in Set.Ioi (0 : ℝ), ENNReal.ofReal ((nggScaleParams a00 b00 h [p.1.1]).2 ^
          (a00 + h.shape) / Real.Gamma (a00 + h.shape) * sc ^ (a00 + h.shape - 1) *
          Real.exp (-((nggScaleParams a00 b00 h [p.1.1]).2 * sc))) * χ ⟨p.1.2, p.2, h.shape, sc⟩ p.1.1 := by
    have e : Measurable fun p : (UniLS × ℝ) × ℝ => (nggScalingParams alpha00 beta00 h [p.1.1]).2 :=
      q3.comp (measurable_fst.comp measurable_fst)
    refine Measurable.mul (by fun_prop) ?_
    exact j3.comp (f := fun p : (UniLS × ℝ) × ℝ => (p.1.1, p.1.2, p.2)) (by fun_prop)
  have j2 := i2.lintegral_prod_right' (ν := volume.restrict (Set.Ioi (0 : ℝ)))
  have i1 : Measurable fun p : UniLS × ℝ => ENNReal.ofReal (Real.exp (normalLpdf p.2
      (nggMeanParams mu00 sig200 h [p.1]).1 (nggMeanParams mu00 sig200 h [p.1]).2)) :=
    ENNReal.measurable_ofReal.comp (Real.measurable_exp.comp
      (measurable_normalLpdf measurable_snd (q1.comp measurable_fst) (q2.comp measurable_fst)))
  exact (i1.mul j2).lintegral_prod_right' (ν := volume)

theorem measurable_accepts (h : NIG) :
    MeasurableSet {st | AcceptsOne mu00 sig200 alpha00 beta00 a00 b00 h st} := by
  have hm := measurable_mean
  have hv := measurable_var
  have m1 : MeasurableSet {st : UniLS | 0 < (nggMeanParams mu00 sig200 h [st]).2} := by
    refine measurableSet_lt measurable_const ?_
    simp only [nggMeanParams, List.map_cons, List.map_nil, List.sum_cons, List.sum_nil]; fun_prop
  have m2 : MeasurableSet {st : UniLS | 0 < (nggScalingParams alpha00 beta00 h [st]).1} := by
    refine measurableSet_lt measurable_const ?_
    simp only [nggScalingParams, List.length_singleton]; fun_prop
  have m3 : MeasurableSet {st : UniLS | 0 < (nggScalingParams alpha00 beta00 h [st]).2} := by
    refine measurableSet_lt measurable_const ?_
    simp only [nggScalingParams, List.map_cons, List.map_nil, List.sum_cons, List.sum_nil]; fun_prop
  have m4 : MeasurableSet {st : UniLS | 0 < (nggScaleParams a00 b00 h [st]).1} := by
    refine measurableSet_lt measurable_const ?_
    simp only [nggScaleParams, List.length_singleton]; fun_prop
  have m5 : MeasurableSet {st : UniLS | 0 < (nggScaleParams a00 b00 h [st]).2} := by
    refine measurableSet_lt measurable_const ?_
    simp only [nggScaleParams, List.map_cons, List.map_nil, List.sum_cons, List.sum_nil]; fun_prop
  exact (m1.inter (m2.inter m3)).inter (m4.inter m5)

/-- With accepted parameters the update draws from the three laws. -/
theorem nested_one (hg : NormalGen ζ gen) (hw : GenLaw ω gam gammaMeasure)
    {χ : NIG → UniLS → ℝ≥0∞} (hχ : MeasOne χ) {h : NIG} {st : UniLS}
    (hs : AcceptsOne mu00 sig200 alpha00 beta00 a00 b00 h st) :
    ∫⁻ z, ∫⁻ w, ∫⁻ w', χ ⟨gen z (nggMeanParams mu00 sig200 h [st]).1 (nggMeanParams mu00 sig200 h [st]).2,
        gam w (nggScalingParams alpha00 beta00 h [st]).1 (nggScalingParams alpha00 beta00 h [st]).2,
        h.shape, gam w' (nggScaleParams a00 b00 h [st]).1 (nggScaleParams a00 b00 h [st]).2⟩ st
        ∂ω ∂ω ∂ζ = oneKernel mu00 sig200 alpha00 beta00 a00 b00 χ h st := by
  obtain ⟨⟨h1, h2, h3⟩, h4, h5⟩ := hs
  have hωp := hw.prob
  have p1 := isProbabilityMeasure_gammaMeasure h2 h3
  have p2 := isProbabilityMeasure_gammaMeasure h4 h5
  have m3 : Measurable fun p : (ℝ × ℝ) × ℝ => χ ⟨p.1.1, p.1.2, h.shape, p.2⟩ st :=
    hχ.comp (f := fun p : (ℝ × ℝ) × ℝ => ((p.1.1, p.1.2, h.shape, p.2), st)) (by fun_prop)
  have m3' : ∀ m l, Measurable fun sc => χ ⟨m, l, h.shape, sc⟩ st := fun m l =>
    m3.comp (f := fun sc : ℝ => ((m, l), sc)) (by fun_prop)
  have m2 : Measurable fun p : ℝ × ℝ => ∫⁻ sc, χ ⟨p.1, p.2, h.shape, sc⟩ st
      ∂gammaMeasure (nggScaleParams a00 b00 h [st]).1 (nggScaleParams a00 b00 h [st]).2 :=
    m3.lintegral_prod_right'
  have m2' : ∀ m, Measurable fun l => ∫⁻ sc, χ ⟨m, l, h.shape, sc⟩ st
      ∂gammaMeasure (nggScaleParams a00 b00 h [st]).1 (nggScaleParams a00 b00 h [st]).2 := fun m =>
    m2.comp (f := fun l : ℝ => (m, l)) (by fun_prop)
  have m1 : Measurable fun m => ∫⁻ l, ∫⁻ sc, χ ⟨m, l, h.shape, sc⟩ st
      ∂gammaMeasure (nggScaleParams a00 b00 h [st]).1 (nggScaleParams a00 b00 h [st]).2
      ∂gammaMeasure (nggScalingParams alpha00 beta00 h [st]).1 (nggScalingParams alpha00 beta00 h [st]).2 :=
    m2.lintegral_prod_right'
  have e3 : ∀ m l, ∫⁻ w', χ ⟨m, l, h.shape, gam w' (nggScaleParams a00 b00 h [st]).1
      (nggScaleParams a00 b00 h [st]).2⟩ st ∂ω = ∫⁻ sc, χ ⟨m, l, h.shape, sc⟩ st
      ∂gammaMeasure (nggScaleParams a00 b00 h [st]).1 (nggScaleParams a00 b00 h [st]).2 := fun m l =>
    hw.lintegral h4 h5 (m3' m l)
  simp only [e3]
  have e2 : ∀ m, ∫⁻ w, ∫⁻ sc, χ ⟨m, gam w (nggScalingParams alpha00 beta00 h [st]).1
      (nggScalingParams alpha00 beta00 h [st]).2, h.shape, sc⟩ st
      ∂gammaMeasure (nggScaleParams a00 b00 h [st]).1 (nggScaleParams a00 b00 h [st]).2 ∂ω =
      ∫⁻ l, ∫⁻ sc, χ ⟨m, l, h.shape, sc⟩ st
      ∂gammaMeasure (nggScaleParams a00 b00 h [st]).1 (nggScaleParams a00 b00 h [st]).2
      ∂gammaMeasure (nggScalingParams alpha00 beta00 h [st]).1 (nggScalingParams alpha00 beta00 h [st]).2 :=
    fun m => hw.lintegral h2 h3 (m2' m)
  simp only [e2]
  rw [hg.lintegral h1 m1, lintegral_normalLaw _ _ m1]
  unfold oneKernel
  refine lintegral_congr fun m => ?_
  rw [lintegral_gammaMeasure h2 h3 (m2' m)]
  have s1 : (nggScalingParams alpha00 beta00 h [st]).1 = alpha00 + 0.5 := by simp [nggScalingParams]
  have s2 : (nggScaleParams a00 b00 h [st]).1 = a00 + h.shape := by simp [nggScaleParams]
  congr 1
  rw [s1]
  refine lintegral_congr fun l => ?_
  rw [lintegral_gammaMeasure h4 h5 (m3' m l), s2]

/-- The mean after the update, with one cluster. -/
noncomputable def oneAfter (hp : NIGPrior) (gen : Z → ℝ → ℝ → ℝ) (ζ : Measure Z) (gam : W → ℝ → ℝ → ℝ)
    (ω : Measure W) (χ : NIG → UniLS → ℝ≥0∞) (h : NIG) (st : UniLS) : ℝ≥0∞ :=
  ∫⁻ r, χ (nigUp hp gen gam r h [st]) st ∂ζ.prod (ω.prod ω)

theorem oneAfter_ok (hg : NormalGen ζ gen) (hw : GenLaw ω gam gammaMeasure)
    {χ : NIG → UniLS → ℝ≥0∞} (hχ : MeasOne χ) {h : NIG} {st : UniLS}
    (hs : AcceptsOne mu00 sig200 alpha00 beta00 a00 b00 h st) :
    oneAfter (.ngg mu00 sig200 alpha00 beta00 a00 b00 sh) gen ζ gam ω χ h st =
      oneKernel mu00 sig200 alpha00 beta00 a00 b00 χ h st := by
  have hζp := hg.prob
  have hωp := hw.prob
  rw [← nested_one hg hw hχ hs, oneAfter]
  simp only [nigUp, update_one_ok hs]
  obtain ⟨⟨h1, h2, h3⟩, h4, h5⟩ := hs
  have gm := hg.meas (nggMeanParams mu00 sig200 h [st]).1 _ h1
  have g1 := hw.meas _ _ h2 h3
  have g2 := hw.meas _ _ h4 h5
  have hm : Measurable fun r : Z × W × W => χ ⟨gen r.1 (nggMeanParams mu00 sig200 h [st]).1 (nggMeanParams mu00 sig200 h [st]).2,
        gam r.2.1 (nggScalingParams alpha00 beta00 h [st]).1 (nggScalingParams alpha00 beta00 h [st]).2,
        h.shape, gam r.2.2 (nggScaleParams a00 b00 h [st]).1 (nggScaleParams a00 b00 h [st]).2⟩ st := by
    refine hχ.comp (f := fun r : Z × W × W => ((gen r.1 (nggMeanParams mu00 sig200 h [st]).1 (nggMeanParams mu00 sig200 h [st]).2,
        gam r.2.1 (nggScalingParams alpha00 beta00 h [st]).1 (nggScalingParams alpha00 beta00 h [st]).2,
        h.shape, gam r.2.2 (nggScaleParams a00 b00 h [st]).1 (nggScaleParams a00 b00 h [st]).2), st)) ?_
    exact ((gm.comp measurable_fst).prodMk ((g1.comp (measurable_fst.comp measurable_snd)).prodMk
      (measurable_const.prodMk (g2.comp (measurable_snd.comp measurable_snd))))).prodMk measurable_const
  rw [lintegral_prod _ hm.aemeasurable]
  refine lintegral_congr fun z => ?_
  exact lintegral_prod _ (hm.comp (f := fun p : W × W => (z, p)) (by fun_prop)).aemeasurable

theorem measurable_oneAfter (hg : NormalGen ζ gen) (hw : GenLaw ω gam gammaMeasure)
    {χ : NIG → UniLS → ℝ≥0∞} (hχ : MeasOne χ) (h : NIG) :
    Measurable (oneAfter (.ngg mu00 sig200 alpha00 beta00 a00 b00 sh) gen ζ gam ω χ h) := by
  classical
  have hζp := hg.prob
  have hωp := hw.prob
  have e : oneAfter (.ngg mu00 sig200 alpha00 beta00 a00 b00 sh) gen ζ gam ω χ h = fun st =>
      if AcceptsOne mu00 sig200 alpha00 beta00 a00 b00 h st then
        oneKernel mu00 sig200 alpha00 beta00 a00 b00 χ h st else χ h st := by
    funext st
    split_ifs with hs
    · exact oneAfter_ok hg hw hχ hs
    · simp only [oneAfter, update_one_bad hs, lintegral_const, measure_univ, mul_one]
  rw [e]
  refine Measurable.ite (measurable_accepts h) (measurable_oneKernel hχ h) ?_
  exact hχ.comp (f := fun st : UniLS => ((h.mean, h.varScaling, h.shape, h.scale), st)) (by fun_prop)

/-- With all rows in one block `update_hypers` is given one value. -/
theorem blockValues_top (hn : 0 < n) : ∃ i0 : Fin n, ∀ x : Fin n → UniLS,
    blockValues (⊤ : Setoid (Fin n)) x = [x i0] := by
  obtain ⟨q0, hq0⟩ : ∃ q0 : Quotient (⊤ : Setoid (Fin n)), q0 = Quotient.mk _ ⟨0, hn⟩ := ⟨_, rfl⟩
  have hu : (Finset.univ : Finset (Quotient (⊤ : Setoid (Fin n)))) = {q0} := by
    refine Finset.eq_singleton_iff_unique_mem.2 ⟨Finset.mem_univ _, fun q _ => ?_⟩
    rw [hq0]
    exact Quotient.inductionOn q fun a => Quotient.sound trivial
  refine ⟨q0.out, fun x => ?_⟩
  rw [blockValues, hu, Finset.toList_singleton]
  rfl

theorem hyperPriorMean_congr {f g : NIG → ℝ≥0∞}
    (h : ∀ m l sc, 0 < l → 0 < sc → f ⟨m, l, sh, sc⟩ = g ⟨m, l, sh, sc⟩) :
    hyperPriorMean (.ngg mu00 sig200 alpha00 beta00 a00 b00 sh) f =
      hyperPriorMean (.ngg mu00 sig200 alpha00 beta00 a00 b00 sh) g := by
  simp only [hyperPriorMean]
  refine lintegral_congr_ae ?_
  filter_upwards [ae_gammaMeasure alpha00 beta00] with l hl
  refine lintegral_congr_ae ?_
  filter_upwards [ae_gammaMeasure a00 b00] with sc hsc
  exact lintegral_congr fun m => h m l sc hl hsc

theorem hyperPriorMean_mul {c : ℝ≥0∞} (hc : c ≠ ∞) (f : NIG → ℝ≥0∞) :
    hyperPriorMean (.ngg mu00 sig200 alpha00 beta00 a00 b00 sh) (fun h => c * f h) =
      c * hyperPriorMean (.ngg mu00 sig200 alpha00 beta00 a00 b00 sh) f := by
  simp only [hyperPriorMean, lintegral_const_mul' _ _ hc]

/-- A function of the joint law whose posterior mean the update of the hyperparameters changes. -/
theorem ngg_moves (hg : NormalGen ζ gen) (hw : GenLaw ω gam gammaMeasure) (hs : 0 < sig200)
    (h1 : 0 < alpha00) (h2 : 0 < beta00) (h3 : 0 < a00) (h4 : 0 < b00) (ha : 0 < sh) (hn : 0 < n)
    (hpos : ∀ σ : Setoid (Fin n), 0 < weight prior σ) :
    ∃ φ : NIG → Setoid (Fin n) → (Fin n → UniLS) → ℝ≥0∞,
      (∀ σ, Measurable fun p : (ℝ × ℝ × ℝ × ℝ) × (Fin n → UniLS) =>
        φ ⟨p.1.1, p.1.2.1, p.1.2.2.1, p.1.2.2.2⟩ σ p.2) ∧
      (∀ h, MeasX (hyperOp (nigUp (.ngg mu00 sig200 alpha00 beta00 a00 b00 sh) gen gam)
        (ζ.prod (ω.prod ω)) φ h)) ∧
      hyperPosterior y prior (.ngg mu00 sig200 alpha00 beta00 a00 b00 sh) (fun h σ x =>
        hyperOp (nigUp (.ngg mu00 sig200 alpha00 beta00 a00 b00 sh) gen gam) (ζ.prod (ω.prod ω)) φ h
          (σ, ∅) x) ≠
      hyperPosterior y prior (.ngg mu00 sig200 alpha00 beta00 a00 b00 sh) φ := by
  classical
  have hζp := hg.prob
  have hωp := hw.prob
  haveI : Nonempty UniLS := ⟨⟨0, 0⟩⟩
  obtain ⟨i0, hi0⟩ := blockValues_top hn
  have hk := c150_ngg_violated (K := 1) (mu00 := mu00) hg hw hs h1 h2 h3 h4 ha one_pos
  unfold HypersKept at hk
  push Not at hk
  obtain ⟨ψ, hψ, hne⟩ := hk
  obtain ⟨ψ', hψ'⟩ : ∃ ψ' : NIG → UniLS → ℝ≥0∞, ψ' = fun h st => ψ h fun _ => st := ⟨_, rfl⟩
  have hψm : MeasOne ψ' := by
    rw [hψ']
    exact hψ.comp (f := fun p : (ℝ × ℝ × ℝ × ℝ) × UniLS => (p.1, fun _ : Fin 1 => p.2))
      (measurable_fst.prodMk (measurable_pi_lambda _ fun _ => measurable_snd))
  obtain ⟨L, hL⟩ : ∃ L : UniLS → ℝ≥0∞, L = fun st =>
    likOn (fun st i => uniNormLpdf st (y i)) (Finset.univ : Finset (Fin n)) fun _ => st := ⟨_, rfl⟩
  have hLm : Measurable L := by
    rw [hL]
    exact (measurable_likOn (fun i => measurable_uniNormLpdf (y i)) Finset.univ).comp
      (measurable_pi_lambda _ fun _ => measurable_id)
  have hL0 : ∀ st, L st ≠ 0 := fun st => by rw [hL]; exact (likOn_ne _ _ _).1
  have hL1 : ∀ st, L st ≠ ∞ := fun st => by rw [hL]; exact (likOn_ne _ _ _).2
  obtain ⟨χ, hχ⟩ : ∃ χ : NIG → UniLS → ℝ≥0∞, χ = fun h st => (L st)⁻¹ * ψ' h st := ⟨_, rfl⟩
  have hχm : MeasOne χ := by
    rw [hχ]
    exact Measurable.mul (hLm.inv.comp measurable_snd) hψm
  have hχL : ∀ h st, L st * χ h st = ψ' h st := by
    intro h st
    rw [hχ]
    dsimp only
    rw [← mul_assoc, ENNReal.mul_inv_cancel (hL0 st) (hL1 st), one_mul]
  obtain ⟨φ, hφ⟩ : ∃ φ : NIG → Setoid (Fin n) → (Fin n → UniLS) → ℝ≥0∞, φ = fun h σ x =>
    if σ = ⊤ then χ h (x i0) else 0 := ⟨_, rfl⟩
  obtain ⟨A, hA⟩ : ∃ A : NIG → UniLS → ℝ≥0∞, A = fun h st =>
    oneAfter (.ngg mu00 sig200 alpha00 beta00 a00 b00 sh) gen ζ gam ω χ h st := ⟨_, rfl⟩
  have hAm : ∀ h, Measurable (A h) := fun h => by rw [hA]; exact measurable_oneAfter hg hw hχm h
  have hop : ∀ h σ x, hyperOp (nigUp (.ngg mu00 sig200 alpha00 beta00 a00 b00 sh) gen gam)
      (ζ.prod (ω.prod ω)) φ h (σ, ∅) x = if σ = ⊤ then A h (x i0) else 0 := by
    intro h σ x
    rw [hyperOp, hφ, hA]
    dsimp only
    rw [if_pos rfl]
    by_cases e : σ = ⊤
    · rw [e]
      simp only [if_true, hi0, oneAfter]
    · simp only [e, if_false, lintegral_zero]
  have hAL : ∀ h st, L st * A h st =
      oneAfter (.ngg mu00 sig200 alpha00 beta00 a00 b00 sh) gen ζ gam ω ψ' h st := by
    intro h st
    rw [hA]
    dsimp only
    unfold oneAfter
    rw [← lintegral_const_mul' _ _ (hL1 st)]
    exact lintegral_congr fun r => hχL _ st
  -- The posterior mean of a function of the single value on the partition with one block.
  have hpost : ∀ (B : NIG → UniLS → ℝ≥0∞) (h : NIG), IsProbabilityMeasure (nigLaw h) →
      Measurable (B h) →
      partPost (weight prior) (fun st i => uniNormLpdf st (y i)) (nigLaw h)
        (fun σ x => if σ = (⊤ : Setoid (Fin n)) then B h (x i0) else 0) =
      ENNReal.ofReal (weight prior (⊤ : Setoid (Fin n))) * ∫⁻ st, L st * B h st ∂nigLaw h := by
    intro B h hp hB
    unfold partPost
    rw [Finset.sum_eq_single (⊤ : Setoid (Fin n))]
    · congr 1
      refine Eq.trans (lintegral_congr fun θ => ?_) ((measurePreserving_eval
        (fun _ : Quotient (⊤ : Setoid (Fin n)) => nigLaw h) (Quotient.mk _ i0)).lintegral_comp
        (f := fun st => L st * B h st) (hLm.mul hB))
      simp only [if_true]
      rw [hL]
      dsimp only [Function.eval]
      congr 2
      funext i
      congr 1
      exact Quotient.sound trivial
    · intro σ _ e
      simp [e]
    · exact fun e => absurd (Finset.mem_univ _) e
  have hone : ∀ (h : NIG) (f : (Fin 1 → UniLS) → ℝ≥0∞) (f' : UniLS → ℝ≥0∞),
      IsProbabilityMeasure (nigLaw h) → Measurable f' →
      (∀ᵐ θ ∂Measure.pi (fun _ : Fin 1 => nigLaw h), f θ = f' (θ 0)) →
      ∫⁻ θ, f θ ∂Measure.pi (fun _ : Fin 1 => nigLaw h) = ∫⁻ st, f' st ∂nigLaw h := by
    intro h f f' hp hf' hae
    rw [← (measurePreserving_eval (fun _ : Fin 1 => nigLaw h) 0).lintegral_comp hf']
    exact lintegral_congr_ae hae
  have hψh : ∀ h, Measurable (ψ' h) := fun h => hψm.comp
    (f := fun st : UniLS => ((h.mean, h.varScaling, h.shape, h.scale), st)) (by fun_prop)
  have hχh : ∀ h, Measurable (χ h) := fun h => hχm.comp
    (f := fun st : UniLS => ((h.mean, h.varScaling, h.shape, h.scale), st)) (by fun_prop)
  refine ⟨φ, fun σ => ?_, fun h z => ?_, fun he => hne ?_⟩
  · rw [hφ]
    by_cases e : σ = ⊤
    · simp only [e, if_true]
      exact hχm.comp (f := fun p : (ℝ × ℝ × ℝ × ℝ) × (Fin n → UniLS) => (p.1, p.2 i0))
        (measurable_fst.prodMk ((measurable_pi_apply i0).comp measurable_snd))
    · simp only [e, if_false]
      exact measurable_const
  · obtain ⟨σ, D⟩ := z
    by_cases hD : D = ∅
    · subst hD
      have e : hyperOp (nigUp (.ngg mu00 sig200 alpha00 beta00 a00 b00 sh) gen gam)
        (ζ.prod (ω.prod ω)) φ h (σ, ∅) = fun x => if σ = ⊤ then A h (x i0) else 0 := by
        funext x
        exact hop h σ x
      rw [e]
      by_cases e' : σ = ⊤
      · simp only [e', if_true]
        exact (hAm h).comp (measurable_pi_apply i0)
      · simp only [e', if_false]
        exact measurable_const
    · have e : hyperOp (nigUp (.ngg mu00 sig200 alpha00 beta00 a00 b00 sh) gen gam)
        (ζ.prod (ω.prod ω)) φ h (σ, D) = fun _ => ∞ := by
        funext x
        simp only [hyperOp, hD, if_false]
      rw [e]
      exact measurable_const
  · have w0 : ENNReal.ofReal (weight prior (⊤ : Setoid (Fin n))) ≠ 0 :=
      (ENNReal.ofReal_pos.2 (hpos ⊤)).ne'
    have r1 : hyperPosterior y prior (.ngg mu00 sig200 alpha00 beta00 a00 b00 sh) φ =
        ENNReal.ofReal (weight prior (⊤ : Setoid (Fin n))) *
          hyperJoint (.ngg mu00 sig200 alpha00 beta00 a00 b00 sh) ψ := by
      unfold hyperPosterior hyperJoint
      rw [← hyperPriorMean_mul ENNReal.ofReal_ne_top]
      refine hyperPriorMean_congr fun m l sc hl hsc => ?_
      have hp := nigLaw_prob ⟨m, l, sh, sc⟩ hl ha hsc
      rw [hφ, hpost χ _ hp (hχh _)]
      congr 1
      simp only [hχL]
      refine (hone _ _ _ hp (hψh _) (Filter.Eventually.of_forall fun θ => ?_)).symm
      rw [hψ']
      dsimp only
      congr 1
      funext i
      rw [Subsingleton.elim i 0]
    have r2 : hyperPosterior y prior (.ngg mu00 sig200 alpha00 beta00 a00 b00 sh) (fun h σ x =>
        hyperOp (nigUp (.ngg mu00 sig200 alpha00 beta00 a00 b00 sh) gen gam) (ζ.prod (ω.prod ω)) φ h
          (σ, ∅) x) = ENNReal.ofReal (weight prior (⊤ : Setoid (Fin n))) *
          hyperJoint (.ngg mu00 sig200 alpha00 beta00 a00 b00 sh)
            (hypersAfter (.ngg mu00 sig200 alpha00 beta00 a00 b00 sh) gen ζ gam ω ψ) := by
      unfold hyperPosterior hyperJoint
      rw [← hyperPriorMean_mul ENNReal.ofReal_ne_top]
      refine hyperPriorMean_congr fun m l sc hl hsc => ?_
      have hp := nigLaw_prob ⟨m, l, sh, sc⟩ hl ha hsc
      simp only [hop]
      rw [hpost A _ hp (hAm _)]
      congr 1
      simp only [hAL]
      refine (hone _ _ _ hp (measurable_oneAfter hg hw hψm _) ?_).symm
      filter_upwards [pi_ae (ι := Fin 1) hl ha hsc m] with θ hθ
      have hok := accepts_of_var (mu00 := mu00) hs h1 h2 h3 h4 (h := ⟨m, l, sh, sc⟩) hl ha (hθ 0)
      rw [oneAfter_ok hg hw hψm hok, ← nested_one hg hw hψm hok, hψ']
      have el : List.ofFn θ = [θ 0] := by simp
      have ec : (fun _ : Fin 1 => θ 0) = θ := by
        funext i
        rw [Subsingleton.elim i 0]
      simp only [hypersAfter, el, update_one_ok hok, ec]
    rw [r1, r2] at he
    exact (ENNReal.mul_right_inj w0 ENNReal.ofReal_ne_top).1 he

variable {draw : NIG → ℕ → UniLS} {S : Scores NIG} [Nonempty UniLS]

theorem neal2_moves (hg : NormalGen ζ gen) (hw : GenLaw ω gam gammaMeasure) (hs : 0 < sig200)
    (h1 : 0 < alpha00) (h2 : 0 < beta00) (h3 : 0 < a00) (h4 : 0 < b00) (ha : 0 < sh)
    (hO : ∀ m l sc, 0 < l → 0 < sc → Neal2Ok (plainEnv y draw) (fun st i => uniNormLpdf st (y i)) S
      nigLaw n ⟨m, l, sh, sc⟩ prior) (θ0 : UniLS) :
    ∃ φ M, MovesHypers (n := n) y draw prior (.ngg mu00 sig200 alpha00 beta00 a00 b00 sh) sh θ0
      (neal2HyperIter y draw S (.ngg mu00 sig200 alpha00 beta00 a00 b00 sh) gen ζ gam ω n
        (observeH θ0 φ)) φ M := by
  have hζp := hg.prob
  have hωp := hw.prob
  have hO1 := hO 0 1 1 one_pos one_pos
  have hn : 0 < n := by have := hO1.two; omega
  obtain ⟨φ, hφ, hX, hne⟩ := ngg_moves (y := y) (prior := prior) (mu00 := mu00) hg hw hs h1 h2 h3 h4 ha hn
    hO1.weight_pos
  refine ⟨φ, fun h σ x => iterOp (plainEnv y draw) nigLaw h (rowOp (weight prior)
    (fun st i => uniNormLpdf st (y i)) (nigLaw h)) (hyperOp (nigUp
      (.ngg mu00 sig200 alpha00 beta00 a00 b00 sh) gen gam) (ζ.prod (ω.prod ω)) φ h) (σ, ∅) x, hφ,
    fun m l sc hl hsc s hc => ?_, fun m l sc σ θ => exists_clean _ _ θ0 σ θ, fun he => hne ?_⟩
  · rw [observeH_clean hc]
    exact (hO m l sc hl hsc).iter_reads (hX _)
      (hyper_reads hn (nigHyperEnv_up y draw) θ0 φ _) _ _ _ _ (hc.seen θ0)
  · rw [← he]
    unfold hyperPosterior
    refine hyperPriorMean_congr fun m l sc hl hsc => ?_
    have hOm := hO m l sc hl hsc
    exact (hOm.rows.invariant hOm.clusters hOm.meas hOm.weight_pos (hX _)).symm

theorem neal8_moves (hg : NormalGen ζ gen) (hw : GenLaw ω gam gammaMeasure) (hs : 0 < sig200)
    (h1 : 0 < alpha00) (h2 : 0 < beta00) (h3 : 0 < a00) (h4 : 0 < b00) (ha : 0 < sh)
    (hO : ∀ m l sc, 0 < l → 0 < sc → Neal8Ok (plainEnv y draw) (fun st i => uniNormLpdf st (y i)) S
      nigLaw n ⟨m, l, sh, sc⟩ prior) (θ0 : UniLS) (k : ℕ) :
    ∃ φ M, ∀ aux : List (Hier (ℝ × ℝ) NIG UniLS), aux.length = k + 1 →
      MovesHypers (n := n) y draw prior (.ngg mu00 sig200 alpha00 beta00 a00 b00 sh) sh θ0
      (fun s => neal8HyperIter y draw S (.ngg mu00 sig200 alpha00 beta00 a00 b00 sh) gen ζ gam ω n
        (fun t => observeH θ0 φ t.base) ⟨s, aux⟩) φ M := by
  have hζp := hg.prob
  have hωp := hw.prob
  have hO1 := hO 0 1 1 one_pos one_pos
  have hn : 0 < n := by have := hO1.two; omega
  obtain ⟨φ, hφ, hX, hne⟩ := ngg_moves (y := y) (prior := prior) (mu00 := mu00) hg hw hs h1 h2 h3 h4 ha hn
    hO1.weight_pos
  refine ⟨φ, fun h σ x => iterOp (plainEnv y draw) nigLaw h (row8Op (weight prior)
    (fun st i => uniNormLpdf st (y i)) (nigLaw h) k) (hyperOp (nigUp
      (.ngg mu00 sig200 alpha00 beta00 a00 b00 sh) gen gam) (ζ.prod (ω.prod ω)) φ h) (σ, ∅) x,
    fun aux haux => ⟨hφ, fun m l sc hl hsc s hc => ?_, fun m l sc σ θ => exists_clean _ _ θ0 σ θ,
      fun he => hne ?_⟩⟩
  · rw [observeH_clean hc]
    refine (hO m l sc hl hsc).iter_reads (m := k) (hX _) (fun σ A x t ht _ => ?_) _ _ _ ⟨s, aux⟩
      (hc.seen θ0) haux
    exact hyper_reads hn (nigHyperEnv_up y draw) θ0 φ _ σ A x t.base ht
  · rw [← he]
    unfold hyperPosterior
    refine hyperPriorMean_congr fun m l sc hl hsc => ?_
    have hOm := hO m l sc hl hsc
    exact ((hOm.rows k).invariant hOm.clusters hOm.meas hOm.weight_pos (hX _)).symm

end proof

/-- **C154, Pitman-Yor process.** With the Normal-Gamma-Gamma hyperprior there is a function of
hyperparameters, partition and values whose posterior mean an iteration of Neal2 from states without
saved hyperparameters changes; the same holds for Neal8, whatever the number of auxiliary objects. -/
theorem c154_pitman_yor_violated (y : ℕ → ℝ) (draw : NIG → ℕ → UniLS) {a b : ℝ} {py : PYState}
    (hpy : pyInit a b = .ok py) {n : ℕ} (hn : 2 ≤ n) {mu00 sig200 alpha00 beta00 a00 b00 sh : ℝ}
    (hs : 0 < sig200) (h1 : 0 < alpha00) (h2 : 0 < beta00) (h3 : 0 < a00) (h4 : 0 < b00) (ha : 0 < sh)
    {Z W : Type} [MeasurableSpace Z] [MeasurableSpace W] {ζ : Measure Z} {gen : Z → ℝ → ℝ → ℝ}
    {ω : Measure W} {gam : W → ℝ → ℝ → ℝ} (hg : NormalGen ζ gen) (hw : GenLaw ω gam gammaMeasure)
    (θ0 : UniLS) (k : ℕ) :
    haveI : Nonempty UniLS := ⟨θ0⟩
    (∃ φ M, MovesHypers (n := n) y draw (pyPrior py) (.ngg mu00 sig200 alpha00 beta00 a00 b00 sh) sh θ0
      (neal2HyperIter y draw (pyScores (fun h i => nnigMargLpdf h (y i)) py)
        (.ngg mu00 sig200 alpha00 beta00 a00 b00 sh) gen ζ gam ω n (observeH θ0 φ)) φ M) ∧
    ∃ φ M, ∀ aux : List (Hier (ℝ × ℝ) NIG UniLS), aux.length = k + 1 →
      MovesHypers (n := n) y draw (pyPrior py) (.ngg mu00 sig200 alpha00 beta00 a00 b00 sh) sh θ0
        (fun s => neal8HyperIter y draw (pyScores (fun h i => nnigMargLpdf h (y i)) py)
          (.ngg mu00 sig200 alpha00 beta00 a00 b00 sh) gen ζ gam ω n (fun t => observeH θ0 φ t.base)
          ⟨s, aux⟩) φ M := by
  haveI : Nonempty UniLS := ⟨θ0⟩
  exact ⟨neal2_moves hg hw hs h1 h2 h3 h4 ha (fun m l sc hl hsc => py_neal2Ok _ (fun _ _ _ => rfl)
      (by simp [nnigEnv]) (nnig_conjugate y draw _) hpy hn ⟨hl, ha, hsc⟩) θ0,
    neal8_moves hg hw hs h1 h2 h3 h4 ha (fun m l sc hl hsc => py_neal8Ok _ (fun _ _ _ => rfl)
      (by simp [nnigEnv]) (nnig_conjugate y draw _) hpy hn ⟨hl, ha, hsc⟩) θ0 k⟩

/-- **C154, Dirichlet process**: the joint posterior for total mass one, which an iteration without
hyperprior keeps, is not kept. -/
theorem c154_dirichlet_violated (y : ℕ → ℝ) (draw : NIG → ℕ → UniLS) {prior : DPPrior} {dp : DPState}
    (hdp : DPRun prior dp) {n : ℕ} (hn : 2 ≤ n) {mu00 sig200 alpha00 beta00 a00 b00 sh : ℝ}
    (hs : 0 < sig200) (h1 : 0 < alpha00) (h2 : 0 < beta00) (h3 : 0 < a00) (h4 : 0 < b00) (ha : 0 < sh)
    {Z W : Type} [MeasurableSpace Z] [MeasurableSpace W] {ζ : Measure Z} {gen : Z → ℝ → ℝ → ℝ}
    {ω : Measure W} {gam : W → ℝ → ℝ → ℝ} (hg : NormalGen ζ gen) (hw : GenLaw ω gam gammaMeasure)
    (θ0 : UniLS) (k : ℕ) :
    haveI : Nonempty UniLS := ⟨θ0⟩
    (∃ φ M, MovesHypers (n := n) y draw (dpPrior 1) (.ngg mu00 sig200 alpha00 beta00 a00 b00 sh) sh θ0
      (neal2HyperIter y draw (dpScores (fun h i => nnigMargLpdf h (y i)) dp)
        (.ngg mu00 sig200 alpha00 beta00 a00 b00 sh) gen ζ gam ω n (observeH θ0 φ)) φ M) ∧
    ∃ φ M, ∀ aux : List (Hier (ℝ × ℝ) NIG UniLS), aux.length = k + 1 →
      MovesHypers (n := n) y draw (dpPrior 1) (.ngg mu00 sig200 alpha00 beta00 a00 b00 sh) sh θ0
        (fun s => neal8HyperIter y draw (dpScores (fun h i => nnigMargLpdf h (y i)) dp)
          (.ngg mu00 sig200 alpha00 beta00 a00 b00 sh) gen ζ gam ω n (fun t => observeH θ0 φ t.base)
          ⟨s, aux⟩) φ M := by
  haveI : Nonempty UniLS := ⟨θ0⟩
  exact ⟨neal2_moves hg hw hs h1 h2 h3 h4 ha (fun m l sc hl hsc => dp_neal2Ok _ (fun _ _ _ => rfl)
      (by simp [nnigEnv]) (nnig_conjugate y draw _) hdp hn ⟨hl, ha, hsc⟩) θ0,
    neal8_moves hg hw hs h1 h2 h3 h4 ha (fun m l sc hl hsc => dp_neal8Ok _ (fun _ _ _ => rfl)
      (by simp [nnigEnv]) (nnig_conjugate y draw _) hdp hn ⟨hl, ha, hsc⟩) θ0 k⟩

/-- Three rows; mean of the base measure `N(0, 4)`, scaling `Gamma(2, 2)`, scale `Gamma(3, 1)`. -/
example (y : ℕ → ℝ) (draw : NIG → ℕ → UniLS) (θ0 : UniLS) :=
  c154_pitman_yor_violated y draw (a := 1) (b := 1 / 2) (py := ⟨1, 1 / 2⟩) (by norm_num [pyInit]) (n := 3)
    (by omega) (mu00 := 0) (sig200 := 4) (alpha00 := 2) (beta00 := 2) (a00 := 3) (b00 := 1) (sh := 2)
    (by norm_num) two_pos two_pos three_pos one_pos two_pos affine_normalGen gammaSeeds θ0 2

example (y : ℕ → ℝ) (draw : NIG → ℕ → UniLS) (θ0 : UniLS) :=
  c154_dirichlet_violated y draw (prior := .fixed 2) (dp := ⟨2, 0⟩)
    (.init (by norm_num [dpInit, dpFresh])) (n := 3) (by omega) (mu00 := 0) (sig200 := 4) (alpha00 := 2)
    (beta00 := 2) (a00 := 3) (b00 := 1) (sh := 2) (by norm_num) two_pos two_pos three_pos one_pos two_pos
    affine_normalGen gammaSeeds θ0 2

end Bayesmix.Chain
