import Verif.Algo.HyperLawNgg
import Verif.Algo.PropsTotalMass

/-!
# C150: does updating the hyperparameters keep their law together with the values of the clusters?
-/

namespace Bayesmix.Chain
open Bayesmix Cond Hierarchies MeasureTheory ENNReal ProbabilityTheory

/-- Hyperparameters from their prior and `K` independent values given them have the same joint law
before and after `update_hypers`. -/
def HypersKept {Z W : Type} [MeasurableSpace Z] [MeasurableSpace W] (prior : NIGPrior)
    (gen : Z → ℝ → ℝ → ℝ) (ζ : Measure Z) (gam : W → ℝ → ℝ → ℝ) (ω : Measure W) (K : ℕ) : Prop :=
  ∀ φ : NIG → (Fin K → UniLS) → ℝ≥0∞,
    Measurable (fun p : (ℝ × ℝ × ℝ × ℝ) × (Fin K → UniLS) =>
      φ ⟨p.1.1, p.1.2.1, p.1.2.2.1, p.1.2.2.2⟩ p.2) →
    hyperJoint prior (hypersAfter prior gen ζ gam ω φ) = hyperJoint prior φ

section proof

variable {K : ℕ} {mu00 sig200 alpha00 beta00 a00 b00 sh : ℝ}
  {Z W : Type} [MeasurableSpace Z] [MeasurableSpace W] {ζ : Measure Z} {gen : Z → ℝ → ℝ → ℝ}
  {ω : Measure W} {gam : W → ℝ → ℝ → ℝ}

/-- The law of the draws behind the scaling, the scale and the variances. -/
noncomputable def scaleLaw (K : ℕ) (alpha00 beta00 a00 b00 sh : ℝ) : Measure (ℝ × ℝ × (Fin K → ℝ)) :=
  (gammaMeasure alpha00 beta00).prod ((gammaMeasure a00 b00).prod
    (Measure.pi fun _ : Fin K => gammaMeasure sh 1))

theorem scaleLaw_prob (h1 : 0 < alpha00) (h2 : 0 < beta00) (h3 : 0 < a00) (h4 : 0 < b00)
    (ha : 0 < sh) : IsProbabilityMeasure (scaleLaw K alpha00 beta00 a00 b00 sh) := by
  have := isProbabilityMeasure_gammaMeasure h1 h2
  have := isProbabilityMeasure_gammaMeasure h3 h4
  have := isProbabilityMeasure_gammaMeasure ha one_pos
  unfold scaleLaw
  infer_instance

theorem scaleLaw_ae (h1 : 0 < alpha00) (h2 : 0 < beta00) (h3 : 0 < a00) (h4 : 0 < b00)
    (ha : 0 < sh) : ∀ᵐ p ∂scaleLaw K alpha00 beta00 a00 b00 sh,
      0 < p.1 ∧ 0 < p.2.1 ∧ ∀ i, 0 < p.2.2 i := by
  have := isProbabilityMeasure_gammaMeasure h1 h2
  have := isProbabilityMeasure_gammaMeasure h3 h4
  have := isProbabilityMeasure_gammaMeasure ha one_pos
  have hgae : ∀ᵐ g ∂Measure.pi (fun _ : Fin K => gammaMeasure sh 1), ∀ i, 0 < g i := by
    rw [ae_all_iff]
    intro i
    exact (measurePreserving_eval (fun _ : Fin K => gammaMeasure sh 1) i).quasiMeasurePreserving.ae
      (ae_gammaMeasure sh 1)
  have e1 := (Measure.quasiMeasurePreserving_fst (μ := gammaMeasure alpha00 beta00)
    (ν := (gammaMeasure a00 b00).prod (Measure.pi fun _ : Fin K => gammaMeasure sh 1))).ae
    (ae_gammaMeasure alpha00 beta00)
  have e2 := (Measure.quasiMeasurePreserving_snd (μ := gammaMeasure alpha00 beta00)
    (ν := (gammaMeasure a00 b00).prod (Measure.pi fun _ : Fin K => gammaMeasure sh 1))).ae
    ((Measure.quasiMeasurePreserving_fst (μ := gammaMeasure a00 b00)
      (ν := Measure.pi fun _ : Fin K => gammaMeasure sh 1)).ae (ae_gammaMeasure a00 b00))
  have e3 := (Measure.quasiMeasurePreserving_snd (μ := gammaMeasure alpha00 beta00)
    (ν := (gammaMeasure a00 b00).prod (Measure.pi fun _ : Fin K => gammaMeasure sh 1))).ae
    ((Measure.quasiMeasurePreserving_snd (μ := gammaMeasure a00 b00)
      (ν := Measure.pi fun _ : Fin K => gammaMeasure sh 1)).ae hgae)
  unfold scaleLaw
  filter_upwards [e1, e2, e3] with p p1 p2 p3
  exact ⟨p1, p2, p3⟩

/-- By how much the update changes the second moment of the mean, given the other draws. -/
noncomputable def sqGain (sig200 : ℝ) (p : ℝ × ℝ × (Fin K → ℝ)) : ℝ :=
  1 / precOf sig200 p.1 p.2.1 p.2.2 ^ 2 - 1 / precOf sig200 p.1 p.2.1 p.2.2

theorem measurable_sqGain : Measurable (sqGain (K := K) sig200) := by
  unfold sqGain precOf precSum
  fun_prop

open Classical in
/-- If the law is kept, the gain has mean zero on every event of the variances. -/
theorem gain_zero (hg : NormalGen ζ gen) (hω : IsProbabilityMeasure ω) (hs : 0 < sig200)
    (h1 : 0 < alpha00) (h2 : 0 < beta00) (h3 : 0 < a00) (h4 : 0 < b00) (ha : 0 < sh)
    (hk : HypersKept (.ngg mu00 sig200 alpha00 beta00 a00 b00 sh) gen ζ gam ω K)
    {A : Set (Fin K → ℝ)} (hA : MeasurableSet A) :
    Integrable (fun p : ℝ × ℝ × (Fin K → ℝ) => A.indicator (1 : (Fin K → ℝ) → ℝ)
      (fun i => p.2.1 / p.2.2 i) * sqGain sig200 p) (scaleLaw K alpha00 beta00 a00 b00 sh) ∧
    ∫ p, A.indicator (1 : (Fin K → ℝ) → ℝ) (fun i => p.2.1 / p.2.2 i) * sqGain sig200 p
      ∂scaleLaw K alpha00 beta00 a00 b00 sh = 0 := by
  have hp := scaleLaw_prob (K := K) h1 h2 h3 h4 ha
  have hae := scaleLaw_ae (K := K) h1 h2 h3 h4 ha
  have hγ1 := isProbabilityMeasure_gammaMeasure h1 h2
  have hγ2 := isProbabilityMeasure_gammaMeasure h3 h4
  have hγ3 := isProbabilityMeasure_gammaMeasure ha one_pos
  have hmv : Measurable fun (p : ℝ × ℝ × (Fin K → ℝ)) (i : Fin K) => p.2.1 / p.2.2 i := by fun_prop
  obtain ⟨I, hI⟩ : ∃ I : ℝ × ℝ × (Fin K → ℝ) → ℝ, I = fun p =>
    A.indicator (1 : (Fin K → ℝ) → ℝ) fun i => p.2.1 / p.2.2 i := ⟨_, rfl⟩
  have hIm : Measurable I := by rw [hI]; exact (measurable_one.indicator hA).comp hmv
  have hI01 : ∀ p, 0 ≤ I p ∧ I p ≤ 1 := by
    intro p
    rw [hI]
    by_cases h : (fun i => p.2.1 / p.2.2 i) ∈ A <;> simp [h]
  have hIe : ∀ p : ℝ × ℝ × (Fin K → ℝ), A.indicator (1 : (Fin K → ℝ) → ℝ≥0∞)
      (fun i => p.2.1 / p.2.2 i) = ENNReal.ofReal (I p) := by
    intro p
    rw [hI]
    by_cases h : (fun i => p.2.1 / p.2.2 i) ∈ A <;> simp [h]
  have hφ : Measurable (fun p : (ℝ × ℝ × ℝ × ℝ) × (Fin K → UniLS) =>
      sqTest mu00 A ⟨p.1.1, p.1.2.1, p.1.2.2.1, p.1.2.2.2⟩ p.2) := by
    unfold sqTest
    refine Measurable.mul ?_ (by fun_prop)
    refine (measurable_one.indicator hA).comp (measurable_pi_lambda _ fun i => ?_)
    exact measurable_var.comp ((measurable_pi_apply i).comp measurable_snd)
  have heq := hk (sqTest mu00 A) hφ
  simp only [hyperJoint, hyperPriorMean] at heq
  -- both sides as integrals over the draws
  have hgb : ∀ p : ℝ × ℝ × (Fin K → ℝ), 0 < p.1 → 0 < p.2.1 → (∀ i, 0 < p.2.2 i) →
      0 < 1 / precOf sig200 p.1 p.2.1 p.2.2 ∧ 1 / precOf sig200 p.1 p.2.1 p.2.2 ≤ sig200 := by
    intro p p1 p2 p3
    have h5 := precOf_ge (sig200 := sig200) p1 p2 p3
    have h6 := one_div_pos.2 hs
    refine ⟨one_div_pos.2 (lt_of_lt_of_le h6 h5), ?_⟩
    have := one_div_le_one_div_of_le h6 h5
    rwa [one_div_one_div] at this
  have hgain : ∀ p : ℝ × ℝ × (Fin K → ℝ), sqGain sig200 p =
      (1 / precOf sig200 p.1 p.2.1 p.2.2) ^ 2 - 1 / precOf sig200 p.1 p.2.1 p.2.2 := by
    intro p
    rw [sqGain, one_div_pow]
  have m1 : Measurable fun p : ℝ × ℝ × (Fin K → ℝ) =>
      ENNReal.ofReal (I p) * ENNReal.ofReal sig200 := (hIm.ennreal_ofReal).mul_const _
  have m2 : Measurable fun p : ℝ × ℝ × (Fin K → ℝ) =>
      ENNReal.ofReal (I p) * ENNReal.ofReal (sig200 + sqGain sig200 p) :=
    (hIm.ennreal_ofReal).mul (measurable_sqGain.const_add _).ennreal_ofReal
  have nest : ∀ F : ℝ × ℝ × (Fin K → ℝ) → ℝ≥0∞, Measurable F →
      ∫⁻ l, ∫⁻ sc, ∫⁻ g, F (l, sc, g) ∂Measure.pi (fun _ : Fin K => gammaMeasure sh 1)
        ∂gammaMeasure a00 b00 ∂gammaMeasure alpha00 beta00 =
      ∫⁻ p, F p ∂scaleLaw K alpha00 beta00 a00 b00 sh := by
    intro F hF
    rw [scaleLaw, lintegral_prod _ hF.aemeasurable]
    refine lintegral_congr fun l => ?_
    have hFl : Measurable fun q : ℝ × (Fin K → ℝ) => F (l, q) := hF.comp (by fun_prop)
    rw [lintegral_prod _ hFl.aemeasurable]
  have hL : ∫⁻ l, ∫⁻ sc, ∫⁻ m, ∫⁻ θ, sqTest mu00 A ⟨m, l, sh, sc⟩ θ
        ∂Measure.pi (fun _ : Fin K => nigLaw ⟨m, l, sh, sc⟩) ∂normalLaw mu00 (Real.sqrt sig200)
        ∂gammaMeasure a00 b00 ∂gammaMeasure alpha00 beta00 =
      ∫⁻ p, ENNReal.ofReal (I p) * ENNReal.ofReal sig200 ∂scaleLaw K alpha00 beta00 a00 b00 sh := by
    rw [← nest _ m1]
    refine lintegral_congr_ae ?_
    filter_upwards [ae_gammaMeasure alpha00 beta00] with l hl
    refine lintegral_congr_ae ?_
    filter_upwards [ae_gammaMeasure a00 b00] with sc hsc
    rw [sqTest_before hA hs hl ha hsc]
    exact lintegral_congr fun g => by rw [← hIe (l, sc, g)]
  have hR : ∫⁻ l, ∫⁻ sc, ∫⁻ m, ∫⁻ θ, hypersAfter (.ngg mu00 sig200 alpha00 beta00 a00 b00 sh)
        gen ζ gam ω (sqTest mu00 A) ⟨m, l, sh, sc⟩ θ
        ∂Measure.pi (fun _ : Fin K => nigLaw ⟨m, l, sh, sc⟩) ∂normalLaw mu00 (Real.sqrt sig200)
        ∂gammaMeasure a00 b00 ∂gammaMeasure alpha00 beta00 =
      ∫⁻ p, ENNReal.ofReal (I p) * ENNReal.ofReal (sig200 + sqGain sig200 p)
        ∂scaleLaw K alpha00 beta00 a00 b00 sh := by
    rw [← nest _ m2]
    refine lintegral_congr_ae ?_
    filter_upwards [ae_gammaMeasure alpha00 beta00] with l hl
    refine lintegral_congr_ae ?_
    filter_upwards [ae_gammaMeasure a00 b00] with sc hsc
    rw [sqTest_after hA hg hω hs h1 h2 h3 h4 hl ha hsc]
    exact lintegral_congr fun g => by rw [← hIe (l, sc, g)]; rfl
  rw [hL, hR] at heq
  simp only [← ENNReal.ofReal_mul (hI01 _).1] at heq
  have i1 : Integrable (fun p => I p * sig200) (scaleLaw K alpha00 beta00 a00 b00 sh) := by
    refine Integrable.of_bound (hIm.mul_const _).aestronglyMeasurable sig200
      (Filter.Eventually.of_forall fun p => ?_)
    rw [Real.norm_eq_abs, abs_of_nonneg (mul_nonneg (hI01 p).1 hs.le)]
    have := mul_le_mul_of_nonneg_right (hI01 p).2 hs.le
    linarith
  have i2 : Integrable (fun p => I p * sqGain sig200 p) (scaleLaw K alpha00 beta00 a00 b00 sh) := by
    refine Integrable.of_bound (hIm.mul measurable_sqGain).aestronglyMeasurable (sig200 ^ 2 + sig200) ?_
    filter_upwards [hae] with p hpp
    obtain ⟨u1, u2⟩ := hgb p hpp.1 hpp.2.1 hpp.2.2
    rw [Real.norm_eq_abs, abs_mul, abs_of_nonneg (hI01 p).1, hgain]
    have h7 : |(1 / precOf sig200 p.1 p.2.1 p.2.2) ^ 2 - 1 / precOf sig200 p.1 p.2.1 p.2.2| ≤
        sig200 ^ 2 + sig200 := by
      rw [abs_le]
      constructor <;> nlinarith
    calc I p * _ ≤ 1 * _ := mul_le_mul_of_nonneg_right (hI01 p).2 (abs_nonneg _)
      _ ≤ sig200 ^ 2 + sig200 := by rw [one_mul]; exact h7
  have i3 : Integrable (fun p => I p * (sig200 + sqGain sig200 p))
      (scaleLaw K alpha00 beta00 a00 b00 sh) := by
    have e : (fun p => I p * (sig200 + sqGain sig200 p)) =
        fun p => I p * sig200 + I p * sqGain sig200 p := by funext p; ring
    rw [e]
    exact i1.add i2
  have n3 : 0 ≤ᵐ[scaleLaw K alpha00 beta00 a00 b00 sh] fun p => I p * (sig200 + sqGain sig200 p) := by
    filter_upwards [hae] with p hpp
    obtain ⟨u1, u2⟩ := hgb p hpp.1 hpp.2.1 hpp.2.2
    refine mul_nonneg (hI01 p).1 ?_
    rw [hgain]
    nlinarith
  rw [← ofReal_integral_eq_lintegral_ofReal i1
    (Filter.Eventually.of_forall fun p => mul_nonneg (hI01 p).1 hs.le),
    ← ofReal_integral_eq_lintegral_ofReal i3 n3,
    ENNReal.ofReal_eq_ofReal_iff (integral_nonneg_of_ae n3)
      (integral_nonneg fun p => mul_nonneg (hI01 p).1 hs.le)] at heq
  have e : ∫ p, I p * (sig200 + sqGain sig200 p) ∂scaleLaw K alpha00 beta00 a00 b00 sh =
      ∫ p, I p * sig200 ∂scaleLaw K alpha00 beta00 a00 b00 sh +
        ∫ p, I p * sqGain sig200 p ∂scaleLaw K alpha00 beta00 a00 b00 sh := by
    rw [← integral_add i1 i2]
    refine integral_congr_ae (Filter.Eventually.of_forall fun p => ?_)
    dsimp only
    ring
  rw [e] at heq
  have hz : ∫ p, I p * sqGain sig200 p ∂scaleLaw K alpha00 beta00 a00 b00 sh = 0 := by linarith
  rw [hI] at i2 hz
  exact ⟨i2, hz⟩

theorem gammaMeasure_Icc_pos {a r x y : ℝ} (ha : 0 < a) (hr : 0 < r) (hx : 0 < x) (hxy : x < y) :
    0 < gammaMeasure a r (Set.Icc x y) := by
  rw [pos_iff_ne_zero]
  intro h0
  have hm : Measurable (gammaPDF a r) :=
    ENNReal.measurable_ofReal.comp (measurable_gammaPDFReal a r)
  rw [gammaMeasure, withDensity_apply_eq_zero hm] at h0
  have hsub : Set.Icc x y ⊆ {z | gammaPDF a r z ≠ 0} ∩ Set.Icc x y := by
    intro z hz
    refine ⟨?_, hz⟩
    have hz0 : 0 < z := lt_of_lt_of_le hx hz.1
    have := gammaPDFReal_pos ha hr hz0
    simp only [Set.mem_setOf_eq, gammaPDF, ne_eq, ENNReal.ofReal_eq_zero, not_le]
    exact this
  have h5 := measure_mono_null hsub h0
  rw [Real.volume_Icc, ENNReal.ofReal_eq_zero] at h5
  linarith

/-- **C150, Normal-Gamma-Gamma prior.** For every accepted prior and every positive number of clusters
the update of the hyperparameters changes the joint law. -/
theorem c150_ngg_violated (hg : NormalGen ζ gen) (hw : GenLaw ω gam gammaMeasure) (hs : 0 < sig200)
    (h1 : 0 < alpha00) (h2 : 0 < beta00) (h3 : 0 < a00) (h4 : 0 < b00) (ha : 0 < sh) (hK : 0 < K) :
    ¬ HypersKept (.ngg mu00 sig200 alpha00 beta00 a00 b00 sh) gen ζ gam ω K := by
  intro hk
  have hp := scaleLaw_prob (K := K) h1 h2 h3 h4 ha
  have hae := scaleLaw_ae (K := K) h1 h2 h3 h4 ha
  have hγ1 := isProbabilityMeasure_gammaMeasure h1 h2
  have hγ2 := isProbabilityMeasure_gammaMeasure h3 h4
  have hγ3 := isProbabilityMeasure_gammaMeasure ha one_pos
  have hgz := fun (A : Set (Fin K → ℝ)) (hA : MeasurableSet A) =>
    gain_zero hg hw.prob hs h1 h2 h3 h4 ha hk hA
  rcases le_or_gt 1 (1 / sig200) with hc | hc
  · obtain ⟨hi, hz⟩ := hgz Set.univ MeasurableSet.univ
    simp only [Set.indicator_univ, Pi.one_apply, one_mul] at hi hz
    have hneg : ∀ᵐ p ∂scaleLaw K alpha00 beta00 a00 b00 sh, 0 < -sqGain sig200 p := by
      filter_upwards [hae] with p hpp
      have hB : 0 < precSum p.2.1 p.2.2 := by
        refine Finset.sum_pos (fun i _ => one_div_pos.2 (div_pos hpp.2.1 (hpp.2.2 i))) ?_
        exact ⟨⟨0, hK⟩, Finset.mem_univ _⟩
      have hP : 1 < precOf sig200 p.1 p.2.1 p.2.2 := by
        have := mul_pos hpp.1 hB
        unfold precOf
        linarith
      have h0 : 0 < precOf sig200 p.1 p.2.1 p.2.2 := by linarith
      have h6 : 1 / precOf sig200 p.1 p.2.1 p.2.2 < 1 := by rw [div_lt_one h0]; exact hP
      have h7 := one_div_pos.2 h0
      rw [sqGain, ← one_div_pow]
      nlinarith
    have hz' : ∫ p, -sqGain sig200 p ∂scaleLaw K alpha00 beta00 a00 b00 sh = 0 := by
      rw [integral_neg, hz, neg_zero]
    have h0 : 0 ≤ᵐ[scaleLaw K alpha00 beta00 a00 b00 sh] fun p => -sqGain sig200 p := by
      filter_upwards [hneg] with p h using h.le
    have h5 := (integral_eq_zero_iff_of_nonneg_ae h0 hi.neg).1 hz'
    obtain ⟨p, hp1, hp2⟩ := (hneg.and h5).exists
    simp only [Pi.zero_apply] at hp2
    linarith
  · obtain ⟨c, hcd⟩ : ∃ c, c = 1 / sig200 := ⟨_, rfl⟩
    have hc0 : 0 < c := by rw [hcd]; exact one_div_pos.2 hs
    rw [← hcd] at hc
    obtain ⟨δ, hδd⟩ : ∃ δ, δ = 2 / (1 + c) - 1 := ⟨_, rfl⟩
    have hδ : 0 < δ := by
      have : 1 < 2 / (1 + c) := by rw [lt_div_iff₀ (by linarith)]; linarith
      rw [hδd]; linarith
    -- a bound that the scaling exceeds with small probability
    obtain ⟨L, hL0, hL⟩ : ∃ L : ℝ, 0 < L ∧
        (1 / 4) / (δ + 1 / 4) < (gammaMeasure alpha00 beta00).real (Set.Iic L) := by
      have ht := tendsto_cdf_atTop (gammaMeasure alpha00 beta00)
      have hlt : (1 / 4) / (δ + 1 / 4) < (1 : ℝ) := by rw [div_lt_one (by linarith)]; linarith
      obtain ⟨L, h5, h6⟩ := ((ht.eventually (lt_mem_nhds hlt)).and
        (Filter.eventually_gt_atTop (0 : ℝ))).exists
      exact ⟨L, h6, by rwa [cdf_eq_real] at h5⟩
    have hKr : (0 : ℝ) < K := Nat.cast_pos.2 hK
    obtain ⟨ε, hεd⟩ : ∃ ε, ε = (1 - c) / (2 * K * L) := ⟨_, rfl⟩
    have hε : 0 < ε := by rw [hεd]; exact div_pos (by linarith) (by positivity)
    obtain ⟨A, hAd⟩ : ∃ A : Set (Fin K → ℝ), A = {v | ∀ i, 1 / v i ≤ ε} := ⟨_, rfl⟩
    have hA : MeasurableSet A := by
      have : A = ⋂ i, {v : Fin K → ℝ | 1 / v i ≤ ε} := by rw [hAd]; ext v; simp
      rw [this]
      exact MeasurableSet.iInter fun i => measurableSet_le (by fun_prop) measurable_const
    obtain ⟨hi, hz⟩ := hgz A hA
    obtain ⟨ψ, hψ⟩ : ∃ ψ : ℝ → ℝ, ψ = fun l => (Set.Iic L).indicator (fun _ => δ + 1 / 4) l - 1 / 4 :=
      ⟨_, rfl⟩
    have hψi : Integrable ψ (gammaMeasure alpha00 beta00) := by
      rw [hψ]
      exact ((integrable_const _).indicator measurableSet_Iic).sub (integrable_const _)
    have hψ0 : 0 < ∫ l, ψ l ∂gammaMeasure alpha00 beta00 := by
      rw [hψ, integral_sub ((integrable_const _).indicator measurableSet_Iic) (integrable_const _),
        integral_indicator_const _ measurableSet_Iic, integral_const]
      rw [div_lt_iff₀ (by linarith)] at hL
      simp only [smul_eq_mul, probReal_univ, one_mul]
      linarith
    obtain ⟨I, hI⟩ : ∃ I : ℝ × (Fin K → ℝ) → ℝ, I = fun q =>
      A.indicator (1 : (Fin K → ℝ) → ℝ) fun i => q.1 / q.2 i := ⟨_, rfl⟩
    have hIm : Measurable I := by
      rw [hI]; exact (measurable_one.indicator hA).comp (by fun_prop)
    have hI01 : ∀ q, 0 ≤ I q ∧ I q ≤ 1 := by
      intro q
      rw [hI]
      by_cases h : (fun i => q.1 / q.2 i) ∈ A <;> simp [h]
    have hIi : Integrable I ((gammaMeasure a00 b00).prod
        (Measure.pi fun _ : Fin K => gammaMeasure sh 1)) := by
      refine Integrable.of_bound hIm.aestronglyMeasurable 1 (Filter.Eventually.of_forall fun q => ?_)
      rw [Real.norm_eq_abs, abs_of_nonneg (hI01 q).1]
      exact (hI01 q).2
    have hI0 : 0 < ∫ q, I q ∂((gammaMeasure a00 b00).prod
        (Measure.pi fun _ : Fin K => gammaMeasure sh 1)) := by
      rw [integral_pos_iff_support_of_nonneg (fun q => (hI01 q).1) hIi]
      have hsub : Set.Icc (1 / ε) (1 / ε + 1) ×ˢ (Set.univ.pi fun _ : Fin K => Set.Icc (1 / 2 : ℝ) 1) ⊆
          Function.support I := by
        rintro ⟨s, g⟩ ⟨hs1, hg1⟩
        have hs0 : 0 < s := lt_of_lt_of_le (one_div_pos.2 hε) hs1.1
        have hmem : (fun i => s / g i) ∈ A := by
          rw [hAd]
          intro i
          have hgi := hg1 i (Set.mem_univ i)
          have hg0 : 0 < g i := lt_of_lt_of_le (by norm_num) hgi.1
          have h5 : 1 / ε ≤ s := hs1.1
          rw [div_le_iff₀ hε] at h5
          rw [one_div_div, div_le_iff₀ hs0]
          have := hgi.2
          linarith
        rw [Function.mem_support, hI]
        simp [hmem]
      refine lt_of_lt_of_le ?_ (measure_mono hsub)
      rw [Measure.prod_prod, Measure.pi_pi]
      refine ENNReal.mul_pos (gammaMeasure_Icc_pos h3 h4 (one_div_pos.2 hε) (by linarith)).ne' ?_
      rw [Finset.prod_ne_zero_iff]
      intro i _
      exact (gammaMeasure_Icc_pos ha one_pos (by norm_num) (by norm_num)).ne'
    have hprod : ∫ p, ψ p.1 * I p.2 ∂scaleLaw K alpha00 beta00 a00 b00 sh =
        (∫ l, ψ l ∂gammaMeasure alpha00 beta00) * ∫ q, I q ∂((gammaMeasure a00 b00).prod
          (Measure.pi fun _ : Fin K => gammaMeasure sh 1)) := integral_prod_mul ψ I
    have hpi : Integrable (fun p : ℝ × ℝ × (Fin K → ℝ) => ψ p.1 * I p.2)
        (scaleLaw K alpha00 beta00 a00 b00 sh) := hψi.mul_prod hIi
    have hle : ∫ p, ψ p.1 * I p.2 ∂scaleLaw K alpha00 beta00 a00 b00 sh ≤
        ∫ p, A.indicator (1 : (Fin K → ℝ) → ℝ) (fun i => p.2.1 / p.2.2 i) * sqGain sig200 p
          ∂scaleLaw K alpha00 beta00 a00 b00 sh := by
      refine integral_mono_ae hpi hi ?_
      filter_upwards [hae] with p hpp
      have hIp : A.indicator (1 : (Fin K → ℝ) → ℝ) (fun i => p.2.1 / p.2.2 i) = I p.2 := by rw [hI]
      rw [hIp, mul_comm]
      by_cases hm : (fun i => p.2.1 / p.2.2 i) ∈ A
      · refine mul_le_mul_of_nonneg_left ?_ (hI01 _).1
        obtain ⟨P, hP⟩ : ∃ P, P = precOf sig200 p.1 p.2.1 p.2.2 := ⟨_, rfl⟩
        have hPc : c ≤ P := by rw [hP, hcd]; exact precOf_ge hpp.1 hpp.2.1 hpp.2.2
        have hP0 : 0 < P := by linarith
        rw [sqGain, ← hP, ← one_div_pow, hψ]
        by_cases hl : p.1 ≤ L
        · simp only [Set.mem_Iic, hl, Set.indicator_of_mem, add_sub_cancel_right]
          have hB : precSum p.2.1 p.2.2 ≤ K * ε := by
            have h5 : precSum p.2.1 p.2.2 ≤ ∑ _i : Fin K, ε := by
              refine Finset.sum_le_sum fun i _ => ?_
              rw [hAd] at hm
              exact hm i
            simpa using h5
          have hB0 := precSum_nonneg hpp.2.1 hpp.2.2
          have h6 : p.1 * precSum p.2.1 p.2.2 ≤ L * (K * ε) := mul_le_mul hl hB hB0 hL0.le
          have h7 : L * (K * ε) = (1 - c) / 2 := by
            rw [hεd]; field_simp
          have hPu : P ≤ (1 + c) / 2 := by
            rw [hP, precOf, ← hcd]; linarith
          have h8 : 2 / (1 + c) ≤ 1 / P := by
            rw [div_le_div_iff₀ (by linarith) hP0]; linarith
          have h9 : 1 ≤ 1 / P := by linarith
          rw [hδd]
          nlinarith
        · simp only [Set.mem_Iic, hl, not_false_eq_true, Set.indicator_of_notMem, zero_sub]
          nlinarith [sq_nonneg (1 / P - 1 / 2)]
      · have : I p.2 = 0 := by rw [hI]; simp [hm]
        rw [this]; simp
    rw [hz, hprod] at hle
    have := mul_pos hψ0 hI0
    linarith

/-- With fixed hyperparameters nothing changes. -/
theorem c150_fixed (hg : IsProbabilityMeasure ζ) (hw : IsProbabilityMeasure ω) (m l sc : ℝ) (K : ℕ) :
    HypersKept (.fixed m l sh sc) gen ζ gam ω K := by
  intro φ _
  simp only [hyperJoint, hyperPriorMean, hypersAfter, nigUpdateHypers, lintegral_const, measure_univ,
    mul_one]

/-- **C150, Normal prior on the mean.** The update keeps the joint law, whatever the number of
clusters. -/
theorem c150_normal_mean (hg : NormalGen ζ gen) (hw : IsProbabilityMeasure ω) (hs : 0 < sig200)
    {l sc : ℝ} (hl : 0 < l) (ha : 0 < sh) (hb : 0 < sc) (K : ℕ) :
    HypersKept (.normalMean mu00 sig200 l sh sc) gen ζ gam ω K := by
  intro φ hφ
  have hN := affine_normalGen.prob
  have hζ := hg.prob
  have hNm := normalLaw_prob mu00 hs
  have h0 := nigLaw_prob ⟨0, l, sh, sc⟩ hl ha hb
  simp only [hyperJoint, hyperPriorMean]
  obtain ⟨q, hq⟩ : ∃ q : (Fin K → UniLS) → ℝ × ℝ, q = fun θ =>
    nigMeanParams mu00 sig200 l (List.ofFn θ) := ⟨_, rfl⟩
  have hmean : ∀ i : Fin K, Measurable fun θ : Fin K → UniLS => (θ i).mean := fun i =>
    measurable_mean.comp (measurable_pi_apply i)
  have hvar : ∀ i : Fin K, Measurable fun θ : Fin K → UniLS => (θ i).var := fun i =>
    measurable_var.comp (measurable_pi_apply i)
  have hq1 : Measurable fun θ => (q θ).1 := by
    rw [hq]
    simp only [nigMeanParams, List.map_ofFn, List.sum_ofFn, Function.comp_def]
    fun_prop
  have hq2 : Measurable fun θ => (q θ).2 := by
    rw [hq]
    simp only [nigMeanParams, List.map_ofFn, List.sum_ofFn, Function.comp_def]
    fun_prop
  have hφm : Measurable fun p : ℝ × (Fin K → UniLS) => φ ⟨p.1, l, sh, sc⟩ p.2 :=
    hφ.comp (f := fun p : ℝ × (Fin K → UniLS) => ((p.1, l, sh, sc), p.2)) (by fun_prop)
  have hφ1 : ∀ θ, Measurable fun m => φ ⟨m, l, sh, sc⟩ θ := fun θ =>
    hφm.comp (f := fun m : ℝ => (m, θ)) (by fun_prop)
  have hφ2 : ∀ m, Measurable fun θ => φ ⟨m, l, sh, sc⟩ θ := fun m =>
    hφm.comp (f := fun θ : Fin K → UniLS => (m, θ)) (by fun_prop)
  obtain ⟨k, hk⟩ : ∃ k : (Fin K → UniLS) → ℝ≥0∞, k = fun θ =>
    ∫⁻ x, φ ⟨(q θ).1 + (q θ).2 * x, l, sh, sc⟩ θ ∂normalLaw 0 1 := ⟨_, rfl⟩
  have hkm : Measurable k := by
    have : Measurable fun p : (Fin K → UniLS) × ℝ =>
        φ ⟨(q p.1).1 + (q p.1).2 * p.2, l, sh, sc⟩ p.1 :=
      hφm.comp (f := fun p : (Fin K → UniLS) × ℝ => ((q p.1).1 + (q p.1).2 * p.2, p.1))
        (((hq1.comp measurable_fst).add ((hq2.comp measurable_fst).mul measurable_snd)).prodMk
          measurable_fst)
    rw [hk]
    exact this.lintegral_prod_right'
  have hpos : ∀ θ : Fin K → UniLS, (∀ i, 0 < (θ i).var) → ∀ st ∈ List.ofFn θ, 0 < st.var := by
    intro θ hθ st hst
    obtain ⟨i, rfl⟩ := List.mem_ofFn.1 hst
    exact hθ i
  have hsd : ∀ θ : Fin K → UniLS, (∀ i, 0 < (θ i).var) → 0 < (q θ).2 := fun θ hθ => by
    rw [hq]; exact meanParams_sd_pos hs hl (hpos θ hθ)
  have hkn : ∀ θ : Fin K → UniLS, (∀ i, 0 < (θ i).var) →
      k θ = ∫⁻ m, φ ⟨m, l, sh, sc⟩ θ ∂normalLaw (q θ).1 (q θ).2 := fun θ hθ => by
    rw [hk]; exact affine_normalGen.lintegral (hsd θ hθ) (hφ1 θ)
  have hafter : ∀ (m : ℝ) (θ : Fin K → UniLS), (∀ i, 0 < (θ i).var) →
      hypersAfter (.normalMean mu00 sig200 l sh sc) gen ζ gam ω φ ⟨m, l, sh, sc⟩ θ = k θ := by
    intro m θ hθ
    have hsd' := hsd θ hθ
    have e : q θ = nigMeanParams mu00 sig200 l (List.ofFn θ) := by rw [hq]
    simp only [hypersAfter, nigUpdateHypers, normalRngChk, ← e, not_le.2 hsd', if_false, ok_bind,
      lintegral_const, measure_univ, mul_one]
    rw [hkn θ hθ]
    exact hg.lintegral hsd' (hφ1 θ)
  obtain ⟨D, hD⟩ : ∃ D : ℝ → (Fin K → UniLS) → ℝ≥0∞, D = fun m θ => ∏ i, tiltAt l sh sc m (θ i) :=
    ⟨_, rfl⟩
  have hDm : Measurable fun p : ℝ × (Fin K → UniLS) => D p.1 p.2 := by
    rw [hD]
    refine Finset.measurable_prod _ fun i _ => ?_
    exact (measurable_tiltAt l sh sc).comp (f := fun p : ℝ × (Fin K → UniLS) => (p.1, p.2 i))
      (measurable_fst.prodMk ((measurable_pi_apply i).comp measurable_snd))
  obtain ⟨μ, hμ⟩ : ∃ μ : Measure (Fin K → UniLS), μ = Measure.pi fun _ => nigLaw ⟨0, l, sh, sc⟩ :=
    ⟨_, rfl⟩
  have hμp : IsProbabilityMeasure μ := by rw [hμ]; infer_instance
  have e1 : ∀ m, ∫⁻ θ, hypersAfter (.normalMean mu00 sig200 l sh sc) gen ζ gam ω φ ⟨m, l, sh, sc⟩ θ
      ∂Measure.pi (fun _ : Fin K => nigLaw ⟨m, l, sh, sc⟩) = ∫⁻ θ, D m θ * k θ ∂μ := by
    intro m
    rw [hμ, hD]
    refine Eq.trans ?_ (pi_tiltAt (ι := Fin K) hl ha hb m hkm).symm
    refine lintegral_congr_ae ?_
    filter_upwards [pi_ae (ι := Fin K) hl ha hb m] with θ hθ
    exact hafter m θ hθ
  have e2 : ∀ m, ∫⁻ θ, φ ⟨m, l, sh, sc⟩ θ ∂Measure.pi (fun _ : Fin K => nigLaw ⟨m, l, sh, sc⟩) =
      ∫⁻ θ, D m θ * φ ⟨m, l, sh, sc⟩ θ ∂μ := by
    intro m
    rw [hμ, hD]
    exact (pi_tiltAt (ι := Fin K) hl ha hb m (hφ2 m)).symm
  have j1 : Measurable fun p : ℝ × (Fin K → UniLS) => D p.1 p.2 * k p.2 :=
    hDm.mul (hkm.comp measurable_snd)
  have j2 : Measurable fun p : ℝ × (Fin K → UniLS) => D p.1 p.2 * φ ⟨p.1, l, sh, sc⟩ p.2 :=
    hDm.mul hφm
  simp only [e1, e2]
  refine (lintegral_lintegral_swap (f := fun m θ => D m θ * k θ) j1.aemeasurable).trans
    (Eq.trans ?_ (lintegral_lintegral_swap (f := fun m θ => D m θ * φ ⟨m, l, sh, sc⟩ θ)
      j2.aemeasurable).symm)
  refine lintegral_congr_ae ?_
  have hae := pi_ae (ι := Fin K) hl ha hb 0
  rw [← hμ] at hae
  filter_upwards [hae] with θ hθ
  obtain ⟨C, hC⟩ := mean_disintegrate_list (mu00 := mu00) (sh := sh) (sc := sc) hs hl (hpos θ hθ)
  have hDl : ∀ m, D m θ = ((List.ofFn θ).map (tiltAt l sh sc m)).prod := by
    intro m
    rw [hD]
    simp only [List.map_ofFn, List.prod_ofFn, Function.comp_def]
  have eq : nigMeanParams mu00 sig200 l (List.ofFn θ) = q θ := by rw [hq]
  have hN2 : IsProbabilityMeasure (normalLaw (q θ).1 (q θ).2) := by
    rw [← affine_normalGen.law _ _ (hsd θ hθ)]
    exact Measure.isProbabilityMeasure_map (by fun_prop)
  simp only [hDl]
  rw [hC _ measurable_const, hC _ (hφ1 θ), eq, lintegral_const, measure_univ, mul_one, hkn θ hθ]

end proof

/-- Three clusters, mean of the base measure `N(0, 4)`, scaling `Gamma(2, 2)`, scale `Gamma(3, 1)`. -/
example : ¬ HypersKept (.ngg 0 4 2 2 3 1 2) (fun z m s => m + s * z) (normalLaw 0 1)
    (fun z a r => z (a, r)) (lawSeeds gammaMeasure) 3 :=
  c150_ngg_violated affine_normalGen gammaSeeds (by norm_num) two_pos two_pos three_pos one_pos two_pos three_pos

/-- Three clusters with a Normal prior on the mean, and with fixed hyperparameters. -/
example : HypersKept (.normalMean 0 4 1 2 1) (fun z m s => m + s * z) (normalLaw 0 1)
    (fun z a r => z (a, r)) (lawSeeds gammaMeasure) 3 :=
  c150_normal_mean affine_normalGen gammaSeeds.prob (by norm_num) one_pos two_pos one_pos 3

example : HypersKept (.fixed 0 1 2 3) (fun z m s => m + s * z) (normalLaw 0 1)
    (fun z a r => z (a, r)) (lawSeeds gammaMeasure) 3 :=
  c150_fixed affine_normalGen.prob gammaSeeds.prob 0 1 3 3

end Bayesmix.Chain
