import Verif.Algo.HyperLaw
import Verif.Hier.PropsConj
import Mathlib.MeasureTheory.Measure.OpenPos

/-!
# The draw of a Normal x inverse Gamma cluster, as a step between laws
-/

namespace Bayesmix.Chain
open Bayesmix Cond Hierarchies MeasureTheory ENNReal ProbabilityTheory

/-- The measure on the positive numbers with log-density `invGammaLpdf`. -/
noncomputable def invGammaLaw (a b : ℝ) : Measure ℝ :=
  (volume.restrict (Set.Ioi (0 : ℝ))).withDensity fun x => ENNReal.ofReal (Real.exp (invGammaLpdf x a b))

/-- Likelihood of the rows `idx` times prior density (`uni_norm_likelihood.cc` 3-5,
`nxig_prior_model.cc` 25-31), at mean and variance `p`. -/
noncomputable def clusterDens (h : NxIG) (data : ℤ → ℝ) (idx : Finset ℤ) (p : ℝ × ℝ) : ℝ≥0∞ :=
  ENNReal.ofReal (Real.exp ((∑ i ∈ idx, uniNormLpdf ⟨p.1, p.2⟩ (data i)) + nxigLpdf h ⟨p.1, p.2⟩))

/-- The integral of `φ` against likelihood times prior of a cluster: the posterior law of its state,
not normalised. -/
noncomputable def lsPostMean (h : NxIG) (data : ℤ → ℝ) (idx : Finset ℤ) (φ : UniLS → ℝ≥0∞) : ℝ≥0∞ :=
  ∫⁻ p, clusterDens h data idx p * φ ⟨p.1, p.2⟩ ∂lsVol

/-- The mean of `φ` at the state after `SemiConjugateUpdater::draw`
(`src/hierarchies/updaters/semi_conjugate_updater.h` 68-83) from the state `st`. -/
noncomputable def lsDrawMean {Z W : Type} [MeasurableSpace Z] [MeasurableSpace W] (h : NxIG)
    (gen : Z → ℝ → ℝ → ℝ) (ζ : Measure Z) (ig : W → ℝ → ℝ → ℝ) (ω : Measure W)
    (c : Cluster UniNormStats UniLS) (φ : UniLS → ℝ≥0∞) (st : UniLS) : ℝ≥0∞ :=
  ∫⁻ z, ∫⁻ w, φ (nnxigDraw h { c with state := st } (gen z) (ig w)).state ∂ω ∂ζ

theorem measurable_invGammaDens (a b : ℝ) :
    Measurable fun x => ENNReal.ofReal (Real.exp (invGammaLpdf x a b)) :=
  ENNReal.measurable_ofReal.comp (Real.measurable_exp.comp (measurable_invGammaLpdf measurable_id a b))

theorem measurable_normalDens (m s : ℝ) :
    Measurable fun x => ENNReal.ofReal (Real.exp (normalLpdf x m s)) :=
  ENNReal.measurable_ofReal.comp (Real.measurable_exp.comp
    (measurable_normalLpdf measurable_id measurable_const measurable_const))

theorem lintegral_invGammaLaw (a b : ℝ) {f : ℝ → ℝ≥0∞} (hf : Measurable f) :
    ∫⁻ x, f x ∂invGammaLaw a b =
      ∫⁻ x in Set.Ioi 0, ENNReal.ofReal (Real.exp (invGammaLpdf x a b)) * f x := by
  rw [invGammaLaw, lintegral_withDensity_eq_lintegral_mul _ (measurable_invGammaDens a b) hf]
  rfl

theorem invGammaLaw_prob {a b : ℝ} (ha : 0 < a) (hb : 0 < b) :
    IsProbabilityMeasure (invGammaLaw a b) := by
  constructor
  have h := lintegral_invGammaLaw a b (f := fun _ => 1) measurable_const
  rw [lintegral_const, one_mul] at h
  rw [h]
  simp only [mul_one]
  exact lintegral_invGammaLpdf a b ha hb

theorem measurable_clusterDens (h : NxIG) (data : ℤ → ℝ) (idx : Finset ℤ) :
    Measurable (clusterDens h data idx) := by
  unfold clusterDens
  refine ENNReal.measurable_ofReal.comp (Real.measurable_exp.comp (Measurable.add ?_ ?_))
  · exact Finset.measurable_fun_sum _ fun i _ => (measurable_uniNormLpdf (data i)).comp measurable_mk
  · exact (measurable_normalLpdf measurable_fst measurable_const measurable_const).add
      (measurable_invGammaLpdf measurable_snd _ _)

theorem clusterDens_ne (h : NxIG) (data : ℤ → ℝ) (idx : Finset ℤ) (p : ℝ × ℝ) :
    clusterDens h data idx p ≠ 0 := by
  unfold clusterDens
  simpa using Real.exp_pos _

theorem clusterDens_mass_ne (h : NxIG) (data : ℤ → ℝ) (idx : Finset ℤ) :
    ∫⁻ p, clusterDens h data idx p ∂lsVol ≠ 0 := by
  rw [Ne, lintegral_eq_zero_iff (measurable_clusterDens h data idx)]
  intro h0
  have : ∀ᵐ p ∂lsVol, False := by
    filter_upwards [h0] with p hp using clusterDens_ne h data idx p hp
  exact lsVol_ne (by simpa using this)

/-- Two bounded functions whose product has the mean of either square are equal. -/
theorem ae_eq_of_cross {Ω : Type} [MeasurableSpace Ω] (P : Measure Ω) (hP : P Set.univ ≠ ∞)
    {X Y : Ω → ℝ≥0∞} (hX : Measurable X) (hY : Measurable Y) {C : ℝ≥0∞} (hC : C ≠ ∞)
    (hXC : ∀ᵐ x ∂P, X x ≤ C) (hYC : ∀ᵐ x ∂P, Y x ≤ C)
    (h1 : ∫⁻ x, X x * Y x ∂P = ∫⁻ x, X x * X x ∂P)
    (h2 : ∫⁻ x, X x * Y x ∂P = ∫⁻ x, Y x * Y x ∂P) : ∀ᵐ x ∂P, X x = Y x := by
  have bd : ∀ {F G : Ω → ℝ≥0∞}, Measurable F → Measurable G → (∀ᵐ x ∂P, F x ≤ C) →
      (∀ᵐ x ∂P, G x ≤ C) → Integrable (fun x => (F x * G x).toReal) P ∧
        ∫ x, (F x * G x).toReal ∂P = (∫⁻ x, F x * G x ∂P).toReal := by
    intro F G hF hG hFC hGC
    have hm : Measurable fun x => F x * G x := hF.mul hG
    have hle : ∫⁻ x, F x * G x ∂P ≤ ∫⁻ _, C * C ∂P := by
      refine lintegral_mono_ae ?_
      filter_upwards [hFC, hGC] with x a b using mul_le_mul' a b
    have hfin : ∫⁻ x, F x * G x ∂P ≠ ∞ := by
      refine ne_top_of_le_ne_top ?_ hle
      rw [lintegral_const]
      exact ENNReal.mul_ne_top (ENNReal.mul_ne_top hC hC) hP
    refine ⟨integrable_toReal_of_lintegral_ne_top hm.aemeasurable hfin,
      integral_toReal hm.aemeasurable ?_⟩
    exact ae_lt_top hm hfin
  obtain ⟨i1, e1⟩ := bd hX hX hXC hXC
  obtain ⟨i2, e2⟩ := bd hX hY hXC hYC
  obtain ⟨i3, e3⟩ := bd hY hY hYC hYC
  have hi : Integrable (fun x => (X x * X x).toReal - 2 * (X x * Y x).toReal + (Y x * Y x).toReal) P :=
    (i1.sub (i2.const_mul 2)).add i3
  have h0 : ∫ x, ((X x * X x).toReal - 2 * (X x * Y x).toReal + (Y x * Y x).toReal) ∂P = 0 := by
    have i12 : Integrable (fun x => (X x * X x).toReal - 2 * (X x * Y x).toReal) P :=
      i1.sub (i2.const_mul 2)
    rw [integral_add i12 i3, integral_sub i1 (i2.const_mul 2), integral_const_mul, e1, e2, e3, ← h1, ← h2]
    ring
  have hsq : ∀ x, (X x * X x).toReal - 2 * (X x * Y x).toReal + (Y x * Y x).toReal =
      ((X x).toReal - (Y x).toReal) ^ 2 := by
    intro x
    rw [ENNReal.toReal_mul, ENNReal.toReal_mul, ENNReal.toReal_mul]
    ring
  simp only [hsq] at hi h0
  have hz := (integral_eq_zero_iff_of_nonneg (fun x => sq_nonneg _) hi).1 h0
  filter_upwards [hz, hXC, hYC] with x a b c
  have a' : (X x).toReal - (Y x).toReal = 0 := by simpa using a
  exact (ENNReal.toReal_eq_toReal_iff' (ne_top_of_le_ne_top hC b) (ne_top_of_le_ne_top hC c)).1
    (sub_eq_zero.1 a')

/-- The second moment about the prior mean of a mean drawn at variance `v`, for `n` rows with sum `s`. -/
noncomputable def meanSq (h : NxIG) (n s v : ℝ) : ℝ :=
  v * h.var / (n * h.var + v) + ((h.var * s + v * h.mean) / (n * h.var + v) - h.mean) ^ 2

theorem meanSq_eq (h : NxIG) {n s v : ℝ} (hd : n * h.var + v ≠ 0) :
    meanSq h n s v = h.var - n * h.var ^ 2 / (n * h.var + v) +
      (h.var * (s - n * h.mean)) ^ 2 / (n * h.var + v) ^ 2 := by
  obtain ⟨t, ht⟩ : ∃ t, t = n * h.var + v := ⟨_, rfl⟩
  have hv : v = t - n * h.var := by rw [ht]; ring
  rw [← ht] at hd
  rw [meanSq, ← ht, hv]
  field_simp
  ring

theorem meanSq_nonneg (h : NxIG) (hv0 : 0 < h.var) {n s v : ℝ} (hn : 0 ≤ n) (hv : 0 < v) :
    0 ≤ meanSq h n s v := by
  unfold meanSq
  positivity

theorem meanSq_le (h : NxIG) (hv0 : 0 < h.var) {n s v : ℝ} (hn : 0 < n) (hv : 0 < v) :
    meanSq h n s v ≤ h.var + (h.var * (s - n * h.mean)) ^ 2 / (n * h.var) ^ 2 := by
  have h1 : 0 < n * h.var := by positivity
  have h2 : 0 < n * h.var + v := by positivity
  rw [meanSq_eq h h2.ne']
  have h3 : 0 ≤ n * h.var ^ 2 / (n * h.var + v) := by positivity
  have h4 : (h.var * (s - n * h.mean)) ^ 2 / (n * h.var + v) ^ 2 ≤
      (h.var * (s - n * h.mean)) ^ 2 / (n * h.var) ^ 2 :=
    div_le_div_of_nonneg_left (sq_nonneg _) (by positivity) (pow_le_pow_left₀ h1.le (by linarith) 2)
  linarith

/-- With data, the second moment depends on the variance. -/
theorem meanSq_not_const (h : NxIG) (hv0 : 0 < h.var) {n s : ℝ} (hn : 0 < n) (k : ℝ)
    (hk : ∀ v, 0 < v → meanSq h n s v = k) : False := by
  obtain ⟨τ, hτ⟩ : ∃ τ, τ = n * h.var := ⟨_, rfl⟩
  have h1 : 0 < τ := by rw [hτ]; positivity
  obtain ⟨B, hB⟩ : ∃ B, B = (h.var * (s - n * h.mean)) ^ 2 / τ ^ 2 := ⟨_, rfl⟩
  have e : ∀ r : ℝ, 0 < r → h.var - h.var / (1 + r) + B / (1 + r) ^ 2 = k := by
    intro r hr
    rw [← hk (r * τ) (by positivity), meanSq_eq h (by rw [← hτ]; positivity), ← hτ, hB]
    have : n * h.var ^ 2 = τ * h.var := by rw [hτ]; ring
    rw [this]
    field_simp
  have e1 := e 1 one_pos
  have e2 := e 2 two_pos
  have e3 := e 3 (by norm_num)
  norm_num at e1 e2 e3
  linarith

theorem measurable_meanSq (h : NxIG) (n s : ℝ) : Measurable (meanSq h n s) := by
  unfold meanSq
  fun_prop

theorem continuousOn_meanSq (h : NxIG) (hv0 : 0 < h.var) {n s : ℝ} (hn : 0 < n) :
    ContinuousOn (meanSq h n s) (Set.Ioi 0) := by
  unfold meanSq
  have : ∀ v ∈ Set.Ioi (0 : ℝ), n * h.var + v ≠ 0 := fun v hv => by
    have : 0 < v := hv
    positivity
  fun_prop (disch := assumption)

/-- The posterior law of a cluster has finite mass. -/
theorem clusterDens_finite (h : NxIG) (hv0 : 0 < h.var) (ha : 0 < h.shape) (hb : 0 < h.scale)
    (data : ℤ → ℝ) (idx : Finset ℤ) : ∫⁻ p, clusterDens h data idx p ∂lsVol ≠ ∞ := by
  obtain ⟨n, hn⟩ : ∃ n : ℝ, n = idx.card := ⟨_, rfl⟩
  have hn0 : 0 ≤ n := by rw [hn]; positivity
  have han : 0 < h.shape + n / 2 := by positivity
  obtain ⟨k, hk⟩ : ∃ k : ℝ, k = -(n / 2) * Real.log (2 * Real.pi) + h.shape * Real.log h.scale
    - Real.log (Real.Gamma h.shape) - (h.shape + n / 2) * Real.log h.scale
    + Real.log (Real.Gamma (h.shape + n / 2)) := ⟨_, rfl⟩
  have hle : ∀ᵐ p ∂lsVol, clusterDens h data idx p ≤ ENNReal.ofReal (Real.exp k) *
      (ENNReal.ofReal (Real.exp (normalLpdf p.1 h.mean (Real.sqrt h.var))) *
        ENNReal.ofReal (Real.exp (invGammaLpdf p.2 (h.shape + n / 2) h.scale))) := by
    filter_upwards [lsVol_ae] with p hp
    rw [clusterDens, ← ENNReal.ofReal_mul (Real.exp_pos _).le, ← ENNReal.ofReal_mul (Real.exp_pos _).le,
      ← Real.exp_add, ← Real.exp_add]
    refine ENNReal.ofReal_le_ofReal (Real.exp_le_exp.2 ?_)
    have hq : 0 ≤ ((∑ i ∈ idx, data i ^ 2) - 2 * p.1 * (∑ i ∈ idx, data i) + idx.card * p.1 * p.1) /
        (2 * p.2) := by
      have := cluster_sum_sq idx data p.1
      have h0 : 0 ≤ ∑ i ∈ idx, (data i - p.1) ^ 2 := Finset.sum_nonneg fun i _ => sq_nonneg _
      have h1 : (∑ i ∈ idx, (data i - p.1) ^ 2) =
          (∑ i ∈ idx, data i ^ 2) - 2 * p.1 * (∑ i ∈ idx, data i) + idx.card * p.1 * p.1 := by
        simp only [sub_sq, Finset.sum_add_distrib, Finset.sum_sub_distrib, Finset.sum_const, nsmul_eq_mul,
          Finset.mul_sum]
        congr 1
        · congr 1
          exact Finset.sum_congr rfl fun i _ => by ring
        · ring
      rw [← h1]
      positivity
    rw [sum_uniNormLpdf _ _ _ hp, nxigLpdf, ← hn, Real.log_mul (by positivity) hp.ne', hk]
    rw [← hn] at hq
    unfold invGammaLpdf
    dsimp only
    linarith
  refine ne_top_of_le_ne_top ?_ (lintegral_mono_ae hle)
  have m1 := measurable_normalDens h.mean (Real.sqrt h.var)
  have m2 := measurable_invGammaDens (h.shape + n / 2) h.scale
  have m3 : Measurable fun p : ℝ × ℝ =>
      ENNReal.ofReal (Real.exp (normalLpdf p.1 h.mean (Real.sqrt h.var))) *
        ENNReal.ofReal (Real.exp (invGammaLpdf p.2 (h.shape + n / 2) h.scale)) :=
    (m1.comp measurable_fst).mul (m2.comp measurable_snd)
  rw [lintegral_const_mul _ m3, lsVol, lintegral_prod_mul m1.aemeasurable m2.aemeasurable,
    lintegral_normalLpdf _ _ hv0, lintegral_invGammaLpdf _ _ han hb]
  simp

end Bayesmix.Chain
