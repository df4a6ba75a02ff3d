import Verif.Algo.PropsCond
import Mathlib.Probability.Distributions.Beta
import Mathlib.Probability.Independence.Integration

/-!
# Blocked Gibbs as a Markov kernel

The joint posterior distribution of labels, values and sticks of a truncated stick breaking mixture,
and the kernel of one iteration. A function `φ` of the state stands for a distribution on states:
the target gives the integral of `φ`, a kernel the mean of `φ` after a step.
-/

namespace Bayesmix.Cond
open Bayesmix Mixing MeasureTheory ENNReal ProbabilityTheory

variable {G H Θ : Type} [AddCommGroup G] [MeasurableSpace Θ]

/-! ### Products of measures -/

theorem lintegral_prod_pi {ι : Type} [Fintype ι] {X : ι → Type} [∀ i, MeasurableSpace (X i)]
    (μ : ∀ i, Measure (X i)) [∀ i, IsProbabilityMeasure (μ i)] (f : ∀ i, X i → ℝ≥0∞)
    (hf : ∀ i, Measurable (f i)) :
    ∫⁻ x, ∏ i, f i (x i) ∂Measure.pi μ = ∏ i, ∫⁻ x, f i x ∂μ i := by
  have hind : iIndepFun (fun i (x : ∀ i, X i) => f i (x i)) (Measure.pi μ) :=
    iIndepFun_pi fun i => (hf i).aemeasurable
  rw [lintegral_prod_eq_prod_lintegral_of_indepFun Finset.univ _ hind
    fun i => (hf i).comp (measurable_pi_apply i)]
  refine Finset.prod_congr rfl fun i _ => ?_
  exact (measurePreserving_eval μ i).lintegral_comp (hf i)

/-- Bayes' rule in each coordinate gives Bayes' rule for the product. -/
theorem pi_bayes {ι : Type} [Fintype ι] {X : ι → Type} [∀ i, MeasurableSpace (X i)]
    (μ μ' : ∀ i, Measure (X i)) [∀ i, IsProbabilityMeasure (μ i)] [∀ i, IsProbabilityMeasure (μ' i)]
    (L : ∀ i, X i → ℝ≥0∞) (hL : ∀ i, Measurable (L i)) (Z : ι → ℝ≥0∞) (hZ : ∀ i, Z i ≠ ∞)
    (h : ∀ i, ∀ φ : X i → ℝ≥0∞, Measurable φ →
      ∫⁻ x, L i x * φ x ∂μ i = Z i * ∫⁻ x, φ x ∂μ' i)
    {φ : (∀ i, X i) → ℝ≥0∞} (hφ : Measurable φ) :
    ∫⁻ x, (∏ i, L i (x i)) * φ x ∂Measure.pi μ = (∏ i, Z i) * ∫⁻ x, φ x ∂Measure.pi μ' := by
  have hP : Measurable fun x : ∀ i, X i => ∏ i, L i (x i) :=
    Finset.measurable_prod _ fun i _ => (hL i).comp (measurable_pi_apply i)
  have hfin : ∀ i, IsFiniteMeasure (Z i • μ' i) := fun i =>
    ⟨by simp [lt_top_iff_ne_top, hZ i]⟩
  have e1 : Measure.pi (fun i => Z i • μ' i) =
      (Measure.pi μ).withDensity fun x => ∏ i, L i (x i) := by
    refine Measure.pi_eq fun s hs => ?_
    rw [withDensity_apply _ (MeasurableSet.univ_pi hs), ← lintegral_indicator (MeasurableSet.univ_pi hs)]
    have : ∀ x : ∀ i, X i, (Set.pi Set.univ s).indicator (fun x => ∏ i, L i (x i)) x =
        ∏ i, L i (x i) * (s i).indicator 1 (x i) := by
      intro x
      rw [Finset.prod_mul_distrib]
      by_cases hx : x ∈ Set.pi Set.univ s
      · rw [Set.indicator_of_mem hx, Finset.prod_eq_one (f := fun i => (s i).indicator 1 (x i)),
          mul_one]
        intro i _
        rw [Set.indicator_of_mem (hx i (Set.mem_univ i))]
        rfl
      · rw [Set.indicator_of_notMem hx]
        simp only [Set.mem_pi, Set.mem_univ, true_implies, not_forall] at hx
        obtain ⟨i, hi⟩ := hx
        rw [Finset.prod_eq_zero (f := fun i => (s i).indicator 1 (x i)) (Finset.mem_univ i)
          (Set.indicator_of_notMem hi _), mul_zero]
    rw [lintegral_congr this, lintegral_prod_pi μ (fun i x => L i x * (s i).indicator 1 x)
      fun i => (hL i).mul (measurable_one.indicator (hs i))]
    refine Finset.prod_congr rfl fun i _ => ?_
    rw [h i _ (measurable_one.indicator (hs i)), lintegral_indicator_one (hs i)]
    rfl
  have e2 : Measure.pi (fun i => Z i • μ' i) = (∏ i, Z i) • Measure.pi μ' := by
    refine Measure.pi_eq fun s hs => ?_
    simp only [Measure.smul_apply, smul_eq_mul, Measure.pi_pi, Finset.prod_mul_distrib]
  rw [← smul_eq_mul, ← lintegral_smul_measure, ← e2, e1,
    lintegral_withDensity_eq_lintegral_mul _ hP hφ]
  rfl

/-! ### Sticks -/

/-- The number of rows with label `k`. -/
def cnt {n K : ℕ} (c : Fin n → Fin K) (k : Fin K) : ℕ := (Finset.univ.filter fun i => c i = k).card

/-- The number of rows with a label after `k`. -/
def later {n K : ℕ} (c : Fin n → Fin K) (k : Fin K) : ℕ := (Finset.univ.filter fun i => k < c i).card

/-- Independent Beta variables, except that the last stick is one. -/
noncomputable def stickLaw {K : ℕ} (a b : Fin K → ℝ) : Measure (Fin K → ℝ) :=
  Measure.pi fun k => if k.val + 1 = K then Measure.dirac 1 else betaMeasure (a k) (b k)

theorem betaMeasure_ae (a b : ℝ) : ∀ᵐ x ∂betaMeasure a b, 0 < x ∧ x < 1 := by
  rw [betaMeasure, ae_withDensity_iff (by unfold betaPDF; fun_prop)]
  refine Filter.Eventually.of_forall fun x hx => ?_
  by_contra h
  apply hx
  rw [betaPDF_eq, if_neg h, ENNReal.ofReal_zero]

theorem stickLaw_prob {K : ℕ} {a b : Fin K → ℝ} (ha : ∀ k, 0 < a k) (hb : ∀ k, 0 < b k) (k : Fin K) :
    IsProbabilityMeasure
      (if k.val + 1 = K then Measure.dirac 1 else betaMeasure (a k) (b k)) := by
  split
  · infer_instance
  · exact isProbabilityMeasureBeta (ha k) (hb k)

theorem stickLaw_ae {K : ℕ} {a b : Fin K → ℝ} (ha : ∀ k, 0 < a k) (hb : ∀ k, 0 < b k) :
    ∀ᵐ v ∂stickLaw a b, ∀ k, 0 < v k ∧ v k ≤ 1 := by
  have := stickLaw_prob ha hb
  unfold stickLaw
  rw [ae_all_iff]
  intro k
  have h : ∀ᵐ x ∂(if k.val + 1 = K then Measure.dirac 1 else betaMeasure (a k) (b k)),
      0 < x ∧ x ≤ 1 := by
    split
    · rw [ae_dirac_iff (measurableSet_Ioc (a := (0 : ℝ)) (b := 1))]
      norm_num
    · filter_upwards [betaMeasure_ae (a k) (b k)] with x hx
      exact ⟨hx.1, hx.2.le⟩
  exact (measurePreserving_eval (fun k : Fin K =>
    if k.val + 1 = K then Measure.dirac 1 else betaMeasure (a k) (b k)) k).quasiMeasurePreserving.ae h

/-- The probability of the labels given the sticks. -/
theorem prod_stickWeight {n K : ℕ} (c : Fin n → Fin K) (v : Fin K → ℝ) :
    ∏ i, stickWeight v (c i) = ∏ k, v k ^ cnt c k * (1 - v k) ^ later c k := by
  have h1 : ∀ k : Fin K, stickWeight v k =
      ∏ j, (if k = j then v j else 1) * (if j < k then 1 - v j else 1) := by
    intro k
    rw [Finset.prod_mul_distrib, Finset.prod_ite_eq Finset.univ k v, if_pos (Finset.mem_univ k),
      stickWeight, ← Finset.prod_filter]
    congr 1
    refine Finset.prod_bij (fun h _ => h.castLE k.isLt.le) ?_ ?_ ?_ ?_
    · intro h _
      rw [Finset.mem_filter]
      exact ⟨Finset.mem_univ _, h.isLt⟩
    · intro x _ y _ hxy
      exact Fin.castLE_injective _ hxy
    · intro j hj
      rw [Finset.mem_filter] at hj
      exact ⟨⟨j.val, hj.2⟩, Finset.mem_univ _, rfl⟩
    · intro _ _
      rfl
  rw [Finset.prod_congr rfl fun i _ => h1 (c i), Finset.prod_comm]
  refine Finset.prod_congr rfl fun k _ => ?_
  rw [Finset.prod_mul_distrib, ← Finset.prod_filter, ← Finset.prod_filter, Finset.prod_const,
    Finset.prod_const]
  rfl

/-- Conjugacy of the Beta law. -/
theorem beta_bayes {a b : ℝ} (ha : 0 < a) (hb : 0 < b) (p q : ℕ) {φ : ℝ → ℝ≥0∞} (hφ : Measurable φ) :
    ∫⁻ x, ENNReal.ofReal (x ^ p * (1 - x) ^ q) * φ x ∂betaMeasure a b =
      ENNReal.ofReal (beta (a + p) (b + q) / beta a b) * ∫⁻ x, φ x ∂betaMeasure (a + p) (b + q) := by
  have hm : ∀ a b, Measurable (betaPDF a b) := fun a b => by unfold betaPDF; fun_prop
  have hL : Measurable fun x : ℝ => ENNReal.ofReal (x ^ p * (1 - x) ^ q) := by fun_prop
  have hap : 0 < a + p := by positivity
  have hbq : 0 < b + q := by positivity
  have b1 := beta_pos ha hb
  have b2 := beta_pos hap hbq
  have hLφ : Measurable fun x : ℝ => ENNReal.ofReal (x ^ p * (1 - x) ^ q) * φ x := hL.mul hφ
  rw [betaMeasure, betaMeasure, lintegral_withDensity_eq_lintegral_mul _ (hm a b) hLφ,
    lintegral_withDensity_eq_lintegral_mul _ (hm _ _) hφ, ← lintegral_const_mul _ ((hm _ _).mul hφ)]
  refine lintegral_congr fun x => ?_
  simp only [Pi.mul_apply]
  rw [← mul_assoc, ← mul_assoc]
  congr 1
  rw [betaPDF_eq, betaPDF_eq]
  split
  · rename_i h
    have hx := h.1
    have hx1 : 0 < 1 - x := by linarith [h.2]
    rw [← ENNReal.ofReal_mul (by positivity), ← ENNReal.ofReal_mul (by positivity)]
    congr 1
    rw [show a + p - 1 = (a - 1) + p by ring, show b + q - 1 = (b - 1) + q by ring,
      Real.rpow_add hx, Real.rpow_add hx1, Real.rpow_natCast, Real.rpow_natCast]
    field_simp
  · simp

/-- Conjugacy of the law of the sticks. -/
theorem stick_bayes {n K : ℕ} {a b : Fin K → ℝ} (ha : ∀ k, 0 < a k) (hb : ∀ k, 0 < b k)
    (c : Fin n → Fin K) :
    ∃ Z : ℝ≥0∞, Z ≠ 0 ∧ Z ≠ ∞ ∧ ∀ φ : (Fin K → ℝ) → ℝ≥0∞, Measurable φ →
      ∫⁻ v, ENNReal.ofReal (∏ i, stickWeight v (c i)) * φ v ∂stickLaw a b =
        Z * ∫⁻ v, φ v ∂stickLaw (fun k => a k + cnt c k) (fun k => b k + later c k) := by
  have h1 := stickLaw_prob ha hb
  have h2 := stickLaw_prob (a := fun k => a k + cnt c k) (b := fun k => b k + later c k)
    (fun k => by have := ha k; positivity) (fun k => by have := hb k; positivity)
  refine ⟨∏ k : Fin K, if k.val + 1 = K then 1 else
    ENNReal.ofReal (beta (a k + cnt c k) (b k + later c k) / beta (a k) (b k)), ?_, ?_,
    fun φ hφ => ?_⟩
  · refine Finset.prod_ne_zero_iff.mpr fun k _ => ?_
    split
    · exact one_ne_zero
    · have h1 := ha k
      have h2 := hb k
      exact (ENNReal.ofReal_pos.mpr (div_pos (beta_pos (by positivity) (by positivity))
        (beta_pos h1 h2))).ne'
  · refine ENNReal.prod_ne_top fun k _ => ?_
    split
    · exact one_ne_top
    · exact ofReal_ne_top
  unfold stickLaw
  rw [← pi_bayes
    (fun k : Fin K => if k.val + 1 = K then Measure.dirac 1 else betaMeasure (a k) (b k))
    (fun k : Fin K => if k.val + 1 = K then Measure.dirac 1 else
      betaMeasure (a k + cnt c k) (b k + later c k)) (fun k x => ENNReal.ofReal (x ^ cnt c k * (1 - x) ^ later c k))
    (fun k => by fun_prop) _ (fun k => by split <;> simp) (fun k ψ hψ => ?_) hφ]
  · refine lintegral_congr_ae ?_
    filter_upwards [stickLaw_ae ha hb] with v hv
    rw [prod_stickWeight, ENNReal.ofReal_prod_of_nonneg]
    intro k _
    have h0 := (hv k).1.le
    have h1 : 0 ≤ 1 - v k := by linarith [(hv k).2]
    positivity
  · split
    · rename_i hk
      have hl : later c k = 0 := by
        rw [later, Finset.card_eq_zero, Finset.filter_eq_empty_iff]
        intro i _ hlt
        have := (c i).isLt
        have : k.val < (c i).val := hlt
        omega
      simp [hl, lintegral_dirac' _ hψ, lintegral_dirac' 1
        (f := fun x : ℝ => ENNReal.ofReal (x ^ cnt c k) * ψ x) (by fun_prop)]
    · exact beta_bayes (ha k) (hb k) _ _ hψ

/-! ### Values -/

/-- The rows with label `k`. -/
def rowsOf {n K : ℕ} (c : Fin n → Fin K) (k : Fin K) : Finset ℕ :=
  (Finset.univ.filter fun i => c i = k).map Fin.valEmbedding

theorem rowsOf_card {n K : ℕ} (c : Fin n → Fin K) (k : Fin K) : (rowsOf c k).card = cnt c k := by
  rw [rowsOf, Finset.card_map]
  rfl

/-- Hyperparameters of the distribution of the value of component `k` given the labels: those of
the prior if no row is in the component, else the posterior ones. -/
noncomputable def condHyp (E : Env G H Θ) (h : H) {n K : ℕ} (c : Fin n → Fin K) (k : Fin K) : H :=
  if cnt c k = 0 then h else E.post h (cnt c k) (∑ i ∈ rowsOf c k, E.contrib i)

/-- `ν h` is the law of a draw of a value with hyperparameters `h`: for every set of rows, likelihood
times prior is proportional to posterior. -/
structure BayesClusters (E : Env G H Θ) (like : Θ → ℕ → ℝ) (ν : H → Measure Θ) (h : H) : Prop where
  prior : IsProbabilityMeasure (ν h)
  post : ∀ D : Finset ℕ, D.Nonempty →
    IsProbabilityMeasure (ν (E.post h D.card (∑ i ∈ D, E.contrib i)))
  rule : ∀ D : Finset ℕ, D.Nonempty → ∃ Z : ℝ≥0∞, Z ≠ 0 ∧ Z ≠ ∞ ∧ ∀ φ : Θ → ℝ≥0∞, Measurable φ →
    ∫⁻ θ, ENNReal.ofReal (∏ i ∈ D, Real.exp (like θ i)) * φ θ ∂(ν h) =
      Z * ∫⁻ θ, φ θ ∂(ν (E.post h D.card (∑ i ∈ D, E.contrib i)))

theorem condHyp_prob {E : Env G H Θ} {like : Θ → ℕ → ℝ} {ν : H → Measure Θ} {h : H}
    (hB : BayesClusters E like ν h) {n K : ℕ} (c : Fin n → Fin K) (k : Fin K) :
    IsProbabilityMeasure (ν (condHyp E h c k)) := by
  unfold condHyp
  split
  · exact hB.prior
  · rename_i hk
    rw [← rowsOf_card] at hk ⊢
    exact hB.post _ (Finset.card_ne_zero.mp hk)

theorem prod_rows {n K : ℕ} (c : Fin n → Fin K) (like : Θ → ℕ → ℝ) (θ : Fin K → Θ) :
    ∏ i : Fin n, Real.exp (like (θ (c i)) i) = ∏ k, ∏ i ∈ rowsOf c k, Real.exp (like (θ k) i) := by
  rw [← Finset.prod_fiberwise (s := Finset.univ) (g := c)]
  refine Finset.prod_congr rfl fun k _ => ?_
  rw [rowsOf, Finset.prod_map]
  refine Finset.prod_congr rfl fun i hi => ?_
  rw [(Finset.mem_filter.mp hi).2]
  rfl

/-- Conjugacy of the law of all values. -/
theorem value_bayes {E : Env G H Θ} {like : Θ → ℕ → ℝ} (hlike : ∀ i, Measurable fun θ => like θ i)
    {ν : H → Measure Θ} {h : H} (hB : BayesClusters E like ν h) {n K : ℕ} (c : Fin n → Fin K) :
    ∃ Z : ℝ≥0∞, Z ≠ 0 ∧ Z ≠ ∞ ∧ ∀ φ : (Fin K → Θ) → ℝ≥0∞, Measurable φ →
      ∫⁻ θ, ENNReal.ofReal (∏ i : Fin n, Real.exp (like (θ (c i)) i)) * φ θ
          ∂Measure.pi (fun _ => ν h) =
        Z * ∫⁻ θ, φ θ ∂Measure.pi fun k => ν (condHyp E h c k) := by
  have h1 := hB.prior
  have h2 := condHyp_prob hB c
  have h3 : ∀ k, ∃ Z : ℝ≥0∞, Z ≠ 0 ∧ Z ≠ ∞ ∧ ∀ φ : Θ → ℝ≥0∞, Measurable φ →
      ∫⁻ θ, ENNReal.ofReal (∏ i ∈ rowsOf c k, Real.exp (like θ i)) * φ θ ∂(ν h) =
        Z * ∫⁻ θ, φ θ ∂(ν (condHyp E h c k)) := by
    intro k
    by_cases hk : cnt c k = 0
    · refine ⟨1, one_ne_zero, one_ne_top, fun φ _ => ?_⟩
      rw [condHyp, if_pos hk]
      rw [← rowsOf_card, Finset.card_eq_zero] at hk
      simp [hk]
    · rw [condHyp, if_neg hk]
      rw [← rowsOf_card] at hk ⊢
      exact hB.rule _ (Finset.card_ne_zero.mp hk)
  choose Z hZ0 hZ hrule using h3
  refine ⟨∏ k, Z k, Finset.prod_ne_zero_iff.mpr fun k _ => hZ0 k,
    ENNReal.prod_ne_top fun k _ => hZ k, fun φ hφ => ?_⟩
  rw [← pi_bayes (fun _ => ν h) (fun k => ν (condHyp E h c k))
    (fun k θ => ENNReal.ofReal (∏ i ∈ rowsOf c k, Real.exp (like θ i)))
    (fun k => ENNReal.measurable_ofReal.comp (Finset.measurable_prod _ fun i _ =>
      Real.measurable_exp.comp (hlike i))) Z hZ hrule hφ]
  refine lintegral_congr fun θ => ?_
  rw [prod_rows, ENNReal.ofReal_prod_of_nonneg]
  intro k _
  positivity

/-! ### The target and the steps -/

/-- Probability of the labels given the sticks, times the likelihood. -/
noncomputable def dataWeight (like : Θ → ℕ → ℝ) {n K : ℕ} (c : Fin n → Fin K) (θ : Fin K → Θ)
    (v : Fin K → ℝ) : ℝ :=
  ∏ i : Fin n, stickWeight v (c i) * Real.exp (like (θ (c i)) i)

/-- The posterior distribution of labels, values and sticks, up to its normalizing constant: values
independent with law `ν`, sticks independent Beta, labels independent given the sticks. -/
noncomputable def posteriorAt (like : Θ → ℕ → ℝ) (n : ℕ) {K : ℕ} (a b : Fin K → ℝ) (ν : Measure Θ)
    (φ : (Fin n → Fin K) → (Fin K → Θ) → (Fin K → ℝ) → ℝ≥0∞) : ℝ≥0∞ :=
  ∑ c, ∫⁻ v, ∫⁻ θ, ENNReal.ofReal (dataWeight like c θ v) * φ c θ v
    ∂Measure.pi (fun _ => ν) ∂stickLaw a b

/-- Labels drawn from their distribution given values and sticks. -/
noncomputable def labelsStep (like : Θ → ℕ → ℝ) {n K : ℕ}
    (φ : (Fin n → Fin K) → (Fin K → Θ) → (Fin K → ℝ) → ℝ≥0∞) :
    (Fin n → Fin K) → (Fin K → Θ) → (Fin K → ℝ) → ℝ≥0∞ := fun _ θ v =>
  ∑ c', ENNReal.ofReal (dataWeight like c' θ v / ∑ c'' : Fin n → Fin K, dataWeight like c'' θ v) *
    φ c' θ v

/-- Each value drawn with its hyperparameters given the labels. -/
noncomputable def valuesStep (E : Env G H Θ) (ν : H → Measure Θ) (h : H) {n K : ℕ}
    (φ : (Fin n → Fin K) → (Fin K → Θ) → (Fin K → ℝ) → ℝ≥0∞) :
    (Fin n → Fin K) → (Fin K → Θ) → (Fin K → ℝ) → ℝ≥0∞ := fun c _ v =>
  ∫⁻ θ', φ c θ' v ∂Measure.pi fun k => ν (condHyp E h c k)

/-- Each stick drawn with the number of rows in its component and in later ones. -/
noncomputable def sticksStep {n K : ℕ} (a b : Fin K → ℝ)
    (φ : (Fin n → Fin K) → (Fin K → Θ) → (Fin K → ℝ) → ℝ≥0∞) :
    (Fin n → Fin K) → (Fin K → Θ) → (Fin K → ℝ) → ℝ≥0∞ := fun c θ _ =>
  ∫⁻ v', φ c θ v' ∂stickLaw (fun k => a k + cnt c k) (fun k => b k + later c k)

/-- Measurability in values and sticks. -/
def Meas {n K : ℕ} (φ : (Fin n → Fin K) → (Fin K → Θ) → (Fin K → ℝ) → ℝ≥0∞) : Prop :=
  ∀ c, Measurable fun x : (Fin K → Θ) × (Fin K → ℝ) => φ c x.1 x.2

theorem measurable_stickWeight {K : ℕ} (k : Fin K) : Measurable fun v => stickWeight v k := by
  unfold stickWeight
  fun_prop

theorem measurable_dataWeight {like : Θ → ℕ → ℝ} (hlike : ∀ i, Measurable fun θ => like θ i)
    {n K : ℕ} (c : Fin n → Fin K) :
    Measurable fun x : (Fin K → Θ) × (Fin K → ℝ) => dataWeight like c x.1 x.2 := by
  unfold dataWeight
  refine Finset.measurable_prod _ fun i _ => ?_
  exact ((measurable_stickWeight (c i)).comp measurable_snd).mul (Real.measurable_exp.comp
    ((hlike i).comp ((measurable_pi_apply (c i)).comp measurable_fst)))

theorem dataWeight_eq (like : Θ → ℕ → ℝ) {n K : ℕ} (c : Fin n → Fin K) (θ : Fin K → Θ)
    (v : Fin K → ℝ) : ENNReal.ofReal (dataWeight like c θ v) =
      ENNReal.ofReal (∏ i, stickWeight v (c i)) *
        ENNReal.ofReal (∏ i : Fin n, Real.exp (like (θ (c i)) i)) := by
  rw [dataWeight, Finset.prod_mul_distrib, ENNReal.ofReal_mul' (by positivity)]

theorem stickWeight_nonneg {K : ℕ} {v : Fin K → ℝ} (hv : ∀ k, 0 < v k ∧ v k ≤ 1) (k : Fin K) :
    0 ≤ stickWeight v k := by
  unfold stickWeight
  refine mul_nonneg (hv k).1.le (Finset.prod_nonneg fun j _ => ?_)
  linarith [(hv (j.castLE k.isLt.le)).2]

theorem dataWeight_nonneg (like : Θ → ℕ → ℝ) {n K : ℕ} (c : Fin n → Fin K) (θ : Fin K → Θ)
    {v : Fin K → ℝ} (hv : ∀ k, 0 < v k ∧ v k ≤ 1) : 0 ≤ dataWeight like c θ v :=
  Finset.prod_nonneg fun i _ => mul_nonneg (stickWeight_nonneg hv _) (Real.exp_pos _).le

theorem sum_ratio {ι : Type} [Fintype ι] (w : ι → ℝ) (hw : ∀ c, 0 ≤ w c) (f : ι → ℝ≥0∞) :
    ∑ c, ENNReal.ofReal (w c) * ∑ c', ENNReal.ofReal (w c' / ∑ c'', w c'') * f c' =
      ∑ c', ENNReal.ofReal (w c') * f c' := by
  rw [← Finset.sum_mul, ← ENNReal.ofReal_sum_of_nonneg fun c _ => hw c, Finset.mul_sum]
  refine Finset.sum_congr rfl fun c' _ => ?_
  rw [← mul_assoc, ← ENNReal.ofReal_mul (Finset.sum_nonneg fun c _ => hw c)]
  congr 2
  rcases (Finset.sum_nonneg fun c (_ : c ∈ Finset.univ) => hw c).eq_or_lt with h0 | h0
  · rw [← h0, zero_mul]
    exact ((Finset.sum_eq_zero_iff_of_nonneg fun c _ => hw c).mp h0.symm c' (Finset.mem_univ _)).symm
  · rw [mul_div_cancel₀ _ h0.ne']

section invariance

variable {E : Env G H Θ} {like : Θ → ℕ → ℝ} {ν : H → Measure Θ} {h : H} {n K : ℕ} {a b : Fin K → ℝ}
  {φ : (Fin n → Fin K) → (Fin K → Θ) → (Fin K → ℝ) → ℝ≥0∞}

theorem Meas.left (hφ : Meas φ) (c : Fin n → Fin K) (v : Fin K → ℝ) : Measurable fun θ => φ c θ v :=
  (hφ c).comp (measurable_id.prodMk measurable_const)

theorem Meas.right (hφ : Meas φ) (c : Fin n → Fin K) (θ : Fin K → Θ) : Measurable fun v => φ c θ v :=
  (hφ c).comp (measurable_const.prodMk measurable_id)

theorem measurable_rows (hlike : ∀ i, Measurable fun θ => like θ i) (c : Fin n → Fin K) :
    Measurable fun θ : Fin K → Θ => ENNReal.ofReal (∏ i : Fin n, Real.exp (like (θ (c i)) i)) := by
  refine ENNReal.measurable_ofReal.comp (Finset.measurable_prod _ fun i _ => ?_)
  exact Real.measurable_exp.comp ((hlike i).comp (measurable_pi_apply (c i)))

theorem Meas.weighted (hlike : ∀ i, Measurable fun θ => like θ i) (hφ : Meas φ) :
    Meas fun c θ v => ENNReal.ofReal (dataWeight like c θ v) * φ c θ v := fun c =>
  (ENNReal.measurable_ofReal.comp (measurable_dataWeight hlike c)).mul (hφ c)

theorem Meas.labels (hlike : ∀ i, Measurable fun θ => like θ i) (hφ : Meas φ) :
    Meas (labelsStep like φ) := fun _ => by
  refine Finset.measurable_sum _ fun c' _ => ?_
  refine (ENNReal.measurable_ofReal.comp ?_).mul (hφ c')
  exact (measurable_dataWeight hlike c').div
    (Finset.measurable_sum _ fun c'' _ => measurable_dataWeight hlike c'')

theorem Meas.values (hB : BayesClusters E like ν h) (hφ : Meas φ) : Meas (valuesStep E ν h φ) :=
  fun c => by
  have h2 := condHyp_prob hB c
  have h3 : Measurable fun v : Fin K → ℝ => ∫⁻ θ', φ c θ' v ∂Measure.pi fun k => ν (condHyp E h c k) :=
    (hφ c).lintegral_prod_left'
  exact h3.comp measurable_snd

theorem shape_pos (ha : ∀ k, 0 < a k) (f : Fin K → ℕ) (k : Fin K) : 0 < a k + f k := by
  have := ha k
  positivity

theorem stickLaw_isProb (ha : ∀ k, 0 < a k) (hb : ∀ k, 0 < b k) :
    IsProbabilityMeasure (stickLaw a b) := by
  have := stickLaw_prob ha hb
  unfold stickLaw
  infer_instance

theorem Meas.sticks (ha : ∀ k, 0 < a k) (hb : ∀ k, 0 < b k) (hφ : Meas φ) :
    Meas (sticksStep a b φ) := fun c => by
  have := stickLaw_isProb (shape_pos ha (cnt c)) (shape_pos hb (later c))
  have h3 : Measurable fun θ : Fin K → Θ => ∫⁻ v', φ c θ v'
      ∂stickLaw (fun k => a k + cnt c k) (fun k => b k + later c k) :=
    (hφ c).lintegral_prod_right'
  exact h3.comp measurable_fst

theorem labels_invariant (hlike : ∀ i, Measurable fun θ => like θ i) (hν : IsProbabilityMeasure (ν h))
    (ha : ∀ k, 0 < a k) (hb : ∀ k, 0 < b k) (hφ : Meas φ) :
    posteriorAt like n a b (ν h) (labelsStep like φ) = posteriorAt like n a b (ν h) φ := by
  have key : ∀ ψ : (Fin n → Fin K) → (Fin K → Θ) → (Fin K → ℝ) → ℝ≥0∞, Meas ψ →
      posteriorAt like n a b (ν h) ψ = ∫⁻ v, ∫⁻ θ, ∑ c, ENNReal.ofReal (dataWeight like c θ v) * ψ c θ v
        ∂Measure.pi (fun _ => ν h) ∂stickLaw a b := by
    intro ψ hψ
    have hw := hψ.weighted hlike
    have e : ∀ v, ∫⁻ θ, ∑ c, ENNReal.ofReal (dataWeight like c θ v) * ψ c θ v
        ∂Measure.pi (fun _ => ν h) = ∑ c, ∫⁻ θ, ENNReal.ofReal (dataWeight like c θ v) * ψ c θ v
        ∂Measure.pi (fun _ => ν h) := fun v =>
      lintegral_finsetSum _ fun c _ => hw.left c v
    have e2 : ∀ c, Measurable fun v => ∫⁻ θ, ENNReal.ofReal (dataWeight like c θ v) * ψ c θ v
        ∂Measure.pi (fun _ => ν h) := fun c => (hw c).lintegral_prod_left'
    rw [lintegral_congr e, lintegral_finsetSum _ fun c _ => e2 c, posteriorAt]
  rw [key _ (hφ.labels hlike), key _ hφ]
  refine lintegral_congr_ae ?_
  filter_upwards [stickLaw_ae ha hb] with v hv
  refine lintegral_congr fun θ => ?_
  exact sum_ratio (fun c => dataWeight like c θ v) (fun c => dataWeight_nonneg like c θ hv)
    fun c => φ c θ v

theorem posteriorAt_eq (hlike : ∀ i, Measurable fun θ => like θ i) (hφ : Meas φ) :
    posteriorAt like n a b (ν h) φ = ∑ c, ∫⁻ v, ENNReal.ofReal (∏ i, stickWeight v (c i)) *
      ∫⁻ θ, ENNReal.ofReal (∏ i : Fin n, Real.exp (like (θ (c i)) i)) * φ c θ v
        ∂Measure.pi (fun _ => ν h) ∂stickLaw a b := by
  refine Finset.sum_congr rfl fun c _ => lintegral_congr fun v => ?_
  have hm : Measurable fun θ : Fin K → Θ =>
      ENNReal.ofReal (∏ i : Fin n, Real.exp (like (θ (c i)) i)) * φ c θ v :=
    (measurable_rows hlike c).mul (hφ.left c v)
  rw [← lintegral_const_mul _ hm]
  refine lintegral_congr fun θ => ?_
  rw [dataWeight_eq, mul_assoc]

theorem values_invariant (hlike : ∀ i, Measurable fun θ => like θ i) (hB : BayesClusters E like ν h)
    (hφ : Meas φ) :
    posteriorAt like n a b (ν h) (valuesStep E ν h φ) = posteriorAt like n a b (ν h) φ := by
  rw [posteriorAt_eq hlike (hφ.values hB), posteriorAt_eq hlike hφ]
  refine Finset.sum_congr rfl fun c _ => lintegral_congr fun v => ?_
  obtain ⟨Z, -, -, hZ⟩ := value_bayes hlike hB c
  have h2 := condHyp_prob hB c
  rw [hZ _ (hφ.left c v)]
  simp only [valuesStep]
  rw [hZ _ measurable_const, lintegral_const, measure_univ, mul_one]

theorem sticks_invariant (hlike : ∀ i, Measurable fun θ => like θ i) (hν : IsProbabilityMeasure (ν h))
    (ha : ∀ k, 0 < a k) (hb : ∀ k, 0 < b k) (hφ : Meas φ) :
    posteriorAt like n a b (ν h) (sticksStep a b φ) = posteriorAt like n a b (ν h) φ := by
  rw [posteriorAt_eq hlike (hφ.sticks ha hb), posteriorAt_eq hlike hφ]
  refine Finset.sum_congr rfl fun c _ => ?_
  obtain ⟨Z, -, -, hZ⟩ := stick_bayes (n := n) ha hb c
  have h2 := stickLaw_isProb (shape_pos ha (cnt c)) (shape_pos hb (later c))
  have hm : Measurable fun x : (Fin K → Θ) × (Fin K → ℝ) =>
      ENNReal.ofReal (∏ i : Fin n, Real.exp (like (x.1 (c i)) i)) * φ c x.1 x.2 :=
    ((measurable_rows hlike c).comp measurable_fst).mul (hφ c)
  rw [hZ _ hm.lintegral_prod_left']
  simp only [sticksStep]
  rw [hZ _ measurable_const, lintegral_const, measure_univ, mul_one]
  congr 1
  rw [lintegral_lintegral_swap (f := fun v θ =>
    ENNReal.ofReal (∏ i : Fin n, Real.exp (like (θ (c i)) i)) * φ c θ v)
    (hm.comp measurable_swap).aemeasurable]
  refine lintegral_congr fun θ => ?_
  rw [lintegral_const_mul _ (hφ.right c θ)]

/-- The normalizing constant of the target is positive and finite. -/
theorem posteriorAt_one (hlike : ∀ i, Measurable fun θ => like θ i) (hB : BayesClusters E like ν h)
    (ha : ∀ k, 0 < a k) (hb : ∀ k, 0 < b k) (hK : 0 < K) :
    posteriorAt like n a b (ν h) (fun _ _ _ => 1) ≠ 0 ∧
      posteriorAt like n a b (ν h) (fun _ _ _ => 1) ≠ ∞ := by
  have hterm : ∀ c : Fin n → Fin K, ∃ Z : ℝ≥0∞, Z ≠ 0 ∧ Z ≠ ∞ ∧
      ∫⁻ v, ENNReal.ofReal (∏ i, stickWeight v (c i)) *
        ∫⁻ θ, ENNReal.ofReal (∏ i : Fin n, Real.exp (like (θ (c i)) i)) * 1
          ∂Measure.pi (fun _ => ν h) ∂stickLaw a b = Z := by
    intro c
    obtain ⟨Z, z0, z1, hZ⟩ := value_bayes hlike hB c
    obtain ⟨W, w0, w1, hW⟩ := stick_bayes (n := n) ha hb c
    have h1 := condHyp_prob hB c
    have h2 := stickLaw_isProb (shape_pos ha (cnt c)) (shape_pos hb (later c))
    refine ⟨W * Z, mul_ne_zero w0 z0, ENNReal.mul_ne_top w1 z1, ?_⟩
    rw [hZ _ measurable_const, lintegral_const, measure_univ, mul_one, mul_one,
      hW _ measurable_const, lintegral_const, measure_univ, mul_one]
  rw [posteriorAt_eq hlike fun _ => measurable_const]
  constructor
  · intro h0
    obtain ⟨Z, z0, -, hZ⟩ := hterm fun _ => ⟨0, hK⟩
    exact z0 (hZ.symm.trans (Finset.sum_eq_zero_iff.mp h0 (fun _ => ⟨0, hK⟩) (Finset.mem_univ _)))
  · refine ENNReal.sum_ne_top.mpr fun c _ => ?_
    obtain ⟨Z, -, z1, hZ⟩ := hterm c
    rw [hZ]
    exact z1

end invariance

end Bayesmix.Cond
