import Mathlib.Tactic.Linarith
import Mathlib.Tactic.FieldSimp
import Mathlib.Tactic.Positivity
import Mathlib.MeasureTheory.Measure.Lebesgue.Basic
import Mathlib.MeasureTheory.Measure.Stieltjes
import Mathlib.Topology.Order.IntermediateValue
import Verif.Utils.TruncBeta

/-!
# C112: truncated Beta draws
-/

namespace Bayesmix.Utils

open ProbabilityTheory MeasureTheory Set

variable {a b : ℝ}

theorem betaCdf_mono (ha : 0 < a) (hb : 0 < b) : Monotone (betaCdf a b) := fun x y hxy => by
  have := isProbabilityMeasureBeta ha hb
  exact measureReal_mono (Iic_subset_Iic.mpr hxy)

theorem betaCdf_nonneg (x : ℝ) : 0 ≤ betaCdf a b x := measureReal_nonneg

theorem betaCdf_le_one (ha : 0 < a) (hb : 0 < b) (x : ℝ) : betaCdf a b x ≤ 1 := by
  have := isProbabilityMeasureBeta ha hb
  exact measureReal_le_one

theorem betaCdf_lt (ha : 0 < a) (hb : 0 < b) {x y : ℝ} (hx : 0 ≤ x) (hxy : x < y) (hy : y ≤ 1) :
    betaCdf a b x < betaCdf a b y := by
  have := isProbabilityMeasureBeta ha hb
  have hd : betaMeasure a b (Iic y) = betaMeasure a b (Iic x) + betaMeasure a b (Ioc x y) := by
    rw [← measure_union (by
      rw [Set.disjoint_left]
      intro z hz hz'
      exact absurd hz'.1 (not_lt.mpr hz)) measurableSet_Ioc, Iic_union_Ioc_eq_Iic hxy.le]
  have hpos : betaMeasure a b (Ioc x y) ≠ 0 := by
    intro h0
    rw [betaMeasure, withDensity_apply _ measurableSet_Ioc, lintegral_eq_zero_iff
      (show Measurable (betaPDF a b) from (measurable_betaPDFReal a b).ennreal_ofReal)] at h0
    have h1 : ∀ᵐ z ∂volume, z ∈ Ioo x y → False := by
      have h2 := (ae_restrict_iff' measurableSet_Ioc).mp h0
      filter_upwards [h2] with z hz hzI
      have h3 : betaPDF a b z = 0 := hz ⟨hzI.1, hzI.2.le⟩
      have h4 := betaPDFReal_pos (lt_of_le_of_lt hx hzI.1) (lt_of_lt_of_le hzI.2 hy) ha hb
      rw [betaPDF, ENNReal.ofReal_eq_zero] at h3
      exact absurd h4 (not_lt.mpr h3)
    have h2 : volume (Ioo x y) = 0 := measure_eq_zero_iff_ae_notMem.mpr h1
    rw [Real.volume_Ioo, ENNReal.ofReal_eq_zero] at h2
    linarith
  unfold betaCdf
  rw [measureReal_def, measureReal_def, hd, ENNReal.toReal_add (measure_ne_top _ _) (measure_ne_top _ _)]
  have := ENNReal.toReal_pos hpos (measure_ne_top _ _)
  linarith

theorem betaCdf_zero : betaCdf a b 0 = 0 := by
  unfold betaCdf
  rw [measureReal_def, betaMeasure, withDensity_apply _ measurableSet_Iic,
    setLIntegral_eq_zero measurableSet_Iic fun x (hx : x ≤ 0) => betaPDF_eq_zero_of_nonpos hx,
    ENNReal.toReal_zero]

theorem betaCdf_one (ha : 0 < a) (hb : 0 < b) : betaCdf a b 1 = 1 := by
  have := isProbabilityMeasureBeta ha hb
  have h : betaMeasure a b (Ioi 1) = 0 := by
    rw [betaMeasure, withDensity_apply _ measurableSet_Ioi]
    exact setLIntegral_eq_zero measurableSet_Ioi fun x (hx : 1 < x) => betaPDF_eq_zero_of_one_le hx.le
  unfold betaCdf
  rw [measureReal_def, ← compl_Ioi, prob_compl_eq_one_sub measurableSet_Ioi, h, tsub_zero, ENNReal.toReal_one]

theorem betaCdf_continuous (ha : 0 < a) (hb : 0 < b) : Continuous (betaCdf a b) := by
  have hprob := isProbabilityMeasureBeta ha hb
  have e : betaCdf a b = cdf (betaMeasure a b) := funext fun x => (cdf_eq_real _ x).symm
  rw [continuous_iff_continuousAt]
  intro x
  rw [e]
  have hmono := monotone_cdf (betaMeasure a b)
  rw [hmono.continuousAt_iff_leftLim_eq_rightLim]
  have hr : Function.rightLim (cdf (betaMeasure a b)) x = cdf (betaMeasure a b) x :=
    (cdf (betaMeasure a b)).rightLim_eq x
  have h0 : betaMeasure a b {x} = 0 := withDensity_absolutelyContinuous _ _ (measure_singleton x)
  rw [← measure_cdf (betaMeasure a b), StieltjesFunction.measure_singleton, ENNReal.ofReal_eq_zero] at h0
  rw [hr]
  exact le_antisymm (hmono.leftLim_le le_rfl) (by linarith)

/-- There is a quantile function. -/
theorem exists_quantile (ha : 0 < a) (hb : 0 < b) : ∃ q, IsBetaQuantile a b q := by
  have h : ∀ p : ℝ, ∃ x, 0 ≤ p → p ≤ 1 → 0 ≤ x ∧ x ≤ 1 ∧ betaCdf a b x = p := by
    intro p
    by_cases hp : 0 ≤ p ∧ p ≤ 1
    · have := intermediate_value_Icc (zero_le_one (α := ℝ)) (betaCdf_continuous ha hb).continuousOn
      rw [betaCdf_zero, betaCdf_one ha hb] at this
      obtain ⟨x, hx, e⟩ := this hp
      exact ⟨x, fun _ _ => ⟨hx.1, hx.2, e⟩⟩
    · exact ⟨0, fun h0 h1 => absurd ⟨h0, h1⟩ hp⟩
  choose q hq using h
  exact ⟨q, hq⟩

/-- `p` lies between the values of the distribution function. -/
theorem mix_mem {x y t : ℝ} (h : x ≤ y) (h0 : 0 ≤ t) (h1 : t ≤ 1) :
    x ≤ x + t * (y - x) ∧ x + t * (y - x) ≤ y :=
  ⟨by nlinarith, by nlinarith⟩

theorem quantile_between (ha : 0 < a) (hb : 0 < b) {q : ℝ → ℝ} (hq : IsBetaQuantile a b q) {l u p : ℝ}
    (hl : l ∈ Icc (0 : ℝ) 1) (hu : u ∈ Icc (0 : ℝ) 1) (h1 : betaCdf a b l ≤ p)
    (h2 : p ≤ betaCdf a b u) : l ≤ q p ∧ q p ≤ u := by
  obtain ⟨q0, q1, e⟩ := hq p ((betaCdf_nonneg l).trans h1) (h2.trans (betaCdf_le_one ha hb u))
  constructor
  · by_contra h
    push Not at h
    have := betaCdf_lt ha hb q0 h hl.2
    linarith
  · by_contra h
    push Not at h
    have := betaCdf_lt ha hb hu.1 h q1
    linarith

theorem sampleTruncatedBeta_ok (ha : 0 < a) (hb : 0 < b) (q : ℝ → ℝ) {l u : ℝ}
    (hl : l ∈ Icc (0 : ℝ) 1) (hu : u ∈ Icc (0 : ℝ) 1) (t : ℝ) :
    sampleTruncatedBeta q a b l u t =
      .ok (q (betaCdf a b l + t * (betaCdf a b u - betaCdf a b l))) := by
  have h1 : 0 ≤ l ∧ l ≤ 1 := hl
  have h2 : 0 ≤ u ∧ u ≤ 1 := hu
  rw [sampleTruncatedBeta, if_pos ⟨ha, hb⟩, if_pos h1, if_pos h2]

/-- **C112.** For positive shapes and bounds in the unit interval, in either order, the draw does not
fail and lies between the bounds. -/
theorem c112_in_range (ha : 0 < a) (hb : 0 < b) {q : ℝ → ℝ} (hq : IsBetaQuantile a b q) {l u t : ℝ}
    (hl : l ∈ Icc (0 : ℝ) 1) (hu : u ∈ Icc (0 : ℝ) 1) (ht : t ∈ Icc (0 : ℝ) 1) :
    ∃ x, sampleTruncatedBeta q a b l u t = .ok x ∧ min l u ≤ x ∧ x ≤ max l u := by
  refine ⟨_, sampleTruncatedBeta_ok ha hb q hl hu t, ?_⟩
  rcases le_total l u with h | h
  · rw [min_eq_left h, max_eq_right h]
    obtain ⟨h1, h2⟩ := mix_mem (betaCdf_mono ha hb h) ht.1 ht.2
    exact quantile_between ha hb hq hl hu h1 h2
  · rw [min_eq_right h, max_eq_left h]
    have h1 := betaCdf_mono ha hb h
    exact quantile_between ha hb hq hu hl (by nlinarith [ht.1, ht.2]) (by nlinarith [ht.1, ht.2])

theorem betaMeasure_Icc (ha : 0 < a) (hb : 0 < b) {l x : ℝ} (h : l ≤ x) :
    betaMeasure a b (Icc l x) = ENNReal.ofReal (betaCdf a b x - betaCdf a b l) := by
  have := isProbabilityMeasureBeta ha hb
  have h0 : betaMeasure a b {l} = 0 := withDensity_absolutelyContinuous _ _ (measure_singleton l)
  have h1 : betaMeasure a b (Icc l x) = betaMeasure a b (Ioc l x) := by
    rw [← Icc_diff_left, measure_diff_null h0]
  have h2 : betaMeasure a b (Iic x) = betaMeasure a b (Iic l) + betaMeasure a b (Ioc l x) := by
    rw [← measure_union (by
      rw [Set.disjoint_left]
      intro z hz hz'
      exact absurd hz'.1 (not_lt.mpr hz)) measurableSet_Ioc, Iic_union_Ioc_eq_Iic h]
  unfold betaCdf
  rw [h1, measureReal_def, measureReal_def, h2, ENNReal.toReal_add (measure_ne_top _ _)
    (measure_ne_top _ _), add_sub_cancel_left, ENNReal.ofReal_toReal (measure_ne_top _ _)]

/-- **C112, law.** With a uniform draw, the probability that the result is at most `x` is that of the
Beta distribution conditioned on the interval. -/
theorem c112_law (ha : 0 < a) (hb : 0 < b) {q : ℝ → ℝ} (hq : IsBetaQuantile a b q) {l u x : ℝ}
    (hl : 0 ≤ l) (hlu : l < u) (hu : u ≤ 1) (hx : x ∈ Icc l u) :
    volume {t ∈ Icc (0 : ℝ) 1 | ∃ y, sampleTruncatedBeta q a b l u t = .ok y ∧ y ≤ x} =
      betaMeasure a b (Icc l x) / betaMeasure a b (Icc l u) := by
  have hl' : l ∈ Icc (0 : ℝ) 1 := ⟨hl, hlu.le.trans hu⟩
  have hu' : u ∈ Icc (0 : ℝ) 1 := ⟨hl.trans hlu.le, hu⟩
  have hx' : x ∈ Icc (0 : ℝ) 1 := ⟨hl.trans hx.1, hx.2.trans hu⟩
  have hD : 0 < betaCdf a b u - betaCdf a b l := sub_pos.mpr (betaCdf_lt ha hb hl hlu hu)
  have hm := betaCdf_mono ha hb
  have hr : (betaCdf a b x - betaCdf a b l) / (betaCdf a b u - betaCdf a b l) ≤ 1 := by
    rw [div_le_one hD]
    linarith [hm hx.2]
  have e : {t ∈ Icc (0 : ℝ) 1 | ∃ y, sampleTruncatedBeta q a b l u t = .ok y ∧ y ≤ x} =
      Icc 0 ((betaCdf a b x - betaCdf a b l) / (betaCdf a b u - betaCdf a b l)) := by
    ext t
    simp only [mem_setOf_eq, sampleTruncatedBeta_ok ha hb q hl' hu', Except.ok.injEq, exists_eq_left']
    have key : t ∈ Icc (0 : ℝ) 1 →
        (q (betaCdf a b l + t * (betaCdf a b u - betaCdf a b l)) ≤ x ↔
          t ≤ (betaCdf a b x - betaCdf a b l) / (betaCdf a b u - betaCdf a b l)) := by
      intro ht
      obtain ⟨h1, h2⟩ := mix_mem (hm hlu.le) ht.1 ht.2
      obtain ⟨-, -, eq⟩ := hq _ ((betaCdf_nonneg l).trans h1) (h2.trans (betaCdf_le_one ha hb u))
      rw [le_div_iff₀ hD]
      constructor
      · intro h
        have := hm h
        linarith
      · intro h
        exact (quantile_between ha hb hq hl' hx' h1 (by linarith)).2
    constructor
    · rintro ⟨ht, h⟩
      exact ⟨ht.1, (key ht).1 h⟩
    · rintro ⟨h0, h⟩
      have ht : t ∈ Icc (0 : ℝ) 1 := ⟨h0, h.trans hr⟩
      exact ⟨ht, (key ht).2 h⟩
  rw [e, Real.volume_Icc, sub_zero, betaMeasure_Icc ha hb hx.1, betaMeasure_Icc ha hb hlu.le,
    ENNReal.ofReal_div_of_pos hD]

/-- **C112, checks.** A draw is returned only for positive shapes and bounds in the unit interval. -/
theorem c112_checked (q : ℝ → ℝ) (l u t : ℝ) :
    (∃ x, sampleTruncatedBeta q a b l u t = .ok x) ↔
      0 < a ∧ 0 < b ∧ l ∈ Icc (0 : ℝ) 1 ∧ u ∈ Icc (0 : ℝ) 1 := by
  constructor
  · rintro ⟨x, h⟩
    unfold sampleTruncatedBeta at h
    split_ifs at h with h1 h2 h3
    exact ⟨h1.1, h1.2, h2, h3⟩
  · rintro ⟨ha, hb, hl, hu⟩
    exact ⟨_, sampleTruncatedBeta_ok ha hb q hl hu t⟩

/-- The hypotheses are met by the arguments of the unit test of the repository. -/
example : ∃ q, IsBetaQuantile 2 2 q ∧ ∀ t ∈ Icc (0 : ℝ) 1,
    ∃ x, sampleTruncatedBeta q 2 2 (1 / 10) (2 / 10) t = .ok x ∧ 1 / 10 ≤ x ∧ x ≤ 2 / 10 := by
  obtain ⟨q, hq⟩ := exists_quantile (a := 2) (b := 2) two_pos two_pos
  refine ⟨q, hq, fun t ht => ?_⟩
  obtain ⟨x, e, h1, h2⟩ := c112_in_range two_pos two_pos hq (l := 1 / 10) (u := 2 / 10)
    ⟨by norm_num, by norm_num⟩ ⟨by norm_num, by norm_num⟩ ht
  rw [min_eq_left (by norm_num)] at h1
  rw [max_eq_right (by norm_num)] at h2
  exact ⟨x, e, h1, h2⟩

end Bayesmix.Utils
