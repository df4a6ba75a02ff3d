import Verif.Algo.HyperLaw
import Verif.Hier.PropsHyper
import Mathlib.Probability.CDF

/-!
# Second moments after the update with the Normal-Gamma-Gamma prior
-/

namespace Bayesmix.Chain
open Bayesmix Cond Hierarchies MeasureTheory ENNReal ProbabilityTheory

/-- A value of a cluster, made from a Gamma and a standard Normal draw. -/
noncomputable def noiseVal (h : NIG) (g z : ℝ) : UniLS :=
  ⟨h.mean + Real.sqrt (h.scale / g / h.varScaling) * z, h.scale / g⟩

theorem measurable_noiseVal (h : NIG) : Measurable fun p : ℝ × ℝ => noiseVal h p.1 p.2 :=
  measurable_mk.comp (f := fun p : ℝ × ℝ =>
    (h.mean + Real.sqrt (h.scale / p.1 / h.varScaling) * p.2, h.scale / p.1)) (by fun_prop)

theorem lintegral_pi_noise {K : ℕ} {h : NIG} (hl : 0 < h.varScaling) (ha : 0 < h.shape)
    (hb : 0 < h.scale) {f : (Fin K → UniLS) → ℝ≥0∞} (hf : Measurable f) :
    ∫⁻ θ, f θ ∂Measure.pi (fun _ : Fin K => nigLaw h) =
      ∫⁻ g, ∫⁻ z, f (fun i => noiseVal h (g i) (z i)) ∂Measure.pi (fun _ : Fin K => normalLaw 0 1)
        ∂Measure.pi (fun _ : Fin K => gammaMeasure h.shape 1) := by
  have hN := affine_normalGen.prob
  have hG := isProbabilityMeasure_gammaMeasure ha one_pos
  have hp := nigLaw_prob h hl ha hb
  have hT := measurable_noiseVal h
  have e : nigLaw h = ((gammaMeasure h.shape 1).prod (normalLaw 0 1)).map
      fun p => noiseVal h p.1 p.2 := by
    refine Measure.ext_of_lintegral _ fun f hf => ?_
    have hfT : Measurable fun p : ℝ × ℝ => f (noiseVal h p.1 p.2) := hf.comp hT
    rw [lintegral_map hf hT, lintegral_nigLaw_noise hl ha hb hf, lintegral_prod _ hfT.aemeasurable]
    rfl
  have hs : SigmaFinite (((gammaMeasure h.shape 1).prod (normalLaw 0 1)).map
      fun p => noiseVal h p.1 p.2) := by rw [← e]; infer_instance
  have e2 := Measure.pi_map_pi (μ := fun _ : Fin K => (gammaMeasure h.shape 1).prod (normalLaw 0 1))
    (f := fun _ p => noiseVal h p.1 p.2) (fun _ => hT.aemeasurable)
  rw [e, ← e2]
  have hTm : Measurable fun (x : Fin K → ℝ × ℝ) (i : Fin K) => noiseVal h (x i).1 (x i).2 :=
    measurable_pi_lambda _ fun i => hT.comp (measurable_pi_apply i)
  rw [lintegral_map hf hTm]
  have hTp : Measurable fun p : (Fin K → ℝ) × (Fin K → ℝ) =>
      f fun i => noiseVal h (p.1 i) (p.2 i) := by
    refine hf.comp (measurable_pi_lambda _ fun i => ?_)
    exact hT.comp (f := fun p : (Fin K → ℝ) × (Fin K → ℝ) => (p.1 i, p.2 i)) (by fun_prop)
  rw [← lintegral_prod _ hTp.aemeasurable]
  have hmp := measurePreserving_arrowProdEquivProdArrow ℝ ℝ (Fin K)
    (fun _ => gammaMeasure h.shape 1) (fun _ => normalLaw 0 1)
  rw [← hmp.lintegral_comp hTp]
  rfl

/-- Sum of the precisions of the values. -/
noncomputable def precSum {K : ℕ} (sc : ℝ) (g : Fin K → ℝ) : ℝ := ∑ i, 1 / (sc / g i)

/-- Precision of the full conditional of the mean. -/
noncomputable def precOf {K : ℕ} (sig200 l sc : ℝ) (g : Fin K → ℝ) : ℝ :=
  l * precSum sc g + 1 / sig200

theorem precSum_nonneg {K : ℕ} {sc : ℝ} {g : Fin K → ℝ} (hb : 0 < sc) (hg : ∀ i, 0 < g i) :
    0 ≤ precSum sc g :=
  Finset.sum_nonneg fun i _ => (one_div_pos.2 (div_pos hb (hg i))).le

theorem precOf_ge {K : ℕ} {sig200 l sc : ℝ} {g : Fin K → ℝ} (hl : 0 < l) (hb : 0 < sc)
    (hg : ∀ i, 0 < g i) : 1 / sig200 ≤ precOf sig200 l sc g := by
  have := mul_nonneg hl.le (precSum_nonneg hb hg)
  unfold precOf
  linarith

/-- The second moment of the redrawn mean. -/
theorem redrawn_sq {K : ℕ} {mu00 sig200 l sh sc : ℝ} (hs : 0 < sig200) (hl : 0 < l) (hb : 0 < sc)
    {g : Fin K → ℝ} (hg : ∀ i, 0 < g i) :
    ∫⁻ m, ∫⁻ z : Fin K → ℝ, ENNReal.ofReal
        (((nggMeanParams mu00 sig200 ⟨m, l, sh, sc⟩
            (List.ofFn fun i => noiseVal ⟨m, l, sh, sc⟩ (g i) (z i))).1 - mu00) ^ 2 +
          (nggMeanParams mu00 sig200 ⟨m, l, sh, sc⟩
            (List.ofFn fun i => noiseVal ⟨m, l, sh, sc⟩ (g i) (z i))).2 ^ 2)
        ∂Measure.pi (fun _ : Fin K => normalLaw 0 1) ∂normalLaw mu00 (Real.sqrt sig200) =
      ENNReal.ofReal (sig200 + (1 / precOf sig200 l sc g ^ 2 - 1 / precOf sig200 l sc g)) := by
  obtain ⟨B, hB⟩ : ∃ B, B = precSum sc g := ⟨_, rfl⟩
  obtain ⟨P, hP⟩ : ∃ P, P = precOf sig200 l sc g := ⟨_, rfl⟩
  have hPB : P = l * B + 1 / sig200 := by rw [hP, hB]; rfl
  have hpos : 0 < P := by rw [hP]; exact lt_of_lt_of_le (one_div_pos.2 hs) (precOf_ge hl hb hg)
  have hv : ∀ i, 0 < sc / g i := fun i => div_pos hb (hg i)
  have e : ∀ (m : ℝ) (z : Fin K → ℝ), ((nggMeanParams mu00 sig200 ⟨m, l, sh, sc⟩
            (List.ofFn fun i => noiseVal ⟨m, l, sh, sc⟩ (g i) (z i))).1 - mu00) ^ 2 +
          (nggMeanParams mu00 sig200 ⟨m, l, sh, sc⟩
            (List.ofFn fun i => noiseVal ⟨m, l, sh, sc⟩ (g i) (z i))).2 ^ 2 =
      (l * B / P * (m - mu00) +
        ∑ i, (l * (1 / (sc / g i)) * Real.sqrt (sc / g i / l) / P) * z i) ^ 2 + (1 / P) ^ 2 := by
    intro m z
    simp only [nggMeanParams, List.map_ofFn, List.sum_ofFn, Function.comp_def, noiseVal]
    have e1 : ∑ i, 1 / (sc / g i) = B := by rw [hB]; rfl
    have e2 : ∑ i, (m + Real.sqrt (sc / g i / l) * z i) / (sc / g i) =
        m * B + ∑ i, 1 / (sc / g i) * Real.sqrt (sc / g i / l) * z i := by
      rw [← e1, Finset.mul_sum, ← Finset.sum_add_distrib]
      refine Finset.sum_congr rfl fun i _ => ?_
      have := (hv i).ne'
      field_simp
    have e3 : ∑ i, (l * (1 / (sc / g i)) * Real.sqrt (sc / g i / l) / P) * z i =
        l * (∑ i, 1 / (sc / g i) * Real.sqrt (sc / g i / l) * z i) / P := by
      rw [Finset.mul_sum, Finset.sum_div]
      exact Finset.sum_congr rfl fun i _ => by ring
    rw [e1, e2, e3, ← hPB]
    obtain ⟨T, hT⟩ : ∃ T, T = ∑ i, 1 / (sc / g i) * Real.sqrt (sc / g i / l) * z i := ⟨_, rfl⟩
    rw [← hT]
    congr 2
    have hd : mu00 / sig200 = mu00 * (P - l * B) := by rw [hPB]; ring
    rw [hd]
    field_simp
    ring
  simp only [e]
  have hc : ∑ i, (l * (1 / (sc / g i)) * Real.sqrt (sc / g i / l) / P) ^ 2 = l * B / P ^ 2 := by
    have : ∀ i, (l * (1 / (sc / g i)) * Real.sqrt (sc / g i / l) / P) ^ 2 =
        l / P ^ 2 * (1 / (sc / g i)) := by
      intro i
      have h1 : Real.sqrt (sc / g i / l) ^ 2 = sc / g i / l := Real.sq_sqrt (div_pos (hv i) hl).le
      rw [div_pow, mul_pow, h1]
      have := (hv i).ne'
      field_simp
    rw [Finset.sum_congr rfl fun i _ => this i, ← Finset.mul_sum, hB]
    unfold precSum
    ring
  simp only [normalPi_sq _ _ (sq_nonneg (1 / P)), hc]
  have hBn : 0 ≤ B := by rw [hB]; exact precSum_nonneg hb hg
  have h2 := normalLaw_sq mu00 0 (Real.sqrt_pos.2 hs) (d := l * B / P ^ 2 + (1 / P) ^ 2)
    (by positivity) (l * B / P)
  simp only [add_zero, ← add_assoc] at h2
  rw [h2, Real.sq_sqrt hs.le, ← hP]
  congr 1
  have hl2 : l * B = P - 1 / sig200 := by rw [hPB]; ring
  rw [hl2]
  field_simp
  ring

/-- Weighted squares of the mean, the test function. -/
noncomputable def sqTest {K : ℕ} (mu00 : ℝ) (A : Set (Fin K → ℝ)) (h : NIG) (θ : Fin K → UniLS) :
    ℝ≥0∞ := A.indicator 1 (fun i => (θ i).var) * ENNReal.ofReal ((h.mean - mu00) ^ 2)

section test

variable {K : ℕ} {mu00 sig200 alpha00 beta00 a00 b00 sh l sc : ℝ} {A : Set (Fin K → ℝ)}
  {Z W : Type} [MeasurableSpace Z] [MeasurableSpace W] {ζ : Measure Z} {gen : Z → ℝ → ℝ → ℝ}
  {ω : Measure W} {gam : W → ℝ → ℝ → ℝ}

theorem sqTest_before (hA : MeasurableSet A) (hs : 0 < sig200) (hl : 0 < l) (ha : 0 < sh)
    (hb : 0 < sc) :
    ∫⁻ m, ∫⁻ θ, sqTest mu00 A ⟨m, l, sh, sc⟩ θ ∂Measure.pi (fun _ : Fin K => nigLaw ⟨m, l, sh, sc⟩)
        ∂normalLaw mu00 (Real.sqrt sig200) =
      ∫⁻ g, A.indicator 1 (fun i => sc / g i) * ENNReal.ofReal sig200
        ∂Measure.pi (fun _ : Fin K => gammaMeasure sh 1) := by
  have hN := affine_normalGen.prob
  have hG := isProbabilityMeasure_gammaMeasure ha one_pos
  have hNm := normalLaw_prob mu00 hs
  have hind : Measurable fun v : Fin K → ℝ => A.indicator (1 : (Fin K → ℝ) → ℝ≥0∞) v :=
    measurable_one.indicator hA
  have hvar : Measurable fun (θ : Fin K → UniLS) (i : Fin K) => (θ i).var :=
    measurable_pi_lambda _ fun i => measurable_var.comp (measurable_pi_apply i)
  have hi2 : Measurable fun g : Fin K → ℝ => A.indicator (1 : (Fin K → ℝ) → ℝ≥0∞) fun i => sc / g i :=
    hind.comp (by fun_prop)
  have e : ∀ m, ∫⁻ θ, sqTest mu00 A ⟨m, l, sh, sc⟩ θ
      ∂Measure.pi (fun _ : Fin K => nigLaw ⟨m, l, sh, sc⟩) =
      ∫⁻ g, A.indicator 1 (fun i => sc / g i) * ENNReal.ofReal ((m - mu00) ^ 2)
        ∂Measure.pi (fun _ : Fin K => gammaMeasure sh 1) := by
    intro m
    have hf : Measurable (sqTest mu00 A ⟨m, l, sh, sc⟩) := (hind.comp hvar).mul_const _
    rw [lintegral_pi_noise (h := ⟨m, l, sh, sc⟩) hl ha hb hf]
    simp only [sqTest, noiseVal, lintegral_const, measure_univ, mul_one]
  simp only [e]
  have hsq : Measurable fun m : ℝ => ENNReal.ofReal ((m - mu00) ^ 2) := by fun_prop
  have hj : Measurable fun p : ℝ × (Fin K → ℝ) =>
      A.indicator (1 : (Fin K → ℝ) → ℝ≥0∞) (fun i => sc / p.2 i) * ENNReal.ofReal ((p.1 - mu00) ^ 2) :=
    (hi2.comp measurable_snd).mul (hsq.comp measurable_fst)
  refine (lintegral_lintegral_swap (μ := normalLaw mu00 (Real.sqrt sig200))
    (ν := Measure.pi fun _ : Fin K => gammaMeasure sh 1) (f := fun m g =>
    A.indicator (1 : (Fin K → ℝ) → ℝ≥0∞) (fun i => sc / g i) * ENNReal.ofReal ((m - mu00) ^ 2))
    hj.aemeasurable).trans ?_
  refine lintegral_congr fun g => ?_
  rw [lintegral_const_mul _ hsq]
  have h2 := normalLaw_sq mu00 0 (Real.sqrt_pos.2 hs) (d := 0) le_rfl 1
  simp only [add_zero, one_mul, one_pow, ne_eq, OfNat.ofNat_ne_zero, not_false_eq_true, zero_pow] at h2
  rw [h2, Real.sq_sqrt hs.le]

theorem sqTest_update (hg : NormalGen ζ gen) (hω : IsProbabilityMeasure ω) (hs : 0 < sig200)
    (h1 : 0 < alpha00) (h2 : 0 < beta00) (h3 : 0 < a00) (h4 : 0 < b00) {h : NIG}
    (hl : 0 < h.varScaling) (ha : 0 < h.shape) {θ : Fin K → UniLS} (hθ : ∀ i, 0 < (θ i).var) :
    hypersAfter (.ngg mu00 sig200 alpha00 beta00 a00 b00 sh) gen ζ gam ω (sqTest mu00 A) h θ =
      A.indicator 1 (fun i => (θ i).var) * ENNReal.ofReal
        (((nggMeanParams mu00 sig200 h (List.ofFn θ)).1 - mu00) ^ 2 +
          (nggMeanParams mu00 sig200 h (List.ofFn θ)).2 ^ 2) := by
  have hv : ∀ st ∈ List.ofFn θ, 0 < st.var := by
    intro st hst
    obtain ⟨i, rfl⟩ := List.mem_ofFn.1 hst
    exact hθ i
  have hsd : 0 < (nggMeanParams mu00 sig200 h (List.ofFn θ)).2 := by
    have h5 := sum_inv_nonneg _ hv
    have h6 : 0 < 1 / sig200 := one_div_pos.2 hs
    have h7 := mul_nonneg hl.le h5
    exact one_div_pos.2 (by linarith)
  unfold hypersAfter
  simp only [c60_ngg_update mu00 sig200 alpha00 beta00 a00 b00 sh hs h1 h2 h3 h4 h hl ha _ hv, sqTest,
    lintegral_const, measure_univ, mul_one]
  have hsq : Measurable fun m : ℝ => ENNReal.ofReal ((m - mu00) ^ 2) := by fun_prop
  have hsqA : Measurable fun m : ℝ => A.indicator (1 : (Fin K → ℝ) → ℝ≥0∞) (fun i => (θ i).var) *
      ENNReal.ofReal ((m - mu00) ^ 2) := hsq.const_mul _
  rw [hg.lintegral hsd hsqA, lintegral_const_mul _ hsq]
  have h8 := normalLaw_sq (nggMeanParams mu00 sig200 h (List.ofFn θ)).1
    ((nggMeanParams mu00 sig200 h (List.ofFn θ)).1 - mu00) hsd (d := 0) le_rfl 1
  have e : ∀ y, 1 * (y - (nggMeanParams mu00 sig200 h (List.ofFn θ)).1) +
      ((nggMeanParams mu00 sig200 h (List.ofFn θ)).1 - mu00) = y - mu00 := fun y => by ring
  simp only [e, add_zero] at h8
  rw [h8, one_pow, one_mul, add_comm]

theorem sqTest_after (hA : MeasurableSet A) (hg : NormalGen ζ gen) (hω : IsProbabilityMeasure ω)
    (hs : 0 < sig200)
    (h1 : 0 < alpha00) (h2 : 0 < beta00) (h3 : 0 < a00) (h4 : 0 < b00)
    (hl : 0 < l) (ha : 0 < sh) (hb : 0 < sc) :
    ∫⁻ m, ∫⁻ θ, hypersAfter (.ngg mu00 sig200 alpha00 beta00 a00 b00 sh) gen ζ gam ω (sqTest mu00 A)
        ⟨m, l, sh, sc⟩ θ ∂Measure.pi (fun _ : Fin K => nigLaw ⟨m, l, sh, sc⟩)
        ∂normalLaw mu00 (Real.sqrt sig200) =
      ∫⁻ g, A.indicator 1 (fun i => sc / g i) * ENNReal.ofReal
        (sig200 + (1 / precOf sig200 l sc g ^ 2 - 1 / precOf sig200 l sc g))
        ∂Measure.pi (fun _ : Fin K => gammaMeasure sh 1) := by
  have hN := affine_normalGen.prob
  have hG := isProbabilityMeasure_gammaMeasure ha one_pos
  have hNm := normalLaw_prob mu00 hs
  have hind : Measurable fun v : Fin K → ℝ => A.indicator (1 : (Fin K → ℝ) → ℝ≥0∞) v :=
    measurable_one.indicator hA
  have hvar : Measurable fun (θ : Fin K → UniLS) (i : Fin K) => (θ i).var :=
    measurable_pi_lambda _ fun i => measurable_var.comp (measurable_pi_apply i)
  have hi2 : Measurable fun g : Fin K → ℝ => A.indicator (1 : (Fin K → ℝ) → ℝ≥0∞) fun i => sc / g i :=
    hind.comp (by fun_prop)
  have hmean : ∀ i : Fin K, Measurable fun θ : Fin K → UniLS => (θ i).mean := fun i =>
    measurable_mean.comp (measurable_pi_apply i)
  have hvar' : ∀ i : Fin K, Measurable fun θ : Fin K → UniLS => (θ i).var := fun i =>
    measurable_var.comp (measurable_pi_apply i)
  have e : ∀ m, ∫⁻ θ, hypersAfter (.ngg mu00 sig200 alpha00 beta00 a00 b00 sh) gen ζ gam ω
        (sqTest mu00 A) ⟨m, l, sh, sc⟩ θ ∂Measure.pi (fun _ : Fin K => nigLaw ⟨m, l, sh, sc⟩) =
      ∫⁻ g, A.indicator 1 (fun i => sc / g i) *
        ∫⁻ z : Fin K → ℝ, ENNReal.ofReal
        (((nggMeanParams mu00 sig200 ⟨m, l, sh, sc⟩
            (List.ofFn fun i => noiseVal ⟨m, l, sh, sc⟩ (g i) (z i))).1 - mu00) ^ 2 +
          (nggMeanParams mu00 sig200 ⟨m, l, sh, sc⟩
            (List.ofFn fun i => noiseVal ⟨m, l, sh, sc⟩ (g i) (z i))).2 ^ 2)
        ∂Measure.pi (fun _ : Fin K => normalLaw 0 1) ∂Measure.pi (fun _ : Fin K => gammaMeasure sh 1) := by
    intro m
    have hq : Measurable fun θ : Fin K → UniLS => ENNReal.ofReal
        (((nggMeanParams mu00 sig200 ⟨m, l, sh, sc⟩ (List.ofFn θ)).1 - mu00) ^ 2 +
          (nggMeanParams mu00 sig200 ⟨m, l, sh, sc⟩ (List.ofFn θ)).2 ^ 2) := by
      simp only [nggMeanParams, List.map_ofFn, List.sum_ofFn, Function.comp_def]
      fun_prop
    have hf : Measurable fun θ : Fin K → UniLS =>
        A.indicator (1 : (Fin K → ℝ) → ℝ≥0∞) (fun i => (θ i).var) * ENNReal.ofReal
        (((nggMeanParams mu00 sig200 ⟨m, l, sh, sc⟩ (List.ofFn θ)).1 - mu00) ^ 2 +
          (nggMeanParams mu00 sig200 ⟨m, l, sh, sc⟩ (List.ofFn θ)).2 ^ 2) := (hind.comp hvar).mul hq
    have h5 : ∫⁻ θ, hypersAfter (.ngg mu00 sig200 alpha00 beta00 a00 b00 sh) gen ζ gam ω
        (sqTest mu00 A) ⟨m, l, sh, sc⟩ θ ∂Measure.pi (fun _ : Fin K => nigLaw ⟨m, l, sh, sc⟩) =
        ∫⁻ θ, A.indicator 1 (fun i => (θ i).var) * ENNReal.ofReal
        (((nggMeanParams mu00 sig200 ⟨m, l, sh, sc⟩ (List.ofFn θ)).1 - mu00) ^ 2 +
          (nggMeanParams mu00 sig200 ⟨m, l, sh, sc⟩ (List.ofFn θ)).2 ^ 2)
          ∂Measure.pi (fun _ : Fin K => nigLaw ⟨m, l, sh, sc⟩) := by
      refine lintegral_congr_ae ?_
      filter_upwards [pi_ae (ι := Fin K) hl ha hb m] with θ hθ
      exact sqTest_update (h := ⟨m, l, sh, sc⟩) hg hω hs h1 h2 h3 h4 hl ha hθ
    rw [h5, lintegral_pi_noise (h := ⟨m, l, sh, sc⟩) hl ha hb hf]
    refine lintegral_congr fun g => ?_
    simp only [noiseVal]
    refine lintegral_const_mul _ (hq.comp (g := fun θ : Fin K → UniLS => ENNReal.ofReal
        (((nggMeanParams mu00 sig200 ⟨m, l, sh, sc⟩ (List.ofFn θ)).1 - mu00) ^ 2 +
          (nggMeanParams mu00 sig200 ⟨m, l, sh, sc⟩ (List.ofFn θ)).2 ^ 2))
      (f := fun (z : Fin K → ℝ) i => noiseVal ⟨m, l, sh, sc⟩ (g i) (z i)) ?_)
    exact measurable_pi_lambda _ fun i => (measurable_noiseVal _).comp
      (f := fun z : Fin K → ℝ => (g i, z i)) (by fun_prop)
  simp only [e]
  have hz : Measurable fun p : (ℝ × (Fin K → ℝ)) × (Fin K → ℝ) => ENNReal.ofReal
        (((nggMeanParams mu00 sig200 ⟨p.1.1, l, sh, sc⟩
            (List.ofFn fun i => noiseVal ⟨p.1.1, l, sh, sc⟩ (p.1.2 i) (p.2 i))).1 - mu00) ^ 2 +
          (nggMeanParams mu00 sig200 ⟨p.1.1, l, sh, sc⟩
            (List.ofFn fun i => noiseVal ⟨p.1.1, l, sh, sc⟩ (p.1.2 i) (p.2 i))).2 ^ 2) := by
    simp only [nggMeanParams, List.map_ofFn, List.sum_ofFn, Function.comp_def, noiseVal]
    fun_prop
  obtain ⟨R, hR⟩ : ∃ R : ℝ → (Fin K → ℝ) → ℝ≥0∞, R = fun m g =>
      ∫⁻ z : Fin K → ℝ, ENNReal.ofReal
        (((nggMeanParams mu00 sig200 ⟨m, l, sh, sc⟩
            (List.ofFn fun i => noiseVal ⟨m, l, sh, sc⟩ (g i) (z i))).1 - mu00) ^ 2 +
          (nggMeanParams mu00 sig200 ⟨m, l, sh, sc⟩
            (List.ofFn fun i => noiseVal ⟨m, l, sh, sc⟩ (g i) (z i))).2 ^ 2)
        ∂Measure.pi (fun _ : Fin K => normalLaw 0 1) := ⟨_, rfl⟩
  have hRm : Measurable fun p : ℝ × (Fin K → ℝ) => R p.1 p.2 := by
    rw [hR]; exact hz.lintegral_prod_right'
  have hR1 : ∀ g, Measurable fun m => R m g := fun g =>
    hRm.comp (f := fun m : ℝ => (m, g)) (by fun_prop)
  have hj : Measurable fun p : ℝ × (Fin K → ℝ) =>
      A.indicator (1 : (Fin K → ℝ) → ℝ≥0∞) (fun i => sc / p.2 i) * R p.1 p.2 :=
    (hi2.comp measurable_snd).mul hRm
  have hsw := lintegral_lintegral_swap (μ := normalLaw mu00 (Real.sqrt sig200))
    (ν := Measure.pi fun _ : Fin K => gammaMeasure sh 1) (f := fun m g =>
    A.indicator (1 : (Fin K → ℝ) → ℝ≥0∞) (fun i => sc / g i) * R m g) hj.aemeasurable
  have hgae : ∀ᵐ g ∂Measure.pi (fun _ : Fin K => gammaMeasure sh 1), ∀ i, 0 < g i := by
    rw [ae_all_iff]
    intro i
    exact (measurePreserving_eval (fun _ : Fin K => gammaMeasure sh 1) i).quasiMeasurePreserving.ae
      (ae_gammaMeasure sh 1)
  have hfin : ∫⁻ g, ∫⁻ m, A.indicator (1 : (Fin K → ℝ) → ℝ≥0∞) (fun i => sc / g i) * R m g
        ∂normalLaw mu00 (Real.sqrt sig200) ∂Measure.pi (fun _ : Fin K => gammaMeasure sh 1) =
      ∫⁻ g, A.indicator 1 (fun i => sc / g i) * ENNReal.ofReal
        (sig200 + (1 / precOf sig200 l sc g ^ 2 - 1 / precOf sig200 l sc g))
        ∂Measure.pi (fun _ : Fin K => gammaMeasure sh 1) := by
    refine lintegral_congr_ae ?_
    filter_upwards [hgae] with g hgp
    rw [lintegral_const_mul _ (hR1 g), hR]
    dsimp only
    rw [redrawn_sq hs hl hb hgp]
  rw [← hfin, ← hsw, hR]

end test

end Bayesmix.Chain
