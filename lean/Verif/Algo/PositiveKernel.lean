import Mathlib.MeasureTheory.Measure.WithDensity
import Mathlib.MeasureTheory.Measure.Prod
import Mathlib.MeasureTheory.Function.AEEqOfLIntegral

/-!
# A chain with positive transition densities has at most one invariant law
-/

namespace Bayesmix.Chain
open MeasureTheory ENNReal

variable {Ω : Type} [MeasurableSpace Ω] {μ : Measure Ω} [SigmaFinite μ] {k : Ω → Ω → ℝ≥0∞}

/-- Densities left alone by a positive transition density are equal if their masses are. -/
theorem kernel_density_unique (hk : Measurable fun p : Ω × Ω => k p.1 p.2)
    (hpos : ∀ᵐ x ∂μ, ∀ y, k x y ≠ 0) (hone : ∀ᵐ x ∂μ, ∫⁻ y, k x y ∂μ = 1) {f g : Ω → ℝ≥0∞}
    (hf : Measurable f) (hg : Measurable g) (hfin : ∫⁻ x, f x ∂μ ≠ ∞)
    (hfg : ∫⁻ x, f x ∂μ = ∫⁻ x, g x ∂μ)
    (hTf : ∀ᵐ y ∂μ, ∫⁻ x, f x * k x y ∂μ = f y) (hTg : ∀ᵐ y ∂μ, ∫⁻ x, g x * k x y ∂μ = g y) :
    f =ᵐ[μ] g := by
  have hky : ∀ y, Measurable fun x => k x y := fun y => hk.comp (measurable_id.prodMk measurable_const)
  have hkx : ∀ x, Measurable fun y => k x y := fun x => hk.comp (measurable_const.prodMk measurable_id)
  obtain ⟨q, hq⟩ : ∃ q : Ω → ℝ≥0∞, q = fun x => min (f x) (g x) := ⟨_, rfl⟩
  have hqm : Measurable q := by rw [hq]; exact hf.min hg
  have hqf : ∀ x, q x ≤ f x := by intro x; rw [hq]; exact min_le_left _ _
  have hqg : ∀ x, q x ≤ g x := by intro x; rw [hq]; exact min_le_right _ _
  have hqfin : ∫⁻ x, q x ∂μ ≠ ∞ := ne_top_of_le_ne_top hfin (lintegral_mono hqf)
  have hjm : ∀ {u : Ω → ℝ≥0∞}, Measurable u → Measurable fun p : Ω × Ω => u p.1 * k p.1 p.2 :=
    fun hu => (hu.comp measurable_fst).mul hk
  have hTm : ∀ {u : Ω → ℝ≥0∞}, Measurable u → Measurable fun y => ∫⁻ x, u x * k x y ∂μ := by
    intro u hu
    exact (hjm hu).lintegral_prod_left'
  have hmass : ∀ {u : Ω → ℝ≥0∞}, Measurable u →
      ∫⁻ y, ∫⁻ x, u x * k x y ∂μ ∂μ = ∫⁻ x, u x ∂μ := by
    intro u hu
    rw [← lintegral_lintegral_swap (μ := μ) (ν := μ) (f := fun x y => u x * k x y) (hjm hu).aemeasurable]
    refine lintegral_congr_ae ?_
    filter_upwards [hone] with x hx
    rw [lintegral_const_mul _ (hkx x), hx, mul_one]
  have hTq : ∀ᵐ y ∂μ, ∫⁻ x, q x * k x y ∂μ ≤ q y := by
    filter_upwards [hTf, hTg] with y h1 h2
    have a1 : ∫⁻ x, q x * k x y ∂μ ≤ f y := by
      rw [← h1]; exact lintegral_mono fun x => mul_le_mul_left (hqf x) _
    have a2 : ∫⁻ x, q x * k x y ∂μ ≤ g y := by
      rw [← h2]; exact lintegral_mono fun x => mul_le_mul_left (hqg x) _
    rw [hq]
    simpa only [hq] using le_min a1 a2
  have hTqe : (fun y => ∫⁻ x, q x * k x y ∂μ) =ᵐ[μ] q := by
    refine ae_eq_of_ae_le_of_lintegral_le hTq ?_ hqm.aemeasurable ?_
    · rw [hmass hqm]; exact hqfin
    · rw [hmass hqm]
  have hdm : Measurable fun x => f x - q x := hf.sub hqm
  have hTd : ∀ᵐ y ∂μ, ∫⁻ x, (f x - q x) * k x y ∂μ = f y - q y := by
    filter_upwards [hTf, hTqe, ae_lt_top hqm hqfin] with y h1 h2 h3
    have hm1 : Measurable fun x => (f x - q x) * k x y := hdm.mul (hky y)
    have e : ∫⁻ x, (f x - q x) * k x y ∂μ + ∫⁻ x, q x * k x y ∂μ = ∫⁻ x, f x * k x y ∂μ := by
      rw [← lintegral_add_left hm1]
      refine lintegral_congr fun x => ?_
      rw [← add_mul, tsub_add_cancel_of_le (hqf x)]
    have h2 : ∫⁻ x, q x * k x y ∂μ = q y := h2
    rw [h1, h2] at e
    exact ENNReal.eq_sub_of_add_eq h3.ne e
  by_cases h0 : ∫⁻ x, (f x - q x) ∂μ = 0
  · rw [lintegral_eq_zero_iff hdm] at h0
    refine ae_eq_of_ae_le_of_lintegral_le ?_ hfin hg.aemeasurable hfg.symm.le
    filter_upwards [h0] with x hx
    exact (tsub_eq_zero_iff_le.1 hx).trans (hqg x)
  · have hgt : ∀ᵐ y ∂μ, g y ≤ f y := by
      filter_upwards [hTd] with y hy
      have hne : f y - q y ≠ 0 := by
        rw [← hy]
        intro hz
        have hm1 : Measurable fun x => (f x - q x) * k x y := hdm.mul (hky y)
        rw [lintegral_eq_zero_iff hm1] at hz
        apply h0
        rw [lintegral_eq_zero_iff hdm]
        filter_upwards [hz, hpos] with x hx hxp
        rcases mul_eq_zero.1 hx with h | h
        · exact h
        · exact absurd h (hxp y)
      by_contra hlt
      push Not at hlt
      apply hne
      rw [hq]
      simp [hlt.le]
    exact (ae_eq_of_ae_le_of_lintegral_le hgt (hfg ▸ hfin) hf.aemeasurable hfg.le).symm

/-- Two invariant laws of a chain with positive transition densities are equal if their masses are. -/
theorem kernel_law_unique (hk : Measurable fun p : Ω × Ω => k p.1 p.2)
    (hpos : ∀ᵐ x ∂μ, ∀ y, k x y ≠ 0) (hone : ∀ᵐ x ∂μ, ∫⁻ y, k x y ∂μ = 1) {ρ π : Measure Ω}
    (hρ : ρ Set.univ ≠ ∞) (hm : ρ Set.univ = π Set.univ)
    (h1 : ∀ φ : Ω → ℝ≥0∞, Measurable φ → ∫⁻ x, ∫⁻ y, k x y * φ y ∂μ ∂ρ = ∫⁻ x, φ x ∂ρ)
    (h2 : ∀ φ : Ω → ℝ≥0∞, Measurable φ → ∫⁻ x, ∫⁻ y, k x y * φ y ∂μ ∂π = ∫⁻ x, φ x ∂π) :
    ρ = π := by
  have dens : ∀ ν : Measure Ω, ν Set.univ ≠ ∞ → (∀ φ : Ω → ℝ≥0∞, Measurable φ →
      ∫⁻ x, ∫⁻ y, k x y * φ y ∂μ ∂ν = ∫⁻ x, φ x ∂ν) → ∃ r : Ω → ℝ≥0∞, Measurable r ∧
        ν = μ.withDensity r ∧ ∀ᵐ y ∂μ, ∫⁻ x, r x * k x y ∂μ = r y := by
    intro ν hν hinv
    have : IsFiniteMeasure ν := ⟨lt_top_iff_ne_top.2 hν⟩
    obtain ⟨r, hr⟩ : ∃ r : Ω → ℝ≥0∞, r = fun y => ∫⁻ x, k x y ∂ν := ⟨_, rfl⟩
    have hrm : Measurable r := by rw [hr]; exact hk.lintegral_prod_left'
    have hν2 : ∀ φ : Ω → ℝ≥0∞, Measurable φ → ∫⁻ x, φ x ∂ν = ∫⁻ y, r y * φ y ∂μ := by
      intro φ hφ
      have hj : Measurable fun p : Ω × Ω => k p.1 p.2 * φ p.2 := hk.mul (hφ.comp measurable_snd)
      rw [← hinv φ hφ, lintegral_lintegral_swap (μ := ν) (ν := μ) (f := fun x y => k x y * φ y)
        hj.aemeasurable]
      refine lintegral_congr fun y => ?_
      have : Measurable fun x => k x y := hk.comp (measurable_id.prodMk measurable_const)
      rw [lintegral_mul_const _ this, hr]
    have hνd : ν = μ.withDensity r := by
      refine Measure.ext_of_lintegral _ fun φ hφ => ?_
      rw [hν2 φ hφ, lintegral_withDensity_eq_lintegral_mul _ hrm hφ]
      rfl
    refine ⟨r, hrm, hνd, ?_⟩
    refine Filter.Eventually.of_forall fun y => ?_
    have : Measurable fun x => k x y := hk.comp (measurable_id.prodMk measurable_const)
    rw [← hν2 _ this, hr]
  obtain ⟨r, hrm, hr, hTr⟩ := dens ρ hρ h1
  obtain ⟨s, hsm, hs, hTs⟩ := dens π (hm ▸ hρ) h2
  have er : ρ Set.univ = ∫⁻ x, r x ∂μ := by
    rw [hr, withDensity_apply _ MeasurableSet.univ, Measure.restrict_univ]
  have es : π Set.univ = ∫⁻ x, s x ∂μ := by
    rw [hs, withDensity_apply _ MeasurableSet.univ, Measure.restrict_univ]
  have := kernel_density_unique hk hpos hone hrm hsm (er ▸ hρ) (by rw [← er, ← es, hm]) hTr hTs
  rw [hr, hs, withDensity_congr_ae this]

end Bayesmix.Chain
