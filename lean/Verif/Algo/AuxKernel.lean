import Verif.Algo.AuxMeasure

/-! Choosing among fixed weights and weighted auxiliary draws is reversible. -/

namespace Bayesmix.Gibbs
open MeasureTheory ENNReal

variable {Θ : Type}

/-- Weighted sum over the offers: fixed ones `inl c`, `c < K`, with weight `e c`, and the
auxiliary values with weights `L (a j) / m`. -/
noncomputable def offerSum (e : ℕ → ℝ≥0∞) (K : ℕ) (L : Θ → ℝ≥0∞) {m : ℕ} (φ : ℕ ⊕ Θ → ℝ≥0∞)
    (a : Fin m → Θ) : ℝ≥0∞ :=
  ∑ c ∈ Finset.range K, e c * φ (.inl c) +
    ∑ j, L (a j) * φ (.inr (a j)) * ((m : ℝ≥0∞))⁻¹

theorem offerSum_perm (e : ℕ → ℝ≥0∞) (K : ℕ) (L : Θ → ℝ≥0∞) {m : ℕ} (φ : ℕ ⊕ Θ → ℝ≥0∞)
    (σ : Equiv.Perm (Fin m)) (a : Fin m → Θ) :
    offerSum e K L φ (fun j => a (σ j)) = offerSum e K L φ a := by
  unfold offerSum
  congr 1
  exact Equiv.sum_comp σ (fun j => L (a j) * φ (.inr (a j)) * ((m : ℝ≥0∞))⁻¹)

variable [MeasurableSpace Θ]

theorem offerSum_measurable (e : ℕ → ℝ≥0∞) (K : ℕ) {L : Θ → ℝ≥0∞} (hL : Measurable L) {m : ℕ}
    {φ : ℕ ⊕ Θ → ℝ≥0∞} (hφ : Measurable fun θ => φ (.inr θ)) :
    Measurable (offerSum e K L (m := m) φ) := by
  unfold offerSum
  refine measurable_const.add (Finset.measurable_sum _ fun j _ => ?_)
  exact ((hL.comp (measurable_pi_apply j)).mul (hφ.comp (measurable_pi_apply j))).mul_const _

/-- The flow from `ψ` to `φ` in terms of one set of auxiliary draws. -/
theorem offer_flow (ν : Measure Θ) [IsProbabilityMeasure ν] (e : ℕ → ℝ≥0∞) (K : ℕ) {L : Θ → ℝ≥0∞}
    (hL : Measurable L) {k : ℕ} {φ ψ : ℕ ⊕ Θ → ℝ≥0∞} (hφ : Measurable fun θ => φ (.inr θ))
    (hψ : Measurable fun θ => ψ (.inr θ)) :
    (∑ c ∈ Finset.range K, e c * (ψ (.inl c) * ∫⁻ a : Fin (k + 1) → Θ,
        offerSum e K L φ a / offerSum e K L (fun _ => 1) a ∂(Measure.pi fun _ => ν))) +
      ∫⁻ θ, L θ * (ψ (.inr θ) * ∫⁻ a : Fin k → Θ, offerSum e K L φ (Fin.cons θ a : Fin (k + 1) → Θ) /
        offerSum e K L (fun _ => 1) (Fin.cons θ a : Fin (k + 1) → Θ) ∂(Measure.pi fun _ => ν)) ∂ν =
    ∫⁻ a : Fin (k + 1) → Θ, offerSum e K L ψ a *
      (offerSum e K L φ a / offerSum e K L (fun _ => 1) a) ∂(Measure.pi fun _ => ν) := by
  obtain ⟨F, hF⟩ : ∃ F : (Fin (k + 1) → Θ) → ℝ≥0∞, F = fun a =>
      offerSum e K L φ a / offerSum e K L (fun _ => 1) a := ⟨_, rfl⟩
  have hFm : Measurable F := by
    rw [hF]
    exact (offerSum_measurable e K hL hφ).div (offerSum_measurable e K hL measurable_const)
  have hFs : ∀ (σ : Equiv.Perm (Fin (k + 1))) a, F (fun j => a (σ j)) = F a := by
    intro σ a
    rw [hF]
    simp only [offerSum_perm]
  have hLψ : Measurable fun θ => L θ * ψ (.inr θ) := hL.mul hψ
  have h1 := lintegral_first ν (fun θ => L θ * ψ (.inr θ)) hLψ F hFm hFs
  simp only [mul_assoc] at h1
  have h2 : ∀ (a : Fin (k + 1) → Θ), offerSum e K L φ a / offerSum e K L (fun _ => 1) a = F a := by
    intro a; rw [hF]
  simp only [h2]
  rw [h1]
  have h3 : ∑ c ∈ Finset.range K, e c * (ψ (.inl c) * ∫⁻ a, F a ∂(Measure.pi fun _ => ν)) =
      ∫⁻ a, (∑ c ∈ Finset.range K, e c * ψ (.inl c)) * F a ∂(Measure.pi fun _ => ν) := by
    rw [lintegral_const_mul _ hFm, Finset.sum_mul]
    refine Finset.sum_congr rfl fun c _ => ?_
    rw [mul_assoc]
  rw [h3, ← lintegral_add_left (hFm.const_mul _)]
  refine lintegral_congr fun a => ?_
  rw [offerSum, add_mul]
  congr 2
  exact Finset.sum_congr rfl fun j _ => (mul_assoc _ _ _).symm

/-- Detailed balance. -/
theorem offer_reversible (ν : Measure Θ) [IsProbabilityMeasure ν] (e : ℕ → ℝ≥0∞) (K : ℕ)
    {L : Θ → ℝ≥0∞} (hL : Measurable L) {k : ℕ} {φ ψ : ℕ ⊕ Θ → ℝ≥0∞}
    (hφ : Measurable fun θ => φ (.inr θ)) (hψ : Measurable fun θ => ψ (.inr θ)) :
    (∑ c ∈ Finset.range K, e c * (ψ (.inl c) * ∫⁻ a : Fin (k + 1) → Θ,
        offerSum e K L φ a / offerSum e K L (fun _ => 1) a ∂(Measure.pi fun _ => ν))) +
      ∫⁻ θ, L θ * (ψ (.inr θ) * ∫⁻ a : Fin k → Θ, offerSum e K L φ (Fin.cons θ a : Fin (k + 1) → Θ) /
        offerSum e K L (fun _ => 1) (Fin.cons θ a : Fin (k + 1) → Θ) ∂(Measure.pi fun _ => ν)) ∂ν =
    (∑ c ∈ Finset.range K, e c * (φ (.inl c) * ∫⁻ a : Fin (k + 1) → Θ,
        offerSum e K L ψ a / offerSum e K L (fun _ => 1) a ∂(Measure.pi fun _ => ν))) +
      ∫⁻ θ, L θ * (φ (.inr θ) * ∫⁻ a : Fin k → Θ, offerSum e K L ψ (Fin.cons θ a : Fin (k + 1) → Θ) /
        offerSum e K L (fun _ => 1) (Fin.cons θ a : Fin (k + 1) → Θ) ∂(Measure.pi fun _ => ν)) ∂ν := by
  rw [offer_flow ν e K hL hφ hψ, offer_flow ν e K hL hψ hφ]
  refine lintegral_congr fun a => ?_
  rw [div_eq_mul_inv, div_eq_mul_inv]
  ring

end Bayesmix.Gibbs
