import Mathlib.MeasureTheory.Constructions.Pi
import Mathlib.MeasureTheory.Integral.Lebesgue.Map

/-! Symmetric integrals over independent draws. -/

namespace Bayesmix.Gibbs
open MeasureTheory ENNReal

variable {Θ : Type} [MeasurableSpace Θ]

theorem lintegral_swap (ν : Measure Θ) [SigmaFinite ν] {k : ℕ} (e : Equiv.Perm (Fin k))
    (F : (Fin k → Θ) → ℝ≥0∞) :
    ∫⁻ a, F (fun j => a (e j)) ∂(Measure.pi fun _ => ν) = ∫⁻ a, F a ∂(Measure.pi fun _ => ν) := by
  have hm := measurePreserving_piCongrLeft (α := fun _ : Fin k => Θ) (fun _ => ν) e.symm
  have h := hm.lintegral_comp_emb (MeasurableEquiv.measurableEmbedding _) F
  rw [← h]
  congr 1
  funext a
  congr 1
  funext j
  have := MeasurableEquiv.piCongrLeft_apply_apply (β := fun _ : Fin k => Θ) (e := e.symm) a (e j)
  simpa using this.symm

theorem lintegral_cons (ν : Measure Θ) [SigmaFinite ν] {k : ℕ} (F : (Fin (k + 1) → Θ) → ℝ≥0∞)
    (hF : Measurable F) :
    ∫⁻ a, F a ∂(Measure.pi fun _ => ν) =
      ∫⁻ θ, ∫⁻ a, F (Fin.cons θ a) ∂(Measure.pi fun _ => ν) ∂ν := by
  have hm := (measurePreserving_piFinSuccAbove (α := fun _ : Fin (k + 1) => Θ) (fun _ => ν) 0).symm
  have h := hm.lintegral_comp_emb (MeasurableEquiv.measurableEmbedding _) F
  rw [← h, lintegral_prod]
  · refine lintegral_congr fun θ => lintegral_congr fun a => ?_
    congr 1
    simp [MeasurableEquiv.piFinSuccAbove_symm_apply, Fin.insertNthEquiv, Fin.insertNth_zero']
  · exact (hF.comp (MeasurableEquiv.measurable _)).aemeasurable

/-- One place of a symmetric integrand is as good as any. -/
theorem lintegral_first (ν : Measure Θ) [SigmaFinite ν] {k : ℕ} (f : Θ → ℝ≥0∞) (hf : Measurable f)
    (F : (Fin (k + 1) → Θ) → ℝ≥0∞) (hF : Measurable F)
    (hs : ∀ (e : Equiv.Perm (Fin (k + 1))) a, F (fun j => a (e j)) = F a) :
    ∫⁻ θ, f θ * ∫⁻ a, F (Fin.cons θ a) ∂(Measure.pi fun _ => ν) ∂ν =
      ∫⁻ a, (∑ j, f (a j) * (((k + 1 : ℕ) : ℝ≥0∞))⁻¹) * F a ∂(Measure.pi fun _ => ν) := by
  have h0 : ∀ j : Fin (k + 1), ∫⁻ a, f (a j) * F a ∂(Measure.pi fun _ => ν) =
      ∫⁻ a, f (a 0) * F a ∂(Measure.pi fun _ => ν) := by
    intro j
    rw [← lintegral_swap ν (Equiv.swap 0 j) (fun a => f (a 0) * F a)]
    simp only [Equiv.swap_apply_left, hs]
  have hm : ∀ j : Fin (k + 1), Measurable fun a : Fin (k + 1) → Θ => f (a j) * F a :=
    fun j => (hf.comp (measurable_pi_apply j)).mul hF
  have h1 : ∫⁻ a, (∑ j, f (a j) * (((k + 1 : ℕ) : ℝ≥0∞))⁻¹) * F a ∂(Measure.pi fun _ => ν) =
      ∑ j : Fin (k + 1), (((k + 1 : ℕ) : ℝ≥0∞))⁻¹ *
        ∫⁻ a, f (a j) * F a ∂(Measure.pi fun _ => ν) := by
    simp_rw [Finset.sum_mul]
    rw [lintegral_finsetSum]
    · refine Finset.sum_congr rfl fun j _ => ?_
      rw [← lintegral_const_mul _ (hm j)]
      refine lintegral_congr fun a => ?_
      ring
    · intro j _
      have : Measurable fun a : Fin (k + 1) → Θ => f (a j) * (((k + 1 : ℕ) : ℝ≥0∞))⁻¹ :=
        (hf.comp (measurable_pi_apply j)).mul_const _
      exact this.mul hF
  rw [h1]
  simp_rw [h0]
  rw [Finset.sum_const, Finset.card_univ, Fintype.card_fin, nsmul_eq_mul, ← mul_assoc,
    ENNReal.mul_inv_cancel (by simp) (by simp), one_mul, lintegral_cons ν _ (hm 0)]
  refine lintegral_congr fun θ => ?_
  simp only [Fin.cons_zero]
  rw [lintegral_const_mul]
  refine hF.comp ?_
  exact measurable_pi_iff.mpr fun j => by
    refine Fin.cases ?_ (fun l => ?_) j
    · simp
    · simpa using measurable_pi_apply l

end Bayesmix.Gibbs
