import Mathlib.MeasureTheory.Integral.Lebesgue.Map
import Mathlib.MeasureTheory.Measure.Prod
import Verif.Algo.DiscAvg

/-!
# Averages of functions that use draws of their own

A function of the state of a chain of `DiscKernel` that also uses an independent draw, as an estimate
computed from the state with random numbers: the draw becomes part of the values. General facts, not
about the code.
-/

namespace Bayesmix.Chain
open Bayesmix Cond MeasureTheory
open scoped ENNReal

variable {X : Type} [Fintype X] {Y Ω : Type} [MeasurableSpace Y] [MeasurableSpace Ω]
  {r : X → Y → X → ℝ≥0∞} {V : X → Measure Y} {P : Measure Ω}

/-- The probabilities of the places do not look at the draw. -/
def liftR (Ω : Type) (r : X → Y → X → ℝ≥0∞) : X → Y × Ω → X → ℝ≥0∞ := fun x p z => r x p.1 z

/-- Values and draw are independent. -/
noncomputable def liftV (V : X → Measure Y) (P : Measure Ω) (z : X) : Measure (Y × Ω) := (V z).prod P

theorem DiscOk.lift (h : DiscOk r V) [IsProbabilityMeasure P] : DiscOk (liftR Ω r) (liftV V P) := by
  refine ⟨fun x z => (h.meas x z).comp measurable_fst, fun x p => h.one x p.1, fun x => ?_⟩
  have := h.prob x
  unfold liftV
  infer_instance

theorem measurable_discSum (h : DiscOk r V) {F : ℝ → ℝ≥0∞} (hF : Measurable F) {φ : X → Y → ℝ}
    (hφ : ∀ z, Measurable (φ z)) (N : ℕ) (x : X) :
    Measurable fun p : ℝ × Y => discSum r V F φ N p.1 x p.2 := by
  have hp := h.prob
  induction N generalizing x with
  | zero => exact hF.comp measurable_fst
  | succ N ih =>
    unfold discSum discKernel
    refine Finset.measurable_sum _ fun z _ => ((h.meas x z).comp measurable_snd).mul ?_
    have hm : Measurable fun q : ℝ × Y => discSum r V F φ N (q.1 + φ z q.2) z q.2 :=
      (ih z).comp ((measurable_fst.add ((hφ z).comp measurable_snd)).prodMk measurable_snd)
    exact hm.lintegral_prod_right'.comp measurable_fst

theorem lift_iterate (h : DiscOk r V) [IsProbabilityMeasure P] {Φ : X → Y × Ω → ℝ≥0∞}
    (hΦ : ∀ z, Measurable (Φ z)) (k : ℕ) (x : X) (y : Y) (ω : Ω) :
    (discKernel (liftR Ω r) (liftV V P))^[k + 1] Φ x (y, ω) =
      (discKernel r V)^[k + 1] (fun z y => ∫⁻ ω, Φ z (y, ω) ∂P) x y := by
  have hp := h.prob
  have hone : ∀ Φ : X → Y × Ω → ℝ≥0∞, (∀ z, Measurable (Φ z)) → ∀ x y ω,
      discKernel (liftR Ω r) (liftV V P) Φ x (y, ω) =
        discKernel r V (fun z y => ∫⁻ ω, Φ z (y, ω) ∂P) x y := by
    intro Φ hΦ x y ω
    unfold discKernel liftR liftV
    refine Finset.sum_congr rfl fun z _ => ?_
    rw [lintegral_prod _ (hΦ z).aemeasurable]
  induction k generalizing x y ω with
  | zero => exact hone Φ hΦ x y ω
  | succ k ih =>
    have hm : ∀ z, Measurable ((discKernel (liftR Ω r) (liftV V P))^[k + 1] Φ z) := fun z => by
      rw [Function.iterate_succ_apply']
      exact measurable_discKernel h.lift _ z
    rw [Function.iterate_succ_apply' _ (k + 1), Function.iterate_succ_apply' _ (k + 1), hone _ hm]
    have e : (fun z y => ∫⁻ ω, (discKernel (liftR Ω r) (liftV V P))^[k + 1] Φ z (y, ω) ∂P) =
        (discKernel r V)^[k + 1] (fun z y => ∫⁻ ω, Φ z (y, ω) ∂P) := by
      funext z y
      rw [lintegral_congr fun ω => ih z y ω]
      simp
    rw [e]

theorem discSum_draw (F : ℝ → ℝ≥0∞) (φ : X → Y × Ω → ℝ) (N : ℕ) (acc : ℝ) (x : X) (y : Y) (ω ω' : Ω) :
    discSum (liftR Ω r) (liftV V P) F φ N acc x (y, ω) =
      discSum (liftR Ω r) (liftV V P) F φ N acc x (y, ω') := by
  cases N <;> rfl

theorem discSum_lift (h : DiscOk r V) [IsProbabilityMeasure P] {F : ℝ → ℝ≥0∞} (hF : Measurable F)
    {φ : X → Y × Ω → ℝ} (hφ : ∀ z, Measurable (φ z)) (N : ℕ) (acc : ℝ) (x : X) (y : Y) (ω0 : Ω) :
    discSum (liftR Ω r) (liftV V P) F φ (N + 1) acc x (y, ω0) =
      discKernel r V (fun z y => ∫⁻ ω, discSum (liftR Ω r) (liftV V P) F φ N (acc + φ z (y, ω)) z
        (y, ω0) ∂P) x y := by
  have hp := h.prob
  have hm : ∀ z, Measurable fun q : Y × Ω =>
      discSum (liftR Ω r) (liftV V P) F φ N (acc + φ z q) z q := fun z =>
    (measurable_discSum (h.lift (P := P)) hF hφ N z).comp
      (((hφ z).const_add acc).prodMk measurable_id)
  conv_lhs => unfold discSum discKernel
  unfold discKernel
  refine Finset.sum_congr rfl fun z _ => ?_
  have e : ∫⁻ q, discSum (liftR Ω r) (liftV V P) F φ N (acc + φ z q) z q ∂(liftV V P z) =
      ∫⁻ y, ∫⁻ ω, discSum (liftR Ω r) (liftV V P) F φ N (acc + φ z (y, ω)) z (y, ω0) ∂P ∂V z := by
    unfold liftV
    have hm' := hm z
    unfold liftV at hm'
    rw [lintegral_prod _ hm'.aemeasurable]
    exact lintegral_congr fun y => lintegral_congr fun ω => discSum_draw F φ N _ z y ω ω0
  rw [e]
  rfl

theorem measurable_lift_sum (h : DiscOk r V) [IsProbabilityMeasure P] {F : ℝ → ℝ≥0∞}
    (hF : Measurable F) {φ : X → Y × Ω → ℝ} (hφ : ∀ z, Measurable (φ z)) (N : ℕ) (acc : ℝ) (z : X)
    (ω0 : Ω) : Measurable fun y => ∫⁻ ω, discSum (liftR Ω r) (liftV V P) F φ N (acc + φ z (y, ω)) z
      (y, ω0) ∂P := by
  have hm : Measurable fun q : Y × Ω => discSum (liftR Ω r) (liftV V P) F φ N (acc + φ z q) z
      (q.1, ω0) :=
    (measurable_discSum (h.lift (P := P)) hF hφ N z).comp
      (((hφ z).const_add acc).prodMk (measurable_fst.prodMk measurable_const))
  exact hm.lintegral_prod_right'

end Bayesmix.Chain
