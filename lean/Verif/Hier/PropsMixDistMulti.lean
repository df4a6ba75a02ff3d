import Mathlib.Tactic.Module
import Verif.FaultLemmas
import Verif.Hier.GaussLaw
import Verif.Hier.MixDistMulti
import Verif.Hier.PropsMixDist

/-!
# C111: distance between multivariate Gaussian mixtures, and of cluster states
-/

namespace Bayesmix.Hierarchies

open Real Matrix MeasureTheory

variable {d : ℕ}

/-! ### The product of two densities -/

section product

variable {P Q : Matrix (Fin d) (Fin d) ℝ}

theorem parallel_comm (hP : P.PosDef) (hQ : Q.PosDef) :
    Q * (P + Q)⁻¹ * P = P * (P + Q)⁻¹ * Q := by
  have hS : IsUnit (P + Q).det := (hP.add hQ).det_pos.ne'.isUnit
  have h1 : P * (P + Q)⁻¹ * (P + Q) = P := by rw [mul_assoc, nonsing_inv_mul _ hS, mul_one]
  have h2 : (P + Q) * (P + Q)⁻¹ * P = P := by rw [mul_nonsing_inv _ hS, one_mul]
  rw [mul_add] at h1
  rw [add_mul, add_mul] at h2
  have : P * (P + Q)⁻¹ * P + Q * (P + Q)⁻¹ * P = P * (P + Q)⁻¹ * P + P * (P + Q)⁻¹ * Q := by
    rw [h1, h2]
  exact add_left_cancel this

theorem parallel_inv (hP : P.PosDef) (hQ : Q.PosDef) :
    (P⁻¹ + Q⁻¹)⁻¹ = P * (P + Q)⁻¹ * Q := by
  have hS : IsUnit (P + Q).det := (hP.add hQ).det_pos.ne'.isUnit
  have h1 : IsUnit P.det := hP.det_pos.ne'.isUnit
  have h2 : IsUnit Q.det := hQ.det_pos.ne'.isUnit
  refine inv_eq_right_inv ?_
  rw [add_mul, ← parallel_comm hP hQ]
  rw [show Q⁻¹ * (Q * (P + Q)⁻¹ * P) = (P + Q)⁻¹ * P by
    rw [mul_assoc, ← mul_assoc, nonsing_inv_mul _ h2, one_mul]]
  rw [parallel_comm hP hQ, show P⁻¹ * (P * (P + Q)⁻¹ * Q) = (P + Q)⁻¹ * Q by
    rw [mul_assoc, ← mul_assoc, nonsing_inv_mul _ h1, one_mul], ← mul_add, add_comm Q P,
    nonsing_inv_mul _ hS]

theorem parallel_det (hP : P.PosDef) (hQ : Q.PosDef) :
    P.det * Q.det = ((P⁻¹ + Q⁻¹)⁻¹).det * (P + Q).det := by
  have hS : (P + Q).det ≠ 0 := (hP.add hQ).det_pos.ne'
  rw [parallel_inv hP hQ, det_mul, det_mul, det_nonsing_inv, Ring.inverse_eq_inv']
  field_simp

theorem quad_comm {A : Matrix (Fin d) (Fin d) ℝ} (hA : Aᵀ = A) (x y : Fin d → ℝ) :
    x ⬝ᵥ (A *ᵥ y) = y ⬝ᵥ (A *ᵥ x) := by
  rw [dotProduct_mulVec, ← mulVec_transpose, hA, dotProduct_comm]

/-- Completing the square. -/
theorem quad_product (hP : P.PosDef) (hQ : Q.PosDef) (x m1 m2 : Fin d → ℝ) :
    (x - m1) ⬝ᵥ (P *ᵥ (x - m1)) + (x - m2) ⬝ᵥ (Q *ᵥ (x - m2)) =
      (m1 - m2) ⬝ᵥ ((P⁻¹ + Q⁻¹)⁻¹ *ᵥ (m1 - m2)) +
      (x - (P + Q)⁻¹ *ᵥ (P *ᵥ m1 + Q *ᵥ m2)) ⬝ᵥ
        ((P + Q) *ᵥ (x - (P + Q)⁻¹ *ᵥ (P *ᵥ m1 + Q *ᵥ m2))) := by
  have hS : IsUnit (P + Q).det := (hP.add hQ).det_pos.ne'.isUnit
  have tP : Pᵀ = P := by simpa using hP.isHermitian.eq
  have tQ : Qᵀ = Q := by simpa using hQ.isHermitian.eq
  obtain ⟨W, hW⟩ : ∃ W, W = P * (P + Q)⁻¹ * Q := ⟨_, rfl⟩
  have hW' : Q * (P + Q)⁻¹ * P = W := by rw [hW, parallel_comm hP hQ]
  obtain ⟨p, hp⟩ : ∃ p, p = ((P + Q)⁻¹ * Q) *ᵥ (m1 - m2) := ⟨_, rfl⟩
  obtain ⟨q, hq⟩ : ∃ q, q = ((P + Q)⁻¹ * P) *ᵥ (m1 - m2) := ⟨_, rfl⟩
  obtain ⟨z, hz⟩ : ∃ z, z = x - (P + Q)⁻¹ *ᵥ (P *ᵥ m1 + Q *ᵥ m2) := ⟨_, rfl⟩
  have hpq : p + q = m1 - m2 := by
    rw [hp, hq, ← add_mulVec, ← mul_add, add_comm Q P, nonsing_inv_mul _ hS, one_mulVec]
  have hid : ∀ m : Fin d → ℝ, (P + Q)⁻¹ *ᵥ (P *ᵥ m) + (P + Q)⁻¹ *ᵥ (Q *ᵥ m) = m := by
    intro m
    rw [← mulVec_add, ← add_mulVec, mulVec_mulVec, nonsing_inv_mul _ hS, one_mulVec]
  have h1 : x - m1 = z - p := by
    rw [hz, hp, ← mulVec_mulVec, mulVec_sub, mulVec_sub, mulVec_add]
    nth_rewrite 1 [← hid m1]
    abel
  have h2 : x - m2 = z + q := by
    rw [hz, hq, ← mulVec_mulVec, mulVec_sub, mulVec_sub, mulVec_add]
    nth_rewrite 1 [← hid m2]
    abel
  have hPp : P *ᵥ p = W *ᵥ (m1 - m2) := by rw [hp, mulVec_mulVec, ← mul_assoc, hW]
  have hQq : Q *ᵥ q = W *ᵥ (m1 - m2) := by rw [hq, mulVec_mulVec, ← mul_assoc, hW']
  rw [parallel_inv hP hQ, ← hW, ← hz, h1, h2, mulVec_sub, mulVec_add, hPp, hQq, add_mulVec]
  simp only [sub_dotProduct, add_dotProduct, dotProduct_sub, dotProduct_add]
  have e1 : p ⬝ᵥ (P *ᵥ z) = z ⬝ᵥ (W *ᵥ (m1 - m2)) := by rw [quad_comm tP, hPp]
  have e2 : q ⬝ᵥ (Q *ᵥ z) = z ⬝ᵥ (W *ᵥ (m1 - m2)) := by rw [quad_comm tQ, hQq]
  have e3 : p ⬝ᵥ (W *ᵥ (m1 - m2)) + q ⬝ᵥ (W *ᵥ (m1 - m2)) =
      m1 ⬝ᵥ (W *ᵥ (m1 - m2)) - m2 ⬝ᵥ (W *ᵥ (m1 - m2)) := by
    rw [← add_dotProduct, hpq, sub_dotProduct]
  rw [e1, e2]
  linarith

theorem multiNormal_product (hP : P.PosDef) (hQ : Q.PosDef) (x m1 m2 : Fin d → ℝ) :
    stanMultiNormalPrecLpdf x m1 P + stanMultiNormalPrecLpdf x m2 Q =
      stanMultiNormalPrecLpdf m1 m2 (P⁻¹ + Q⁻¹)⁻¹ +
        stanMultiNormalPrecLpdf x ((P + Q)⁻¹ *ᵥ (P *ᵥ m1 + Q *ᵥ m2)) (P + Q) := by
  have h1 := congrArg log (parallel_det hP hQ)
  rw [log_mul hP.det_pos.ne' hQ.det_pos.ne',
    log_mul (hP.inv.add hQ.inv).inv.det_pos.ne' (hP.add hQ).det_pos.ne'] at h1
  have h2 := quad_product hP hQ x m1 m2
  unfold stanMultiNormalPrecLpdf
  linarith

theorem integral_multiNormal (mu : Fin d → ℝ) (hP : P.PosDef) :
    Integrable (fun x => exp (stanMultiNormalPrecLpdf x mu P)) ∧
      ∫ x, exp (stanMultiNormalPrecLpdf x mu P) = 1 := by
  have hm : Measurable fun x => exp (stanMultiNormalPrecLpdf x mu P) :=
    Real.measurable_exp.comp (measurable_stanMultiNormalPrecLpdf mu P)
  have h := lintegral_multiNormal mu hP
  refine ⟨⟨hm.aestronglyMeasurable, ?_⟩, ?_⟩
  · rw [hasFiniteIntegral_iff_ofReal (Filter.Eventually.of_forall fun x => (exp_pos _).le), h]
    exact ENNReal.one_lt_top
  · rw [integral_eq_lintegral_of_nonneg_ae (Filter.Eventually.of_forall fun x => (exp_pos _).le)
      hm.aestronglyMeasurable, h, ENNReal.toReal_one]

theorem integral_multi_product (hP : P.PosDef) (hQ : Q.PosDef) (m1 m2 : Fin d → ℝ) :
    Integrable (fun x => exp (stanMultiNormalPrecLpdf x m1 P) * exp (stanMultiNormalPrecLpdf x m2 Q)) ∧
      ∫ x, exp (stanMultiNormalPrecLpdf x m1 P) * exp (stanMultiNormalPrecLpdf x m2 Q) =
        exp (stanMultiNormalPrecLpdf m1 m2 (P⁻¹ + Q⁻¹)⁻¹) := by
  simp only [← exp_add, multiNormal_product hP hQ]
  simp only [exp_add]
  obtain ⟨i1, i2⟩ := integral_multiNormal ((P + Q)⁻¹ *ᵥ (P *ᵥ m1 + Q *ᵥ m2)) (hP.add hQ)
  exact ⟨i1.const_mul _, by rw [integral_const_mul, i2, mul_one]⟩

end product

/-! ### Mixtures -/

/-- A multivariate Gaussian mixture with `n` components, given by means and precision matrices. -/
structure MultiMixture (d n : ℕ) where
  means : Fin n → Fin d → ℝ
  precs : Fin n → Matrix (Fin d) (Fin d) ℝ
  weights : Fin n → ℝ

namespace MultiMixture

variable {n m : ℕ}

/-- Density of a mixture. -/
noncomputable def density (a : MultiMixture d n) (x : Fin d → ℝ) : ℝ :=
  ∑ i, a.weights i * exp (stanMultiNormalPrecLpdf x (a.means i) (a.precs i))

/-- The states of the clusters. -/
def states (a : MultiMixture d n) : List (ClusterState d) :=
  List.ofFn fun i => .multiLs (a.means i) (a.precs i)

end MultiMixture

open MultiMixture

variable {n m : ℕ}

theorem integral_multiMix (a : MultiMixture d n) (b : MultiMixture d m) (ha : ∀ i, (a.precs i).PosDef)
    (hb : ∀ j, (b.precs j).PosDef) :
    Integrable (fun x => a.density x * b.density x) ∧
    ∫ x, a.density x * b.density x = ∑ i, ∑ j, a.weights i * b.weights j *
      exp (stanMultiNormalPrecLpdf (a.means i) (b.means j) ((a.precs i)⁻¹ + (b.precs j)⁻¹)⁻¹) := by
  have e : (fun x => a.density x * b.density x) = fun x => ∑ i, ∑ j,
      a.weights i * b.weights j * (exp (stanMultiNormalPrecLpdf x (a.means i) (a.precs i)) *
        exp (stanMultiNormalPrecLpdf x (b.means j) (b.precs j))) := by
    funext x
    unfold MultiMixture.density
    rw [Finset.sum_mul_sum]
    exact Finset.sum_congr rfl (fun i _ => Finset.sum_congr rfl (fun j _ => by ring))
  have hi : ∀ i j, Integrable (fun x => a.weights i * b.weights j *
      (exp (stanMultiNormalPrecLpdf x (a.means i) (a.precs i)) *
        exp (stanMultiNormalPrecLpdf x (b.means j) (b.precs j)))) := fun i j =>
    (integral_multi_product (ha i) (hb j) _ _).1.const_mul _
  rw [e]
  refine ⟨integrable_finsetSum _ (fun i _ => integrable_finsetSum _ (fun j _ => hi i j)), ?_⟩
  rw [integral_finsetSum _ (fun i _ => integrable_finsetSum _ (fun j _ => hi i j))]
  refine Finset.sum_congr rfl fun i _ => ?_
  rw [integral_finsetSum _ (fun j _ => hi i j)]
  refine Finset.sum_congr rfl fun j _ => ?_
  rw [integral_const_mul, (integral_multi_product (ha i) (hb j) _ _).2]

theorem multiMix_distance (a : MultiMixture d n) (b : MultiMixture d m)
    (ha : ∀ i, (a.precs i).PosDef) (hb : ∀ j, (b.precs j).PosDef) :
    Integrable (fun x => (a.density x - b.density x) ^ 2) ∧
    ∫ x, (a.density x - b.density x) ^ 2 =
      (∫ x, a.density x * a.density x) + (∫ x, b.density x * b.density x) -
        2 * ∫ x, a.density x * b.density x := by
  obtain ⟨i1, -⟩ := integral_multiMix a a ha ha
  obtain ⟨i2, -⟩ := integral_multiMix b b hb hb
  obtain ⟨i3, -⟩ := integral_multiMix a b ha hb
  have i4 : Integrable (fun x => a.density x * a.density x + b.density x * b.density x) := i1.add i2
  have e : (fun x => (a.density x - b.density x) ^ 2) = fun x =>
      a.density x * a.density x + b.density x * b.density x - 2 * (a.density x * b.density x) := by
    funext x
    ring
  rw [e]
  exact ⟨i4.sub (i3.const_mul 2), by
    rw [integral_sub i4 (i3.const_mul 2), integral_add i1 i2, integral_const_mul]⟩

/-! ### The loops -/

theorem foldlM_fin_sum {n : ℕ} {f : ℝ → ℕ → Except Fault ℝ} {g : Fin n → ℝ}
    (h : ∀ (i : Fin n) acc, f acc i.val = .ok (acc + g i)) (acc : ℝ) :
    (List.range n).foldlM f acc = .ok (acc + ∑ i, g i) := by
  induction n with
  | zero => simp [pure, Except.pure]
  | succ n ih =>
    rw [List.range_succ, List.foldlM_append, ih (g := fun i => g i.castSucc) (fun i acc => h i.castSucc acc),
      ok_bind, List.foldlM_cons]
    have := h (Fin.last n) (acc + ∑ i : Fin n, g i.castSucc)
    rw [Fin.val_last] at this
    rw [this, ok_bind, Fin.sum_univ_castSucc, add_assoc]
    rfl

theorem vget_ofFn {α : Type} {n : ℕ} (f : Fin n → α) (i : Fin n) :
    vget (List.ofFn f) i.val = .ok (f i) := by
  simp [vget, List.getElem?_ofFn]

theorem mapM_ofFn_ok {α β : Type} {n : ℕ} {f : Fin n → α} {g : α → Except Fault β} {r : Fin n → β}
    (h : ∀ i, g (f i) = .ok (r i)) : (List.ofFn f).mapM g = .ok (List.ofFn r) := by
  induction n with
  | zero => simp [pure, Except.pure]
  | succ n ih =>
    rw [List.ofFn_succ, List.ofFn_succ, List.mapM_cons, h 0, ok_bind, ih fun i => h i.succ, ok_bind]
    rfl

theorem multiCross_ok (a : MultiMixture d n) (b : MultiMixture d m) (ha : ∀ i, (a.precs i).PosDef)
    (hb : ∀ j, (b.precs j).PosDef) :
    multiCross (List.ofFn a.means) (List.ofFn fun i => (a.precs i)⁻¹) (List.ofFn a.weights)
      (List.ofFn b.means) (List.ofFn fun j => (b.precs j)⁻¹) (List.ofFn b.weights) =
      .ok (∫ x, a.density x * b.density x) := by
  rw [(integral_multiMix a b ha hb).2]
  unfold multiCross
  rw [List.length_ofFn, List.length_ofFn, foldlM_fin_sum (g := fun i => ∑ j, a.weights i *
    b.weights j * exp (stanMultiNormalPrecLpdf (a.means i) (b.means j)
      ((a.precs i)⁻¹ + (b.precs j)⁻¹)⁻¹)), zero_add]
  intro i acc
  refine foldlM_fin_sum (fun j acc => ?_) acc
  have hp : ((a.precs i)⁻¹ + (b.precs j)⁻¹).PosDef := (ha i).inv.add (hb j).inv
  rw [vget_ofFn, vget_ofFn, vget_ofFn, vget_ofFn, vget_ofFn, vget_ofFn]
  simp only [ok_bind, stanMultiNormalLpdf, if_pos hp, stanMultiNormalPrecLpdf]
  rw [det_nonsing_inv, Ring.inverse_eq_inv', log_inv]
  congr 5
  ring

/-- **C111.** For mixtures of multivariate normal distributions, given by cluster states with positive
definite precision matrices, `gaussian_mixture_dist` returns the integral of the squared difference of
the two densities. -/
theorem c111_distance (a : MultiMixture d (n + 1)) (b : MultiMixture d m)
    (ha : ∀ i, (a.precs i).PosDef) (hb : ∀ j, (b.precs j).PosDef) :
    gaussianMixtureDistStates a.states (List.ofFn a.weights) b.states (List.ofFn b.weights) =
      .ok (∫ x, (a.density x - b.density x) ^ 2) := by
  have h0 : vget a.states 0 = .ok (.multiLs (a.means 0) (a.precs 0)) :=
    vget_ofFn (fun i => ClusterState.multiLs (a.means i) (a.precs i)) 0
  have s1 : a.states.mapM ClusterState.multiLsState =
      .ok (List.ofFn fun i => (a.means i, a.precs i)) := mapM_ofFn_ok fun _ => rfl
  have s2 : b.states.mapM ClusterState.multiLsState =
      .ok (List.ofFn fun i => (b.means i, b.precs i)) := mapM_ofFn_ok fun _ => rfl
  have v1 : (List.ofFn a.precs).mapM inverseSpd = .ok (List.ofFn fun i => (a.precs i)⁻¹) :=
    mapM_ofFn_ok fun i => if_pos (ha i)
  have v2 : (List.ofFn b.precs).mapM inverseSpd = .ok (List.ofFn fun i => (b.precs i)⁻¹) :=
    mapM_ofFn_ok fun i => if_pos (hb i)
  unfold gaussianMixtureDistStates
  simp only [h0, ok_bind, s1, s2, gaussianMixtureDistMulti, List.map_ofFn, Function.comp_def]
  rw [v1, ok_bind, v2, ok_bind, multiCross_ok a a ha ha, ok_bind, multiCross_ok b b hb hb, ok_bind,
    multiCross_ok a b ha hb, ok_bind, (multiMix_distance a b ha hb).2]

theorem continuous_density (a : MultiMixture d n) : Continuous a.density := by
  unfold MultiMixture.density stanMultiNormalPrecLpdf
  have h1 : ∀ i, Continuous fun x : Fin d → ℝ => x - a.means i := fun i => by fun_prop
  refine continuous_finsetSum _ fun i _ => continuous_const.mul (Real.continuous_exp.comp
    (continuous_const.sub (continuous_const.mul ?_)))
  exact (h1 i).dotProduct ((continuous_const.matrix_mulVec (h1 i)))

/-- **C111, what the value means.** It is nonnegative, does not depend on the order of the mixtures, and
is zero only if the two densities are equal at every point. -/
theorem c111_metric (a : MultiMixture d (n + 1)) (b : MultiMixture d (m + 1))
    (ha : ∀ i, (a.precs i).PosDef) (hb : ∀ j, (b.precs j).PosDef) :
    ∃ v : ℝ,
      gaussianMixtureDistStates a.states (List.ofFn a.weights) b.states (List.ofFn b.weights) = .ok v ∧
      gaussianMixtureDistStates b.states (List.ofFn b.weights) a.states (List.ofFn a.weights) = .ok v ∧
      0 ≤ v ∧ (v = 0 ↔ ∀ x, a.density x = b.density x) := by
  refine ⟨_, c111_distance a b ha hb, ?_, integral_nonneg fun x => sq_nonneg _, ?_⟩
  · rw [c111_distance b a hb ha]
    congr 2
    funext x
    ring
  · rw [integral_eq_zero_iff_of_nonneg (fun x => sq_nonneg _) (multiMix_distance a b ha hb).1]
    have hc : Continuous fun x => (a.density x - b.density x) ^ 2 :=
      ((continuous_density a).sub (continuous_density b)).pow 2
    rw [Continuous.ae_eq_iff_eq volume hc continuous_zero]
    constructor
    · intro h x
      have := congrFun h x
      simpa [sub_eq_zero] using this
    · intro h
      funext x
      simp [h x]

/-- Two components against one in the plane. -/
example : ∃ v : ℝ, 0 < v ∧ gaussianMixtureDistStates (d := 2)
    [.multiLs 0 1, .multiLs 0 ((2 : ℝ) • 1)] [1 / 2, 1 / 2] [.multiLs 0 1] [1] = .ok v := by
  obtain ⟨v, e, -, h0, h1⟩ := c111_metric (d := 2) (n := 1) (m := 0)
    ⟨fun _ => 0, ![1, (2 : ℝ) • 1], ![1 / 2, 1 / 2]⟩ ⟨fun _ => 0, fun _ => 1, fun _ => 1⟩
    (fun i => by
      fin_cases i
      · exact PosDef.one
      · exact PosDef.one.smul (by norm_num)) (fun _ => PosDef.one)
  refine ⟨v, lt_of_le_of_ne h0 fun hv => ?_, ?_⟩
  · have := h1.1 hv.symm 0
    simp [MultiMixture.density, stanMultiNormalPrecLpdf, exp_add] at this
    rw [exp_log two_pos] at this
    linarith [exp_pos (-log (2 * π))]
  · rw [← e]
    simp [MultiMixture.states, List.ofFn_succ]

/-! ### What is rejected -/

theorem foldlM_ok_step {f : ℝ → ℕ → Except Fault ℝ} {n : ℕ} {acc r : ℝ}
    (h : (List.range n).foldlM f acc = .ok r) {i : ℕ} (hi : i < n) : ∃ x y, f x i = .ok y := by
  induction n generalizing r with
  | zero => omega
  | succ n ih =>
    rw [List.range_succ, List.foldlM_append] at h
    cases e : (List.range n).foldlM f acc with
    | error er => rw [e] at h; cases h
    | ok t =>
      rw [e, ok_bind, List.foldlM_cons] at h
      by_cases hin : i < n
      · exact ih e hin
      · obtain rfl : i = n := by omega
        cases e' : f t i with
        | error er => rw [e'] at h; cases h
        | ok y => exact ⟨t, y, e'⟩

theorem vget_lt {α : Type} {l : List α} {i : ℕ} {x : α} (h : vget l i = .ok x) : i < l.length := by
  by_contra hi
  rw [vget, List.getElem?_eq_none (by omega)] at h
  cases h

theorem uniCross_valid {c : List (ℝ × ℝ)} {w : List ℝ} {r : ℝ} (h : uniCross c w c w = .ok r) :
    (∀ s ∈ c, 0 < s.2) ∧ c.length ≤ w.length := by
  have key : ∀ i (hi : i < c.length), 0 < c[i].2 ∧ i < w.length := by
    intro i hi
    obtain ⟨x, y, e⟩ := foldlM_ok_step h hi
    obtain ⟨x, y, e⟩ := foldlM_ok_step e hi
    rw [show vget c i = .ok c[i] by simp [vget, hi]] at e
    simp only [ok_bind] at e
    cases ew : vget w i with
    | error er => rw [ew] at e; cases e
    | ok wi =>
      rw [ew] at e
      simp only [ok_bind] at e
      split at e
      · rename_i hp
        exact ⟨by linarith, vget_lt ew⟩
      · cases e
  refine ⟨fun s hs => ?_, ?_⟩
  · obtain ⟨i, hi, rfl⟩ := List.getElem_of_mem hs
    exact (key i hi).1
  · by_contra hl
    push Not at hl
    exact lt_irrefl _ (key w.length hl).2

theorem multiCross_valid {c : List (Fin d → ℝ)} {v : List (Matrix (Fin d) (Fin d) ℝ)} {w : List ℝ}
    {r : ℝ} (h : multiCross c v w c v w = .ok r) : c.length ≤ w.length := by
  by_contra hl
  push Not at hl
  obtain ⟨x, y, e⟩ := foldlM_ok_step h hl
  obtain ⟨x, y, e⟩ := foldlM_ok_step e hl
  have hw : vget w w.length = .error .ub := by simp [vget]
  simp only [hw] at e
  cases e1 : vget v w.length with
  | error er => rw [e1] at e; cases e
  | ok a => rw [e1] at e; cases e

theorem mapM_ok_forall {α β : Type} {f : α → Except Fault β} {l : List α} {r : List β}
    (h : l.mapM f = .ok r) : r.length = l.length ∧ ∀ x ∈ l, ∃ y ∈ r, f x = .ok y := by
  induction l generalizing r with
  | nil => simp_all [pure, Except.pure]
  | cons x l ih =>
    rw [List.mapM_cons] at h
    cases e : f x with
    | error er => rw [e] at h; cases h
    | ok y =>
      rw [e, ok_bind] at h
      cases e' : l.mapM f with
      | error er => rw [e'] at h; cases h
      | ok t =>
        rw [e', ok_bind] at h
        obtain rfl : y :: t = r := Except.ok.inj h
        obtain ⟨h1, h2⟩ := ih e'
        refine ⟨by simp [h1], fun z hz => ?_⟩
        rcases List.mem_cons.mp hz with rfl | hz
        · exact ⟨y, by simp, e⟩
        · obtain ⟨u, hu, eu⟩ := h2 z hz
          exact ⟨u, by simp [hu], eu⟩

/-- **C111, what is accepted.** If a distance is returned, the first mixture has a component, there is
a weight for each component of both, and all states are of the same type, univariate with positive
variances or multivariate with positive definite precision matrices. -/
theorem c111_accepted {c1 c2 : List (ClusterState d)} {w1 w2 : List ℝ} {v : ℝ}
    (h : gaussianMixtureDistStates c1 w1 c2 w2 = .ok v) :
    c1 ≠ [] ∧ c1.length ≤ w1.length ∧ c2.length ≤ w2.length ∧
    ((∀ s ∈ c1 ++ c2, ∃ m v, s = .uniLs m v ∧ 0 < v) ∨
      ∀ s ∈ c1 ++ c2, ∃ m P, s = .multiLs m P ∧ P.PosDef) := by
  cases c1 with
  | nil => cases h
  | cons s0 c1 =>
    refine ⟨by simp, ?_⟩
    unfold gaussianMixtureDistStates at h
    rw [show vget (s0 :: c1) 0 = .ok s0 from rfl, ok_bind] at h
    cases s0 with
    | other => cases h
    | uniLs m0 v0 =>
      dsimp only at h
      obtain ⟨l1, hl1⟩ : ∃ l, l = ClusterState.uniLs m0 v0 :: c1 := ⟨_, rfl⟩
      rw [← hl1] at h ⊢
      cases e1 : uniCross (l1.map ClusterState.uniLsState) w1 (l1.map ClusterState.uniLsState) w1 with
      | error er => rw [e1] at h; cases h
      | ok a =>
        cases e2 : uniCross (c2.map ClusterState.uniLsState) w2 (c2.map ClusterState.uniLsState) w2 with
        | error er => rw [e1, e2] at h; cases h
        | ok b =>
          obtain ⟨p1, n1⟩ := uniCross_valid e1
          obtain ⟨p2, n2⟩ := uniCross_valid e2
          rw [List.length_map] at n1 n2
          refine ⟨n1, n2, Or.inl fun s hs => ?_⟩
          have hp : 0 < s.uniLsState.2 := by
            rcases List.mem_append.mp hs with hs | hs
            · exact p1 _ (List.mem_map_of_mem hs)
            · exact p2 _ (List.mem_map_of_mem hs)
          cases s with
          | uniLs m v => exact ⟨m, v, rfl, hp⟩
          | multiLs m P => exact absurd hp (lt_irrefl _)
          | other => exact absurd hp (lt_irrefl _)
    | multiLs m0 P0 =>
      dsimp only at h
      obtain ⟨l1, hl1⟩ : ∃ l, l = ClusterState.multiLs m0 P0 :: c1 := ⟨_, rfl⟩
      rw [← hl1] at h ⊢
      cases e1 : l1.mapM ClusterState.multiLsState with
      | error er => rw [e1] at h; cases h
      | ok s1 =>
      cases e2 : c2.mapM ClusterState.multiLsState with
      | error er => rw [e1, e2] at h; cases h
      | ok s2 =>
      rw [e1, e2, ok_bind, ok_bind, gaussianMixtureDistMulti] at h
      cases e3 : (s1.map Prod.snd).mapM inverseSpd with
      | error er => rw [e3] at h; cases h
      | ok v1 =>
      cases e4 : (s2.map Prod.snd).mapM inverseSpd with
      | error er => rw [e3, e4] at h; cases h
      | ok v2 =>
      rw [e3, e4, ok_bind, ok_bind] at h
      cases e5 : multiCross (s1.map Prod.fst) v1 w1 (s1.map Prod.fst) v1 w1 with
      | error er => rw [e5] at h; cases h
      | ok a =>
      cases e6 : multiCross (s2.map Prod.fst) v2 w2 (s2.map Prod.fst) v2 w2 with
      | error er => rw [e5, e6] at h; cases h
      | ok b =>
      have n1 := multiCross_valid e5
      have n2 := multiCross_valid e6
      obtain ⟨k1, f1⟩ := mapM_ok_forall e1
      obtain ⟨k2, f2⟩ := mapM_ok_forall e2
      obtain ⟨-, g1⟩ := mapM_ok_forall e3
      obtain ⟨-, g2⟩ := mapM_ok_forall e4
      rw [List.length_map, k1] at n1
      rw [List.length_map, k2] at n2
      refine ⟨n1, n2, Or.inr fun s hs => ?_⟩
      have key : ∃ y, s.multiLsState = .ok y ∧ ∃ u, inverseSpd y.2 = .ok u := by
        rcases List.mem_append.mp hs with hs | hs
        · obtain ⟨y, hy, e⟩ := f1 s hs
          obtain ⟨u, -, eu⟩ := g1 y.2 (List.mem_map_of_mem hy)
          exact ⟨y, e, u, eu⟩
        · obtain ⟨y, hy, e⟩ := f2 s hs
          obtain ⟨u, -, eu⟩ := g2 y.2 (List.mem_map_of_mem hy)
          exact ⟨y, e, u, eu⟩
      obtain ⟨y, ey, u, eu⟩ := key
      cases s with
      | uniLs m v => cases ey
      | other => cases ey
      | multiLs m P =>
        obtain rfl : (m, P) = y := Except.ok.inj ey
        refine ⟨m, P, rfl, ?_⟩
        unfold inverseSpd at eu
        split at eu
        · assumption
        · cases eu

/-- An empty first mixture is undefined behaviour: its first state is read. -/
theorem c111_empty_violated (w1 : List ℝ) (c2 : List (ClusterState d)) (w2 : List ℝ) :
    gaussianMixtureDistStates [] w1 c2 w2 = .error .ub := rfl

/-- For univariate states the value is that of C80. -/
theorem c111_univariate {k l : ℕ} (a : Mixture (k + 1)) (b : Mixture l) (ha : ∀ i, 0 < a.vars i)
    (hb : ∀ j, 0 < b.vars j) :
    gaussianMixtureDistStates (d := d) (List.ofFn fun i => .uniLs (a.means i) (a.vars i))
      (List.ofFn a.weights) (List.ofFn fun j => .uniLs (b.means j) (b.vars j)) (List.ofFn b.weights) =
      .ok (gaussianMixtureDist a b) := by
  have key : ∀ {k l : ℕ} (a : Mixture k) (b : Mixture l), (∀ i, 0 < a.vars i) → (∀ j, 0 < b.vars j) →
      uniCross (List.ofFn fun i => (a.means i, a.vars i)) (List.ofFn a.weights)
        (List.ofFn fun i => (b.means i, b.vars i)) (List.ofFn b.weights) = .ok (mixCross a b) := by
    intro k l a b ha hb
    unfold uniCross mixCross
    rw [List.length_ofFn, List.length_ofFn, foldlM_fin_sum (g := fun i => ∑ j, a.weights i *
      b.weights j * exp (normalLpdf (a.means i) (b.means j) (a.vars i + b.vars j))), zero_add]
    intro i acc
    refine foldlM_fin_sum (fun j acc => ?_) acc
    rw [vget_ofFn, vget_ofFn, vget_ofFn, vget_ofFn]
    simp only [ok_bind]
    rw [if_pos (add_pos (ha i) (hb j))]
  have h0 : vget (List.ofFn fun i => (.uniLs (a.means i) (a.vars i) : ClusterState d)) 0 =
      .ok (.uniLs (a.means 0) (a.vars 0)) :=
    vget_ofFn (fun i => (.uniLs (a.means i) (a.vars i) : ClusterState d)) 0
  unfold gaussianMixtureDistStates
  simp only [h0, ok_bind, List.map_ofFn, Function.comp_def, ClusterState.uniLsState]
  rw [key a a ha ha, ok_bind, key b b hb hb, ok_bind, key a b ha hb, ok_bind, gaussianMixtureDist]

end Bayesmix.Hierarchies
