import Mathlib.Analysis.SpecificLimits.Basic
import Mathlib.Topology.Algebra.Order.LiminfLimsup
import Verif.Algo.FinChain

/-!
# A positive stochastic matrix has an invariant probability
-/

namespace Bayesmix.Chain
open Filter Topology

variable {X : Type} [Fintype X] [DecidableEq X]

/-- Powers change less and less. -/
theorem pow_step {P : Matrix X X ℝ} (hP : Stochastic P) {q : X → ℝ} (hq : ∀ x y, q y ≤ P x y)
    (x y : X) (k : ℕ) : |(P ^ k) x y - (P ^ (k + 1)) x y| ≤ 1 * (1 - ∑ z, q z) ^ k := by
  classical
  have hc := fun x x' => contract_pow hP hq (fun z => if z = y then 1 else 0) (C := 1)
    (fun a b => by split <;> split <;> norm_num) k x x'
  simp only [mul_ite, mul_one, mul_zero, Finset.sum_ite_eq', Finset.mem_univ, if_true] at hc
  have e : (P ^ k) x y - (P ^ (k + 1)) x y = ∑ z, P x z * ((P ^ k) x y - (P ^ k) z y) := by
    simp only [mul_sub]
    rw [Finset.sum_sub_distrib, ← Finset.sum_mul, hP.sum_one, one_mul, pow_succ', Matrix.mul_apply]
  have e2 : (1 - ∑ z, q z) ^ k = ∑ z, P x z * (1 - ∑ z, q z) ^ k := by
    rw [← Finset.sum_mul, hP.sum_one, one_mul]
  rw [one_mul, e, e2]
  refine (Finset.abs_sum_le_sum_abs _ _).trans (Finset.sum_le_sum fun z _ => ?_)
  rw [abs_mul, abs_of_nonneg (hP.nonneg x z)]
  refine mul_le_mul_of_nonneg_left (abs_le.mpr ⟨?_, hc x z⟩) (hP.nonneg x z)
  linarith [hc z x]

theorem exists_invariant [Nonempty X] {P : Matrix X X ℝ} (hP : Stochastic P)
    (hpos : ∀ x y, 0 < P x y) :
    ∃ w : X → ℝ, (∀ x, 0 ≤ w x) ∧ ∑ x, w x = 1 ∧ Invariant w P := by
  obtain ⟨q, hq, q0, q1⟩ := lower_bound hP hpos
  obtain ⟨x⟩ := ‹Nonempty X›
  have hr : 1 - ∑ z, q z < 1 := by linarith
  have hlim : ∀ y, ∃ l, Tendsto (fun k => (P ^ k) x y) atTop (𝓝 l) := fun y =>
    cauchySeq_tendsto_of_complete (cauchySeq_of_le_geometric (1 - ∑ z, q z) 1 hr fun k => by
      rw [Real.dist_eq]
      exact pow_step hP hq x y k)
  choose w hw using hlim
  refine ⟨w, fun y => ge_of_tendsto' (hw y) fun k => (hP.pow k).nonneg x y, ?_, fun y => ?_⟩
  · have h1 : Tendsto (fun k => ∑ y, (P ^ k) x y) atTop (𝓝 (∑ y, w y)) :=
      tendsto_finsetSum _ fun y _ => hw y
    simp only [(hP.pow _).sum_one] at h1
    exact tendsto_nhds_unique h1 tendsto_const_nhds
  · have h1 : Tendsto (fun k => ∑ z, (P ^ k) x z * P z y) atTop (𝓝 (∑ z, w z * P z y)) :=
      tendsto_finsetSum _ fun z _ => (hw z).mul_const _
    have e : (fun k => ∑ z, (P ^ k) x z * P z y) = fun k => (P ^ (k + 1)) x y := by
      funext k
      rw [pow_succ, Matrix.mul_apply]
    rw [e] at h1
    exact tendsto_nhds_unique h1 ((hw y).comp (tendsto_add_atTop_nat 1))

end Bayesmix.Chain
