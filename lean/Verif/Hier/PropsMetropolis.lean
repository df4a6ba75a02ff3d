import Verif.Hier.Metropolis
import Verif.FaultLemmas
import Mathlib.MeasureTheory.Measure.Lebesgue.Basic

/-!
# C43 and C76: Metropolis updaters
-/

namespace Bayesmix.Hierarchies

open MeasureTheory

/-- The probability, over the uniform draw on `(0, 1)`, that `draw` moves from `x` to `y` when
the normal draws are `z`. -/
noncomputable def moveProb {n : ℕ} (clusterLpdf : (Fin n → ℝ) → ℝ) (q : Proposal n)
    (g1 g2 : ℝ) (z x y : Fin n → ℝ) : ℝ :=
  (volume {u : ℝ | u ∈ Set.Ioo (0 : ℝ) 1 ∧
    metropolisDraw clusterLpdf q z u g1 g2 x = .ok y}).toReal

theorem volume_accept (a : ℝ) :
    (volume {u : ℝ | u ∈ Set.Ioo (0 : ℝ) 1 ∧ Real.log u < a}).toReal = min 1 (Real.exp a) := by
  have : {u : ℝ | u ∈ Set.Ioo (0 : ℝ) 1 ∧ Real.log u < a} = Set.Ioo 0 (min 1 (Real.exp a)) := by
    ext u
    simp only [Set.mem_setOf_eq, Set.mem_Ioo, lt_min_iff]
    constructor
    · rintro ⟨⟨h0, h1⟩, h2⟩
      exact ⟨h0, h1, (Real.log_lt_iff_lt_exp h0).1 h2⟩
    · rintro ⟨h0, h1, h2⟩
      exact ⟨⟨h0, h1⟩, (Real.log_lt_iff_lt_exp h0).2 h2⟩
  rw [this, Real.volume_Ioo, sub_zero, ENNReal.toReal_ofReal]
  exact le_min zero_le_one (Real.exp_pos a).le

theorem moveProb_eq {n : ℕ} (clusterLpdf : (Fin n → ℝ) → ℝ) (q : Proposal n)
    (g1 g2 b f : ℝ) (z x y : Fin n → ℝ) (hxy : x ≠ y) (hs : q.sample x z = .ok y)
    (hb : q.lpdf g1 x y = .ok b) (hf : q.lpdf g2 y x = .ok f) :
    moveProb clusterLpdf q g1 g2 z x y =
      min 1 (Real.exp (clusterLpdf y - clusterLpdf x + b - f)) := by
  unfold moveProb
  rw [← volume_accept]
  congr 2
  ext u
  simp only [Set.mem_setOf_eq, metropolisDraw, hs, hb, hf, ok_bind]
  constructor
  · rintro ⟨h1, h2⟩
    refine ⟨h1, ?_⟩
    by_contra hu
    rw [if_neg hu] at h2
    exact hxy (Except.ok.inj h2)
  · rintro ⟨h1, h2⟩
    exact ⟨h1, by rw [if_pos h2]⟩

theorem mh_balance (lx ly b f : ℝ) :
    Real.exp (lx + f) * min 1 (Real.exp (ly - lx + b - f)) =
      Real.exp (ly + b) * min 1 (Real.exp (lx - ly + f - b)) := by
  rcases le_total (ly + b) (lx + f) with h | h
  · rw [min_eq_right (by rw [Real.exp_le_one_iff]; linarith),
      min_eq_left (by rw [Real.one_le_exp_iff]; linarith), ← Real.exp_add, mul_one]
    congr 1
    ring
  · rw [min_eq_left (by rw [Real.one_le_exp_iff]; linarith),
      min_eq_right (by rw [Real.exp_le_one_iff]; linarith), ← Real.exp_add, mul_one]
    congr 1
    ring

/-- **C43, what holds (random walk).** With both accumulators starting at zero, detailed balance
holds between any two different states with respect to the likelihood of the cluster's data: the
flow from `x` to `y` is the flow from `y` to `x`. -/
theorem c43_random_walk_partial {n : ℕ} (clusterLpdf : (Fin n → ℝ) → ℝ) (step : ℝ)
    (hstep : 0 < step) (x y zx zy : Fin n → ℝ) (hxy : x ≠ y)
    (hx : (randomWalk n step).sample x zx = .ok y)
    (hy : (randomWalk n step).sample y zy = .ok x) :
    Real.exp (clusterLpdf x) * Real.exp (∑ i, normalLpdf (y i) (x i) step) *
        moveProb clusterLpdf (randomWalk n step) 0 0 zx x y =
      Real.exp (clusterLpdf y) * Real.exp (∑ i, normalLpdf (x i) (y i) step) *
        moveProb clusterLpdf (randomWalk n step) 0 0 zy y x := by
  have hl : ∀ a b : Fin n → ℝ, (randomWalk n step).lpdf 0 a b =
      .ok (∑ i, normalLpdf (a i) (b i) step) := by
    intro a b
    simp [randomWalk, normalLpdfs, hstep]
  rw [moveProb_eq clusterLpdf _ 0 0 _ _ zx x y hxy hx (hl x y) (hl y x),
    moveProb_eq clusterLpdf _ 0 0 _ _ zy y x hxy.symm hy (hl y x) (hl x y), ← Real.exp_add,
    ← Real.exp_add]
  exact mh_balance _ _ _ _

/-- Any state can be proposed. -/
theorem randomWalk_reaches {n : ℕ} (step : ℝ) (hstep : 0 < step) (x y : Fin n → ℝ) :
    (randomWalk n step).sample x (fun i => (y i - x i) / step) = .ok y := by
  simp only [randomWalk, normalRngs, hstep, or_true, if_true]
  show Except.ok _ = _
  congr 1
  funext i
  simp only [Pi.add_apply]
  field_simp
  ring

/-- Two states in the plane, and draws leading from one to the other and back. -/
example : ∃ zx zy : Fin 2 → ℝ, (![0, 0] : Fin 2 → ℝ) ≠ ![1, 2] ∧
    (randomWalk 2 (1 / 2)).sample ![0, 0] zx = .ok ![1, 2] ∧
    (randomWalk 2 (1 / 2)).sample ![1, 2] zy = .ok ![0, 0] :=
  ⟨_, _, fun h => zero_ne_one (congrFun h 0), randomWalk_reaches _ (by norm_num) _ _,
    randomWalk_reaches _ (by norm_num) _ _⟩

/-- **C43, what holds (MALA).** The same with respect to the likelihood for the Langevin proposal,
for every gradient. -/
theorem c43_mala_partial {n : ℕ} (clusterLpdf : (Fin n → ℝ) → ℝ)
    (grad : (Fin n → ℝ) → Fin n → ℝ) (step : ℝ) (hstep : 0 < step) (x y zx zy : Fin n → ℝ)
    (hxy : x ≠ y) (hx : (mala n grad step).sample x zx = .ok y)
    (hy : (mala n grad step).sample y zy = .ok x) :
    Real.exp (clusterLpdf x) *
        Real.exp (∑ i, normalLpdf (y i) (x i + step * grad x i) (Real.sqrt (2 * step))) *
        moveProb clusterLpdf (mala n grad step) 0 0 zx x y =
      Real.exp (clusterLpdf y) *
        Real.exp (∑ i, normalLpdf (x i) (y i + step * grad y i) (Real.sqrt (2 * step))) *
        moveProb clusterLpdf (mala n grad step) 0 0 zy y x := by
  have hs : 0 < Real.sqrt (2 * step) := Real.sqrt_pos.2 (by linarith)
  have hl : ∀ a b : Fin n → ℝ, (mala n grad step).lpdf 0 a b =
      .ok (∑ i, normalLpdf (a i) (b i + step * grad b i) (Real.sqrt (2 * step))) := by
    intro a b
    simp [mala, malaOf, normalLpdfs, hstep, ok_bind]
  rw [moveProb_eq clusterLpdf _ 0 0 _ _ zx x y hxy hx (hl x y) (hl y x),
    moveProb_eq clusterLpdf _ 0 0 _ _ zy y x hxy.symm hy (hl y x) (hl x y), ← Real.exp_add,
    ← Real.exp_add]
  exact mh_balance _ _ _ _

theorem mala_reaches {n : ℕ} (grad : (Fin n → ℝ) → Fin n → ℝ) (step : ℝ) (hstep : 0 < step)
    (x y : Fin n → ℝ) :
    (mala n grad step).sample x
      (fun i => (y i - x i - step * grad x i) / Real.sqrt (2 * step)) = .ok y := by
  have hs : 0 < Real.sqrt (2 * step) := Real.sqrt_pos.2 (by linarith)
  simp only [mala, malaOf, normalRngs, hs, or_true, if_true]
  show Except.ok _ = _
  congr 1
  funext i
  simp only [Pi.add_apply, Pi.smul_apply, smul_eq_mul]
  field_simp
  ring

example (grad : (Fin 2 → ℝ) → Fin 2 → ℝ) : ∃ zx zy : Fin 2 → ℝ,
    (![0, 0] : Fin 2 → ℝ) ≠ ![1, 2] ∧
    (mala 2 grad (1 / 2)).sample ![0, 0] zx = .ok ![1, 2] ∧
    (mala 2 grad (1 / 2)).sample ![1, 2] zy = .ok ![0, 0] :=
  ⟨_, _, fun h => zero_ne_one (congrFun h 0), mala_reaches grad _ (by norm_num) _ _,
    mala_reaches grad _ (by norm_num) _ _⟩

/-- **C43, the proposal densities.** `proposal_lpdf` is the log density of the noise that leads
from the current to the proposed state: with accumulator zero it is the sum of the logarithms of
the normal densities of the scaled draws. -/
theorem c43_proposal_density {n : ℕ} (grad : (Fin n → ℝ) → Fin n → ℝ) (step : ℝ)
    (hstep : 0 < step) (x y z : Fin n → ℝ) :
    ((randomWalk n step).sample x z = .ok y →
      (randomWalk n step).lpdf 0 y x = .ok (∑ i, normalLpdf (step * z i) 0 step)) ∧
    ((mala n grad step).sample x z = .ok y →
      (mala n grad step).lpdf 0 y x =
        .ok (∑ i, normalLpdf (Real.sqrt (2 * step) * z i) 0 (Real.sqrt (2 * step)))) := by
  have hs : 0 < Real.sqrt (2 * step) := Real.sqrt_pos.2 (by linarith)
  constructor
  · intro h
    simp only [randomWalk, normalRngs, hstep, or_true, if_true, ok_bind] at h
    have hy := Except.ok.inj h
    simp only [randomWalk, normalLpdfs, hstep, or_true, if_true, zero_add]
    congr 1
    apply Finset.sum_congr rfl
    intro i _
    rw [← hy]
    unfold normalLpdf
    simp
  · intro h
    simp only [mala, malaOf, normalRngs, hs, or_true, if_true, ok_bind] at h
    have hy := Except.ok.inj h
    simp only [mala, malaOf, normalLpdfs, hs, or_true, if_true, zero_add, ok_bind]
    congr 1
    apply Finset.sum_congr rfl
    intro i _
    rw [← hy]
    unfold normalLpdf
    simp

example : (randomWalk 1 2).lpdf 0 ![3] ![1] = .ok (∑ _i : Fin 1, normalLpdf (2 * 1) 0 2) :=
  (c43_proposal_density (fun _ _ => 0) 2 two_pos ![1] ![3] (fun _ => 1)).1 (by
    simp only [randomWalk, normalRngs, two_pos, or_true, if_true, ok_bind]
    congr 1
    funext i
    fin_cases i
    norm_num)

/-- **C43, violated.** Let `prior` be the log prior. Between two states, detailed balance with
respect to likelihood times prior holds only if the two states have the same prior density: the
acceptance ratio omits the prior. -/
theorem c43_full_conditional_violated {n : ℕ} (clusterLpdf prior : (Fin n → ℝ) → ℝ) (step : ℝ)
    (hstep : 0 < step) (x y zx zy : Fin n → ℝ) (hxy : x ≠ y)
    (hx : (randomWalk n step).sample x zx = .ok y)
    (hy : (randomWalk n step).sample y zy = .ok x) :
    (Real.exp (clusterLpdf x + prior x) * Real.exp (∑ i, normalLpdf (y i) (x i) step) *
        moveProb clusterLpdf (randomWalk n step) 0 0 zx x y =
      Real.exp (clusterLpdf y + prior y) * Real.exp (∑ i, normalLpdf (x i) (y i) step) *
        moveProb clusterLpdf (randomWalk n step) 0 0 zy y x) ↔ prior x = prior y := by
  have h := c43_random_walk_partial clusterLpdf step hstep x y zx zy hxy hx hy
  have hpos : 0 < Real.exp (clusterLpdf x) * Real.exp (∑ i, normalLpdf (y i) (x i) step) *
        moveProb clusterLpdf (randomWalk n step) 0 0 zx x y := by
    have hl : ∀ a b : Fin n → ℝ, (randomWalk n step).lpdf 0 a b =
        .ok (∑ i, normalLpdf (a i) (b i) step) := by
      intro a b
      simp [randomWalk, normalLpdfs, hstep]
    rw [moveProb_eq clusterLpdf _ 0 0 _ _ zx x y hxy hx (hl x y) (hl y x)]
    have := lt_min one_pos (Real.exp_pos (clusterLpdf y - clusterLpdf x +
      ∑ i, normalLpdf (x i) (y i) step - ∑ i, normalLpdf (y i) (x i) step))
    positivity
  rw [Real.exp_add, Real.exp_add]
  constructor
  · intro e
    have e' : Real.exp (prior x) * (Real.exp (clusterLpdf x) *
        Real.exp (∑ i, normalLpdf (y i) (x i) step) *
        moveProb clusterLpdf (randomWalk n step) 0 0 zx x y) =
        Real.exp (prior y) * (Real.exp (clusterLpdf x) *
        Real.exp (∑ i, normalLpdf (y i) (x i) step) *
        moveProb clusterLpdf (randomWalk n step) 0 0 zx x y) := by
      conv_rhs => rw [h]
      linarith
    exact Real.exp_injective (mul_right_cancel₀ hpos.ne' e')
  · intro e
    rw [e]
    linear_combination Real.exp (prior y) * h

/-- A prior that is not constant, flat likelihood: balance fails. -/
example : ∃ zx zy : Fin 1 → ℝ,
    (randomWalk 1 1).sample ![0] zx = .ok ![1] ∧ (randomWalk 1 1).sample ![1] zy = .ok ![0] ∧
    ¬ (Real.exp (0 + -0) *
      Real.exp (∑ i, normalLpdf ((![1] : Fin 1 → ℝ) i) ((![0] : Fin 1 → ℝ) i) 1) *
        moveProb (fun _ : Fin 1 → ℝ => 0) (randomWalk 1 1) 0 0 zx ![0] ![1] =
      Real.exp (0 + -1) *
      Real.exp (∑ i, normalLpdf ((![0] : Fin 1 → ℝ) i) ((![1] : Fin 1 → ℝ) i) 1) *
        moveProb (fun _ : Fin 1 → ℝ => 0) (randomWalk 1 1) 0 0 zy ![1] ![0]) := by
  have hx := randomWalk_reaches 1 one_pos (![0] : Fin 1 → ℝ) ![1]
  have hy := randomWalk_reaches 1 one_pos (![1] : Fin 1 → ℝ) ![0]
  refine ⟨_, _, hx, hy, fun e => ?_⟩
  have h := c43_full_conditional_violated (fun _ : Fin 1 → ℝ => 0) (fun v => -(v 0)) 1 one_pos
    ![0] ![1] _ _ (fun h => zero_ne_one (congrFun h 0)) hx hy
  have := h.1 e
  simp at this

/-- **C43, violated by the uninitialised accumulator.** Between any two states, every acceptance
probability in `(0, 1)` occurs for some first value of the accumulator of one call. -/
theorem c43_uninitialised_violated {n : ℕ} (clusterLpdf : (Fin n → ℝ) → ℝ) (step : ℝ)
    (hstep : 0 < step) (x y z : Fin n → ℝ) (hxy : x ≠ y)
    (hx : (randomWalk n step).sample x z = .ok y) (p : ℝ) (hp0 : 0 < p) (hp1 : p < 1) :
    ∃ g, moveProb clusterLpdf (randomWalk n step) g 0 z x y = p := by
  have hl : ∀ (g : ℝ) (a b : Fin n → ℝ), (randomWalk n step).lpdf g a b =
      .ok (g + ∑ i, normalLpdf (a i) (b i) step) := by
    intro g a b
    simp [randomWalk, normalLpdfs, hstep]
  refine ⟨Real.log p - (clusterLpdf y - clusterLpdf x + ∑ i, normalLpdf (x i) (y i) step -
    (0 + ∑ i, normalLpdf (y i) (x i) step)), ?_⟩
  rw [moveProb_eq clusterLpdf _ _ _ _ _ z x y hxy hx (hl _ x y) (hl 0 y x)]
  rw [show clusterLpdf y - clusterLpdf x + (Real.log p - (clusterLpdf y - clusterLpdf x +
    ∑ i, normalLpdf (x i) (y i) step - (0 + ∑ i, normalLpdf (y i) (x i) step)) +
    ∑ i, normalLpdf (x i) (y i) step) - (0 + ∑ i, normalLpdf (y i) (x i) step) = Real.log p by ring,
    Real.exp_log hp0, min_eq_right hp1.le]

example : ∃ g, moveProb (fun _ : Fin 1 → ℝ => 0) (randomWalk 1 1) g 0
    (fun i => ((![1] : Fin 1 → ℝ) i - (![0] : Fin 1 → ℝ) i) / 1) ![0] ![1] = 1 / 3 :=
  c43_uninitialised_violated _ 1 one_pos _ _ _
    (fun h => zero_ne_one (congrFun h 0)) (randomWalk_reaches 1 one_pos _ _) _
    (by norm_num) (by norm_num)

/-- **C76, violated.** The Langevin updater of a Laplace hierarchy cannot draw from the full
conditional, for any step size: every call throws. So does the default updater, which is a Langevin
updater. -/
theorem c76_default_laplace_updater_violated {S P : Type} (data : ℤ → ℝ) (c : Cluster S P)
    (h : NxIG) (clusterLpdf : (Fin 2 → ℝ) → ℝ) (grad : (Fin 2 → ℝ) → Fin 2 → ℝ)
    (z curr : Fin 2 → ℝ) (u g1 g2 : ℝ) :
    (∀ step, metropolisDraw clusterLpdf (lapNIGMala data c h grad step) z u g1 g2 curr =
      .error .throw) ∧
    metropolisDraw clusterLpdf (lapNIGDefaultUpdater data c h grad) z u g1 g2 curr =
      .error .throw := by
  have key : ∀ step, metropolisDraw clusterLpdf (lapNIGMala data c h grad step) z u g1 g2 curr =
      .error .throw := by
    intro step
    by_cases hs : 0 < step <;>
      simp [metropolisDraw, lapNIGMala, malaOf, normalRngs, hs, error_bind, ok_bind, stanGradient,
        targetLpdf, nxigLpdfFromUnconstrained]
  exact ⟨key, key 0⟩

example (grad : (Fin 2 → ℝ) → Fin 2 → ℝ) : metropolisDraw
    (fun x => laplaceClusterLpdf (fun i => i) (⟨2, 0, {5, 9}, (), ()⟩ : Cluster Unit Unit) (x 0)
      (x 1))
    (lapNIGMala (fun i => i) (⟨2, 0, {5, 9}, (), ()⟩ : Cluster Unit Unit) ⟨0, 1, 2, 2⟩ grad (1 / 10))
      ![1, 2] (1 / 2) 0 0 ![0, 0] = .error .throw :=
  (c76_default_laplace_updater_violated _ _ _ _ grad _ _ _ _ _).1 _

/-- **C76, what holds for a Laplace hierarchy.** With a random walk and a positive step size a draw
never fails. -/
theorem c76_laplace_random_walk_partial (clusterLpdf : (Fin 2 → ℝ) → ℝ) (step : ℝ)
    (hstep : 0 < step) (z curr : Fin 2 → ℝ) (u g1 g2 : ℝ) :
    ∃ next, metropolisDraw clusterLpdf (randomWalk 2 step) z u g1 g2 curr = .ok next ∧
      (next = curr ∨ next = curr + step • z) := by
  simp only [metropolisDraw, randomWalk, normalRngs, normalLpdfs, hstep, or_true, if_true, ok_bind]
  refine ⟨_, rfl, ?_⟩
  split_ifs
  · right; rfl
  · left; rfl

example (clusterLpdf : (Fin 2 → ℝ) → ℝ) :
    ∃ next, metropolisDraw clusterLpdf (randomWalk 2 (1 / 10)) ![1, 2] (1 / 2) 0 0 ![0, 0] =
      .ok next ∧ (next = ![0, 0] ∨ next = ![0, 0] + (1 / 10 : ℝ) • ![1, 2]) :=
  c76_laplace_random_walk_partial _ _ (by norm_num) _ _ _ _ _

/-- **C76, what holds for other hierarchies.** If the log densities of likelihood and prior never
throw, then with a positive step size a draw never fails; this is so for a normal likelihood with
a normal-inverse-Gamma prior. -/
theorem c76_positive_step_partial :
    (∀ {n : ℕ} (clusterLpdf : (Fin n → ℝ) → ℝ) (like prior : (Fin n → ℝ) → Except Fault ℝ)
      (_ : ∀ x, ∃ a, like x = .ok a) (_ : ∀ x, ∃ a, prior x = .ok a)
      (grad : (Fin n → ℝ) → Fin n → ℝ) (step : ℝ) (_ : 0 < step) (z curr : Fin n → ℝ)
      (u g1 g2 : ℝ),
      ∃ next, metropolisDraw clusterLpdf (malaOf n (stanGradient (targetLpdf like prior) grad) step)
          z u g1 g2 curr = .ok next ∧
        (next = curr ∨ next = curr + step • grad curr + Real.sqrt (2 * step) • z)) ∧
    (∀ {P : Type} (c : Cluster UniNormStats P) (h : NIG) (grad : (Fin 2 → ℝ) → Fin 2 → ℝ)
      (step : ℝ), nnigMala c h grad step = mala 2 grad step) := by
  constructor
  · intro n clusterLpdf like prior hlike hprior grad step hstep z curr u g1 g2
    have hg : stanGradient (targetLpdf like prior) grad = fun x => .ok (grad x) := by
      funext x
      obtain ⟨a, ha⟩ := hlike x
      obtain ⟨b, hb⟩ := hprior x
      simp [stanGradient, targetLpdf, ha, hb, ok_bind]
    have hs : 0 < Real.sqrt (2 * step) := Real.sqrt_pos.2 (by linarith)
    rw [hg]
    simp only [metropolisDraw, malaOf, normalRngs, normalLpdfs, hs, or_true, if_true, ok_bind]
    refine ⟨_, rfl, ?_⟩
    split_ifs
    · right; rfl
    · left; rfl
  · intro P c h grad step
    rfl

example (data : ℤ → ℝ) (grad : (Fin 2 → ℝ) → Fin 2 → ℝ) :
    ∃ next, metropolisDraw (fun x => uniNormClusterLpdf (⟨2, 0, {5, 9}, ⟨14, 106⟩, ()⟩ :
        Cluster UniNormStats Unit) (x 0) (x 1))
      (nnigMala (⟨2, 0, {5, 9}, ⟨14, 106⟩, ()⟩ : Cluster UniNormStats Unit) ⟨0, 1, 2, 2⟩ grad
        (1 / 10)) ![1, 2] (1 / 2) 0 0 ![0, 0] = .ok next ∧
      (next = ![0, 0] ∨
        next = ![0, 0] + (1 / 10 : ℝ) • grad ![0, 0] + Real.sqrt (2 * (1 / 10)) • ![1, 2]) :=
  c76_positive_step_partial.1 _ _ _ (fun _ => ⟨_, rfl⟩) (fun _ => ⟨_, rfl⟩) grad _ (by norm_num)
    _ _ _ _ _

end Bayesmix.Hierarchies
