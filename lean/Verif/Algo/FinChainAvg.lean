import Verif.Algo.FinChain

/-!
# Averages along a finite Markov chain
-/

namespace Bayesmix.Chain
open Bayesmix Cond Slice

variable {X : Type} [Fintype X] [DecidableEq X]

/-- Expected value of `φ` at `a` plus the sum of `c j * g` along the next `k` states, for weights
`c` of the iterations, when the chain is in `x` before iteration `i`. -/
def sumLaw (P : Matrix X X ℝ) (c : ℕ → ℝ) (g : X → ℝ) (φ : ℝ → ℝ) : ℕ → ℕ → ℝ → X → ℝ
  | 0, _, a, _ => φ a
  | k + 1, i, a, x => ∑ y, P x y * sumLaw P c g φ k (i + 1) (a + c i * g y) y

/-- Expected sum. -/
def sumMean (P : Matrix X X ℝ) (c : ℕ → ℝ) (g : X → ℝ) (k i : ℕ) (x : X) : ℝ :=
  ∑ m ∈ Finset.range k, c (i + m) * ∑ y, (P ^ (m + 1)) x y * g y

theorem sumMean_succ (P : Matrix X X ℝ) (c : ℕ → ℝ) (g : X → ℝ) (k i : ℕ) (x : X) :
    sumMean P c g (k + 1) i x = ∑ y, P x y * (c i * g y + sumMean P c g k (i + 1) y) := by
  have e : ∀ m, ∑ z, (P ^ (m + 2)) x z * g z = ∑ y, P x y * ∑ z, (P ^ (m + 1)) y z * g z := by
    intro m
    rw [pow_succ' P (m + 1)]
    simp only [Matrix.mul_apply, Finset.sum_mul, Finset.mul_sum]
    rw [Finset.sum_comm]
    exact Finset.sum_congr rfl fun z _ => Finset.sum_congr rfl fun y _ => by ring
  unfold sumMean
  rw [Finset.sum_range_succ']
  simp only [mul_add, Finset.sum_add_distrib]
  rw [add_comm]
  congr 1
  · simp only [add_zero, zero_add, pow_one, Finset.mul_sum]
    exact Finset.sum_congr rfl fun y _ => by ring
  · have e2 : ∀ y, P x y * ∑ m ∈ Finset.range k, c (i + 1 + m) * ∑ z, (P ^ (m + 1)) y z * g z =
        ∑ m ∈ Finset.range k, c (i + 1 + m) * (P x y * ∑ z, (P ^ (m + 1)) y z * g z) := by
      intro y
      rw [Finset.mul_sum]
      exact Finset.sum_congr rfl fun m _ => by ring
    rw [Finset.sum_congr rfl fun y _ => e2 y, Finset.sum_comm]
    refine Finset.sum_congr rfl fun m _ => ?_
    rw [← Finset.mul_sum, ← e m, show i + (m + 1) = i + 1 + m by ring]

/-- Expected square of the sum. -/
def sumSq (P : Matrix X X ℝ) (c : ℕ → ℝ) (g : X → ℝ) : ℕ → ℕ → X → ℝ
  | 0, _, _ => 0
  | k + 1, i, x => ∑ y, P x y * ((c i * g y) ^ 2 + 2 * (c i * g y) * sumMean P c g k (i + 1) y +
      sumSq P c g k (i + 1) y)

theorem sumLaw_sq {P : Matrix X X ℝ} (hP : Stochastic P) (c : ℕ → ℝ) (g : X → ℝ) (k i : ℕ) (a : ℝ)
    (x : X) : sumLaw P c g (fun t => t ^ 2) k i a x =
      a ^ 2 + 2 * a * sumMean P c g k i x + sumSq P c g k i x := by
  induction k generalizing i a x with
  | zero => simp [sumLaw, sumMean, sumSq]
  | succ k ih =>
    rw [sumLaw, sumMean_succ, sumSq]
    have e : a ^ 2 = ∑ y, P x y * a ^ 2 := by rw [← Finset.sum_mul, hP.sum_one, one_mul]
    rw [e, Finset.mul_sum, ← Finset.sum_add_distrib, ← Finset.sum_add_distrib]
    refine Finset.sum_congr rfl fun y _ => ?_
    rw [ih]
    ring

section bound

variable {P : Matrix X X ℝ} (hP : Stochastic P) {q : X → ℝ} (hq : ∀ x y, q y ≤ P x y)
  (q0 : 0 < ∑ y, q y) (q1 : ∑ y, q y ≤ 1) {w : X → ℝ} (hw : ∀ x, 0 ≤ w x) (hw1 : ∑ x, w x = 1)
  (hinv : Invariant w P) {f : X → ℝ} {C : ℝ} (hf : ∀ x y, f x - f y ≤ C)

include hw hw1 hf in
theorem dev_bound (x : X) : |f x - ∑ y, w y * f y| ≤ C := by
  have e1 : f x = ∑ y, w y * f x := by rw [← Finset.sum_mul, hw1, one_mul]
  have e2 : C = ∑ y, w y * C := by rw [← Finset.sum_mul, hw1, one_mul]
  rw [abs_le]
  constructor
  · rw [e1, e2, ← Finset.sum_sub_distrib, ← Finset.sum_neg_distrib]
    refine Finset.sum_le_sum fun y _ => ?_
    rw [← mul_sub, ← mul_neg]
    exact mul_le_mul_of_nonneg_left (by linarith [hf y x]) (hw y)
  · rw [e1, e2, ← Finset.sum_sub_distrib]
    refine Finset.sum_le_sum fun y _ => ?_
    rw [← mul_sub]
    exact mul_le_mul_of_nonneg_left (hf x y) (hw y)

include hP hq q0 q1 hw hw1 hinv hf in
theorem sumMean_bound {c : ℕ → ℝ} (hc : ∀ i, c i = 0 ∨ c i = 1) (k i : ℕ) (x : X) :
    |sumMean P c (fun z => f z - ∑ y, w y * f y) k i x| ≤ C * (1 / (∑ y, q y) - 1) := by
  obtain ⟨δ, hδ⟩ : ∃ δ, δ = ∑ y, q y := ⟨_, rfl⟩
  rw [← hδ] at q0 q1 ⊢
  have hC : 0 ≤ C := by simpa using hf x x
  have hm : ∀ m, |c (i + m) * ∑ y, (P ^ (m + 1)) x y * (f y - ∑ z, w z * f z)| ≤
      (1 - δ) ^ (m + 1) * C := by
    intro m
    have h1 : ∑ y, (P ^ (m + 1)) x y * (f y - ∑ z, w z * f z) =
        ∑ y, (P ^ (m + 1)) x y * f y - ∑ z, w z * f z := by
      simp only [mul_sub, Finset.sum_sub_distrib]
      rw [← Finset.sum_mul, (hP.pow (m + 1)).sum_one, one_mul]
    have h2 := converges hP hq hw hw1 hinv f hf (m + 1) x
    rw [h1, abs_mul]
    rw [← hδ] at h2
    have h3 : 0 ≤ (1 - δ) ^ (m + 1) * C := mul_nonneg (pow_nonneg (by linarith) _) hC
    rcases hc (i + m) with h | h
    · rw [h]; simpa using h3
    · rw [h]; simpa using h2
  calc _ ≤ ∑ m ∈ Finset.range k, |c (i + m) * ∑ y, (P ^ (m + 1)) x y * (f y - ∑ z, w z * f z)| :=
        Finset.abs_sum_le_sum_abs _ _
    _ ≤ ∑ m ∈ Finset.range k, (1 - δ) ^ (m + 1) * C := Finset.sum_le_sum fun m _ => hm m
    _ = (1 - δ) * (∑ m ∈ Finset.range k, (1 - δ) ^ m) * C := by
        rw [Finset.mul_sum, Finset.sum_mul]
        exact Finset.sum_congr rfl fun m _ => by ring
    _ = (1 - δ) * ((1 - (1 - δ) ^ k) / δ) * C := by
        congr 2
        have := mul_neg_geom_sum (1 - δ) k
        rw [eq_div_iff q0.ne', mul_comm]
        linear_combination this
    _ ≤ (1 - δ) * (1 / δ) * C := by
        refine mul_le_mul_of_nonneg_right (mul_le_mul_of_nonneg_left ?_ (by linarith)) hC
        rw [div_le_div_iff_of_pos_right q0]
        linarith [pow_nonneg (show 0 ≤ 1 - δ by linarith) k]
    _ = C * (1 / δ - 1) := by field_simp

include hP hq q0 q1 hw hw1 hinv hf in
theorem sumSq_bound {c : ℕ → ℝ} (hc : ∀ i, c i = 0 ∨ c i = 1) (k i : ℕ) (x : X) :
    sumSq P c (fun z => f z - ∑ y, w y * f y) k i x ≤
      (∑ m ∈ Finset.range k, c (i + m)) * (C ^ 2 * (2 / (∑ y, q y) - 1)) := by
  have hC : 0 ≤ C := by simpa using hf x x
  induction k generalizing i x with
  | zero => simp [sumSq]
  | succ k ih =>
    obtain ⟨B, hB⟩ : ∃ B, B = C ^ 2 * (2 / (∑ y, q y) - 1) := ⟨_, rfl⟩
    rw [← hB] at ih ⊢
    rw [sumSq, Finset.sum_range_succ']
    have e : (∑ m ∈ Finset.range k, c (i + (m + 1)) + c (i + 0)) * B =
        ∑ y, P x y * (c i * B + (∑ m ∈ Finset.range k, c (i + 1 + m)) * B) := by
      rw [← Finset.sum_mul, hP.sum_one, one_mul, add_zero, add_mul, add_comm]
      congr 2
      exact Finset.sum_congr rfl fun m _ => by rw [show i + (m + 1) = i + 1 + m by ring]
    rw [e]
    refine Finset.sum_le_sum fun y _ => mul_le_mul_of_nonneg_left ?_ (hP.nonneg x y)
    refine add_le_add ?_ (ih (i + 1) y)
    rcases hc i with h | h
    · rw [h]; simp
    · rw [h]
      have h1 := dev_bound hw hw1 hf y
      have h2 := sumMean_bound hP hq q0 q1 hw hw1 hinv hf hc k (i + 1) y
      obtain ⟨u, hu⟩ : ∃ u, u = f y - ∑ z, w z * f z := ⟨_, rfl⟩
      obtain ⟨v, hv⟩ : ∃ v, v = sumMean P c (fun z => f z - ∑ y, w y * f y) k (i + 1) y := ⟨_, rfl⟩
      rw [← hu] at h1 ⊢
      rw [← hv] at h2 ⊢
      have h3 : u ^ 2 ≤ C ^ 2 := sq_le_sq' (by linarith [(abs_le.mp h1).1]) (abs_le.mp h1).2
      have h4 : u * v ≤ C * (C * (1 / (∑ y, q y) - 1)) := by
        refine le_trans (le_abs_self _) ?_
        rw [abs_mul]
        exact mul_le_mul h1 h2 (abs_nonneg _) hC
      have h5 : C ^ 2 * (2 / (∑ y, q y) - 1) = C ^ 2 + 2 * (C * (C * (1 / (∑ y, q y) - 1))) := by ring
      rw [hB, h5]
      linarith

end bound

/-! ### Laws -/

section laws

variable {S T : Type}

/-- Expected value. -/
noncomputable def mean (l : Law S) (φ : S → ℝ) : ℝ := (l.map fun x => x.1 * φ x.2).sum

theorem mean_append (l m : Law S) (φ : S → ℝ) : mean (l ++ m) φ = mean l φ + mean m φ := by
  simp [mean]

theorem mean_scale (c : ℝ) (l : Law S) (φ : S → ℝ) :
    mean (l.map fun y => (c * y.1, y.2)) φ = c * mean l φ := by
  induction l with
  | nil => simp [mean]
  | cons x l ih =>
    unfold mean at ih ⊢
    simp only [List.map_cons, List.sum_cons]
    rw [ih]
    ring

/-- Chebyshev's inequality. -/
theorem prob_le_mean {l : Law S} (h0 : ∀ x ∈ l, 0 ≤ x.1) (T : S → ℝ) {t : ℝ} (ht : 0 < t) :
    l.prob (fun s => t ≤ |T s|) ≤ mean l (fun s => T s ^ 2) / t ^ 2 := by
  rw [le_div_iff₀ (by positivity)]
  induction l with
  | nil => simp [Law.prob, mean]
  | cons x l ih =>
    have h1 := ih fun y hy => h0 y (by simp [hy])
    have h2 : Law.prob [x] (fun s => t ≤ |T s|) * t ^ 2 ≤ mean [x] (fun s => T s ^ 2) := by
      simp only [Law.prob, mean, List.map_cons, List.map_nil, List.sum_singleton]
      have hx := h0 x (by simp)
      split
      · rename_i h
        refine mul_le_mul_of_nonneg_left ?_ hx
        rw [← sq_abs (T x.2)]
        exact pow_le_pow_left₀ ht.le h 2
      · rw [zero_mul]
        exact mul_nonneg hx (sq_nonneg _)
    rw [Law.prob_cons, add_mul]
    have e : mean (x :: l) (fun s => T s ^ 2) =
        mean [x] (fun s => T s ^ 2) + mean l (fun s => T s ^ 2) := by simp [mean]
    rw [e]
    linarith

/-- Expected value of a function of the image. -/
theorem mean_image {g : S → X} (l : Law S) (ψ : X → ℝ) :
    mean l (fun s => ψ (g s)) = ∑ y, l.prob (fun t => g t = y) * ψ y := by
  induction l with
  | nil => simp [mean, Law.prob]
  | cons x l ih =>
    have e : mean (x :: l) (fun s => ψ (g s)) = x.1 * ψ (g x.2) + mean l (fun s => ψ (g s)) := by
      simp [mean]
    have e2 : ∀ y, Law.prob (x :: l) (fun t => g t = y) * ψ y =
        Law.prob [x] (fun t => g t = y) * ψ y + Law.prob l (fun t => g t = y) * ψ y :=
      fun y => by rw [Law.prob_cons, add_mul]
    rw [e, ih, Finset.sum_congr rfl fun y _ => e2 y, Finset.sum_add_distrib]
    congr 1
    rw [Finset.sum_eq_single_of_mem (g x.2) (Finset.mem_univ _)]
    · simp [Law.prob]
    · intro z _ hz
      simp [Law.prob, Ne.symm hz]

theorem andThen_mean {ι : Type} {I : S → Prop} {φ ψ : ι → S → ℝ} {f : S → Except Fault (Law S)}
    {l : Law S} (h : ∀ x ∈ l, 0 ≤ x.1 ∧ ∃ m, f x.2 = .ok m ∧ (∀ y ∈ m, 0 ≤ y.1 ∧ I y.2) ∧
      ∀ j, mean m (φ j) = ψ j x.2) :
    ∃ m, l.andThen f = .ok m ∧ (∀ x ∈ m, 0 ≤ x.1 ∧ I x.2) ∧ ∀ j, mean m (φ j) = mean l (ψ j) := by
  induction l with
  | nil => exact ⟨[], rfl, by simp, by simp [mean]⟩
  | cons x l ih =>
    obtain ⟨hx, m1, e1, i1, p1⟩ := h x (by simp)
    obtain ⟨m2, e2, i2, p2⟩ := ih fun y hy => h y (by simp [hy])
    have e2' := e2
    unfold Law.andThen at e2' ⊢
    cases er : l.mapM (fun x => do
        let m ← f x.2
        (Except.ok (m.map fun y : ℝ × S => (x.1 * y.1, y.2)) : Except Fault (Law S))) with
    | error e => rw [er] at e2'; cases e2'
    | ok r =>
      rw [er, ok_bind] at e2'
      have e2'' := Except.ok.inj e2'
      refine ⟨(m1.map fun y => (x.1 * y.1, y.2)) ++ m2, ?_, ?_, ?_⟩
      · rw [List.mapM_cons, e1]
        simp only [ok_bind, er]
        rw [← e2'']
        rfl
      · intro y hy
        rcases List.mem_append.mp hy with h | h
        · obtain ⟨z, hz, rfl⟩ := List.mem_map.mp h
          exact ⟨mul_nonneg hx (i1 z hz).1, (i1 z hz).2⟩
        · exact i2 y h
      · intro j
        rw [mean_append, mean_scale, p1, p2]
        simp [mean]

end laws

end Bayesmix.Chain
