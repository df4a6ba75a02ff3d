import Mathlib.Data.Matrix.Mul
import Mathlib.Data.Fintype.Order
import Mathlib.Algebra.Order.BigOperators.Ring.Finset
import Mathlib.Tactic.Linarith
import Mathlib.Tactic.Positivity
import Mathlib.Data.Real.Basic
import Mathlib.Data.Matrix.Basic
import Mathlib.Analysis.SpecificLimits.Basic
import Verif.Algo.CondLemmas

/-!
# Markov chains on finitely many states

A stochastic matrix with positive entries forgets its start: general facts, not about the code.
-/

namespace Bayesmix.Chain
open Bayesmix Cond

variable {X : Type} [Fintype X] [DecidableEq X]

/-- Rows are probability vectors. -/
structure Stochastic (P : Matrix X X ℝ) : Prop where
  nonneg : ∀ x y, 0 ≤ P x y
  sum_one : ∀ x, ∑ y, P x y = 1

theorem Stochastic.one : Stochastic (1 : Matrix X X ℝ) :=
  ⟨fun x y => by rw [Matrix.one_apply]; split <;> norm_num, fun x => by simp [Matrix.one_apply]⟩

theorem Stochastic.mul {P Q : Matrix X X ℝ} (hP : Stochastic P) (hQ : Stochastic Q) :
    Stochastic (P * Q) := by
  refine ⟨fun x y => Finset.sum_nonneg fun z _ => mul_nonneg (hP.nonneg x z) (hQ.nonneg z y),
    fun x => ?_⟩
  simp only [Matrix.mul_apply]
  rw [Finset.sum_comm]
  simp only [← Finset.mul_sum, hQ.sum_one, mul_one, hP.sum_one]

theorem Stochastic.prod {l : List (Matrix X X ℝ)} (h : ∀ P ∈ l, Stochastic P) :
    Stochastic l.prod := by
  induction l with
  | nil => exact Stochastic.one
  | cons P l ih =>
    rw [List.prod_cons]
    exact (h P (by simp)).mul (ih fun Q hQ => h Q (by simp [hQ]))

theorem Stochastic.pow {P : Matrix X X ℝ} (h : Stochastic P) (k : ℕ) : Stochastic (P ^ k) := by
  induction k with
  | zero => rw [pow_zero]; exact Stochastic.one
  | succ k ih => rw [pow_succ]; exact ih.mul h

/-- The weights `w` are invariant. -/
def Invariant (w : X → ℝ) (P : Matrix X X ℝ) : Prop := ∀ y, ∑ x, w x * P x y = w y

theorem Invariant.mul {w : X → ℝ} {P Q : Matrix X X ℝ} (hP : Invariant w P) (hQ : Invariant w Q) :
    Invariant w (P * Q) := by
  intro y
  simp only [Matrix.mul_apply, Finset.mul_sum]
  rw [Finset.sum_comm]
  rw [← hQ y]
  refine Finset.sum_congr rfl fun z _ => ?_
  rw [← hP z, Finset.sum_mul]
  exact Finset.sum_congr rfl fun x _ => by ring

theorem Invariant.one (w : X → ℝ) : Invariant w (1 : Matrix X X ℝ) := by
  intro y
  simp [Matrix.one_apply]

theorem Invariant.prod {w : X → ℝ} {l : List (Matrix X X ℝ)} (h : ∀ P ∈ l, Invariant w P) :
    Invariant w l.prod := by
  induction l with
  | nil => exact Invariant.one w
  | cons P l ih =>
    rw [List.prod_cons]
    exact (h P (by simp)).mul (ih fun Q hQ => h Q (by simp [hQ]))

theorem Invariant.pow {w : X → ℝ} {P : Matrix X X ℝ} (h : Invariant w P) (k : ℕ) :
    Invariant w (P ^ k) := by
  induction k with
  | zero => rw [pow_zero]; exact Invariant.one w
  | succ k ih => rw [pow_succ]; exact ih.mul h

theorem invariant_of_reversible {w : X → ℝ} {P : Matrix X X ℝ} (hP : ∀ x, ∑ y, P x y = 1)
    (h : ∀ x y, w x * P x y = w y * P y x) : Invariant w P := by
  intro y
  rw [Finset.sum_congr rfl fun x _ => h x y, ← Finset.mul_sum, hP, mul_one]

/-- One step contracts the differences of a function. -/
theorem contract {P : Matrix X X ℝ} (hP : Stochastic P) {q : X → ℝ} (hq : ∀ x y, q y ≤ P x y)
    {f : X → ℝ} {C : ℝ} (hf : ∀ x y, f x - f y ≤ C) (x x' : X) :
    ∑ y, P x y * f y - ∑ y, P x' y * f y ≤ (1 - ∑ y, q y) * C := by
  obtain ⟨y0, -, h0⟩ := Finset.exists_min_image Finset.univ f ⟨x, Finset.mem_univ x⟩
  have h1 : ∑ y, P x y * f y = ∑ y, (P x y - q y) * (f y - f y0) + ∑ y, q y * f y +
      (1 - ∑ y, q y) * f y0 := by
    rw [← hP.sum_one x]
    rw [← Finset.sum_sub_distrib, Finset.sum_mul, ← Finset.sum_add_distrib, ← Finset.sum_add_distrib]
    exact Finset.sum_congr rfl fun y _ => by ring
  have h2 : ∑ y, P x' y * f y = ∑ y, (P x' y - q y) * (f y - f y0) + ∑ y, q y * f y +
      (1 - ∑ y, q y) * f y0 := by
    rw [← hP.sum_one x']
    rw [← Finset.sum_sub_distrib, Finset.sum_mul, ← Finset.sum_add_distrib, ← Finset.sum_add_distrib]
    exact Finset.sum_congr rfl fun y _ => by ring
  have h3 : ∑ y, (P x y - q y) * (f y - f y0) ≤ (1 - ∑ y, q y) * C := by
    rw [← hP.sum_one x, ← Finset.sum_sub_distrib, Finset.sum_mul]
    exact Finset.sum_le_sum fun y _ => mul_le_mul_of_nonneg_left (hf y y0) (by linarith [hq x y])
  have h4 : 0 ≤ ∑ y, (P x' y - q y) * (f y - f y0) :=
    Finset.sum_nonneg fun y _ => mul_nonneg (by linarith [hq x' y])
      (by linarith [h0 y (Finset.mem_univ y)])
  linarith

theorem contract_pow {P : Matrix X X ℝ} (hP : Stochastic P) {q : X → ℝ} (hq : ∀ x y, q y ≤ P x y)
    (f : X → ℝ) {C : ℝ} (hf : ∀ x y, f x - f y ≤ C) (k : ℕ) (x x' : X) :
    ∑ y, (P ^ k) x y * f y - ∑ y, (P ^ k) x' y * f y ≤ (1 - ∑ y, q y) ^ k * C := by
  induction k generalizing x x' with
  | zero => simpa [Matrix.one_apply] using hf x x'
  | succ k ih =>
    have e : ∀ x, ∑ y, (P ^ (k + 1)) x y * f y = ∑ z, P x z * ∑ y, (P ^ k) z y * f y := by
      intro x
      rw [pow_succ']
      simp only [Matrix.mul_apply, Finset.sum_mul, Finset.mul_sum]
      rw [Finset.sum_comm]
      exact Finset.sum_congr rfl fun z _ => Finset.sum_congr rfl fun y _ => by ring
    rw [e, e, pow_succ']
    have := contract hP hq (f := fun z => ∑ y, (P ^ k) z y * f y) (fun x y => ih x y) x x'
    linarith [this]

/-- The law after `k` steps approaches the invariant law, whatever the start. -/
theorem converges {P : Matrix X X ℝ} (hP : Stochastic P) {q : X → ℝ} (hq : ∀ x y, q y ≤ P x y)
    {w : X → ℝ} (hw : ∀ x, 0 ≤ w x) (hw1 : ∑ x, w x = 1) (hinv : Invariant w P) (f : X → ℝ) {C : ℝ}
    (hf : ∀ x y, f x - f y ≤ C) (k : ℕ) (x : X) :
    |∑ y, (P ^ k) x y * f y - ∑ y, w y * f y| ≤ (1 - ∑ y, q y) ^ k * C := by
  have e : ∑ y, w y * f y = ∑ z, w z * ∑ y, (P ^ k) z y * f y := by
    rw [Finset.sum_congr rfl fun y _ => by rw [← (hinv.pow k) y]]
    simp only [Finset.sum_mul, Finset.mul_sum]
    rw [Finset.sum_comm]
    exact Finset.sum_congr rfl fun z _ => Finset.sum_congr rfl fun y _ => by ring
  have e2 : ∑ y, (P ^ k) x y * f y = ∑ z, w z * ∑ y, (P ^ k) x y * f y := by
    rw [← Finset.sum_mul, hw1, one_mul]
  have e3 : (1 - ∑ y, q y) ^ k * C = ∑ z, w z * ((1 - ∑ y, q y) ^ k * C) := by
    rw [← Finset.sum_mul, hw1, one_mul]
  rw [abs_sub_le_iff]
  constructor
  · rw [e2, e, e3, ← Finset.sum_sub_distrib]
    refine Finset.sum_le_sum fun z _ => ?_
    rw [← mul_sub]
    exact mul_le_mul_of_nonneg_left (contract_pow hP hq f hf k x z) (hw z)
  · rw [e2, e, e3, ← Finset.sum_sub_distrib]
    refine Finset.sum_le_sum fun z _ => ?_
    rw [← mul_sub]
    exact mul_le_mul_of_nonneg_left (contract_pow hP hq f hf k z x) (hw z)

/-- Entries of a positive matrix are bounded from below. -/
theorem lower_bound [Nonempty X] {P : Matrix X X ℝ} (hP : Stochastic P) (hpos : ∀ x y, 0 < P x y) :
    ∃ q : X → ℝ, (∀ x y, q y ≤ P x y) ∧ 0 < ∑ y, q y ∧ ∑ y, q y ≤ 1 := by
  have h : ∀ y, ∃ a, 0 < a ∧ ∀ x, a ≤ P x y := by
    intro y
    obtain ⟨x0, -, h0⟩ := Finset.exists_min_image Finset.univ (fun x => P x y) Finset.univ_nonempty
    exact ⟨P x0 y, hpos x0 y, fun x => h0 x (Finset.mem_univ x)⟩
  choose q hq1 hq2 using h
  refine ⟨q, fun x y => hq2 y x, Finset.sum_pos (fun y _ => hq1 y) Finset.univ_nonempty, ?_⟩
  obtain ⟨x⟩ := ‹Nonempty X›
  rw [← hP.sum_one x]
  exact Finset.sum_le_sum fun y _ => hq2 y x

/-- Only one probability vector is invariant. -/
theorem invariant_unique [Nonempty X] {P : Matrix X X ℝ} (hP : Stochastic P)
    (hpos : ∀ x y, 0 < P x y) {w v : X → ℝ} (hw : ∀ x, 0 ≤ w x) (hv : ∀ x, 0 ≤ v x)
    (hw1 : ∑ x, w x = 1) (hv1 : ∑ x, v x = 1) (hwi : Invariant w P) (hvi : Invariant v P) :
    w = v := by
  obtain ⟨q, hq, q0, q1⟩ := lower_bound hP hpos
  obtain ⟨x⟩ := ‹Nonempty X›
  funext y
  obtain ⟨f, hf⟩ : ∃ f : X → ℝ, f = fun z => if z = y then 1 else 0 := ⟨_, rfl⟩
  have hf1 : ∀ a b, f a - f b ≤ 1 := by
    intro a b
    rw [hf]
    simp only
    split <;> split <;> norm_num
  have hs : ∀ u : X → ℝ, ∑ z, u z * f z = u y := by
    intro u
    rw [hf]
    simp
  have key : ∀ k : ℕ, |w y - v y| ≤ 2 * (1 - ∑ y, q y) ^ k := by
    intro k
    have h1 := converges hP hq hw hw1 hwi f hf1 k x
    have h2 := converges hP hq hv hv1 hvi f hf1 k x
    rw [hs w, mul_one] at h1
    rw [hs v, mul_one] at h2
    rw [abs_le] at h1 h2 ⊢
    constructor <;> linarith [h1.1, h1.2, h2.1, h2.2]
  have hlim : Filter.Tendsto (fun k : ℕ => 2 * (1 - ∑ y, q y) ^ k) Filter.atTop (nhds 0) := by
    have := (tendsto_pow_atTop_nhds_zero_of_lt_one (r := 1 - ∑ y, q y) (by linarith)
      (by linarith)).const_mul 2
    simpa using this
  have := ge_of_tendsto' hlim key
  have h0 : w y - v y = 0 := abs_nonpos_iff.mp this
  linarith

/-! ### Laws of loops -/

variable {S : Type}

/-- Started in `s`, `f` is a law whose outcomes are good, with the given probabilities of the image
under `g`. -/
def HasLaw (Good : S → Prop) (g : S → X) (P : Matrix X X ℝ) (f : S → Except Fault (Law S)) : Prop :=
  ∀ s, Good s → ∃ l, f s = .ok l ∧ (∀ x ∈ l, 0 ≤ x.1 ∧ Good x.2) ∧
    ∀ y, l.prob (fun t => g t = y) = P (g s) y

theorem prob_mem {g : S → X} (l : Law S) (A : Finset X) :
    l.prob (fun t => g t ∈ A) = ∑ y ∈ A, l.prob (fun t => g t = y) := by
  induction l with
  | nil => simp [Law.prob]
  | cons x l ih =>
    rw [Law.prob_cons, ih, Finset.sum_congr rfl fun y _ => Law.prob_cons x l _,
      Finset.sum_add_distrib]
    congr 1
    simp only [Law.prob, List.map_cons, List.map_nil, List.sum_singleton]
    by_cases hx : g x.2 ∈ A
    · rw [if_pos hx, Finset.sum_eq_single_of_mem (g x.2) hx, if_pos rfl]
      intro y _ hy
      rw [if_neg (Ne.symm hy)]
    · rw [if_neg hx, Finset.sum_eq_zero]
      intro y hy
      rw [if_neg fun h => hx (by rw [h]; exact hy)]

theorem andThen_law {Good : S → Prop} {g : S → X} {Q : Matrix X X ℝ}
    {f : S → Except Fault (Law S)} (hf : HasLaw Good g Q f) {l : Law S}
    (hl : ∀ x ∈ l, 0 ≤ x.1 ∧ Good x.2) :
    ∃ m, l.andThen f = .ok m ∧ (∀ x ∈ m, 0 ≤ x.1 ∧ Good x.2) ∧
      ∀ y, m.prob (fun t => g t = y) = ∑ z, l.prob (fun t => g t = z) * Q z y := by
  induction l with
  | nil => exact ⟨[], rfl, by simp, by simp [Law.prob]⟩
  | cons x l ih =>
    obtain ⟨m1, e1, i1, p1⟩ := hf x.2 (hl x (by simp)).2
    obtain ⟨m2, e2, i2, p2⟩ := ih fun y hy => hl y (by simp [hy])
    have e2' := e2
    unfold Law.andThen at e2' ⊢
    cases er : l.mapM (fun x => do
        let m ← f x.2
        (Except.ok (m.map fun y : ℝ × S => (x.1 * y.1, y.2)) : Except Fault (Law S))) with
    | error e => rw [er] at e2'; cases e2'
    | ok r =>
      rw [er, ok_bind] at e2'
      have e2'' := Except.ok.inj e2'
      refine ⟨(m1.map fun y => (x.1 * y.1, y.2)) ++ m2, ?_, ?_, ?_⟩
      · rw [List.mapM_cons, e1]
        simp only [ok_bind, er]
        rw [← e2'']
        rfl
      · intro y hy
        rcases List.mem_append.mp hy with h | h
        · obtain ⟨z, hz, rfl⟩ := List.mem_map.mp h
          exact ⟨mul_nonneg (hl x (by simp)).1 (i1 z hz).1, (i1 z hz).2⟩
        · exact i2 y h
      · intro y
        rw [Law.prob_append, Law.prob_scale, p1, p2]
        have e3 : ∀ z, Law.prob (x :: l) (fun t => g t = z) * Q z y =
            Law.prob [x] (fun t => g t = z) * Q z y + Law.prob l (fun t => g t = z) * Q z y :=
          fun z => by rw [Law.prob_cons, add_mul]
        rw [Finset.sum_congr rfl fun z _ => e3 z, Finset.sum_add_distrib]
        congr 1
        rw [Finset.sum_eq_single_of_mem (g x.2) (Finset.mem_univ _)]
        · simp [Law.prob]
        · intro z _ hz
          simp [Law.prob, Ne.symm hz]

theorem sweep_law {Good : S → Prop} {g : S → X} {K : ℕ → Matrix X X ℝ}
    {row : ℕ → S → Except Fault (Law S)} (is : List ℕ)
    (h : ∀ i ∈ is, HasLaw Good g (K i) (row i)) :
    HasLaw Good g (is.map K).prod (sweep row is) := by
  induction is with
  | nil =>
    intro s hs
    refine ⟨[(1, s)], rfl, by simp [hs], fun y => ?_⟩
    simp [Law.prob, Matrix.one_apply]
  | cons i is ih =>
    intro s hs
    obtain ⟨l, e, hg, hp⟩ := h i (by simp) s hs
    obtain ⟨m, e2, hg2, hp2⟩ := andThen_law (ih fun j hj => h j (by simp [hj])) hg
    refine ⟨m, by rw [sweep, e, ok_bind, e2], hg2, fun y => ?_⟩
    rw [hp2, List.map_cons, List.prod_cons, Matrix.mul_apply]
    exact Finset.sum_congr rfl fun z _ => by rw [hp]

end Bayesmix.Chain
