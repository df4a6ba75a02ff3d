import Verif.Algo.CondAlloc
import Verif.Algo.SliceLemmas
import Verif.Algo.GibbsLemmas
import Mathlib.Algebra.BigOperators.Intervals
import Mathlib.Algebra.BigOperators.Ring.Finset

/-! # Lemmas on laws of labels -/

namespace Bayesmix.Cond
open Bayesmix Mixing Slice Gibbs

variable {G H Θ S : Type}

theorem Law.prob_nil (P : S → Prop) : Law.prob ([] : Law S) P = 0 := rfl

theorem Law.prob_cons (x : ℝ × S) (l : Law S) (P : S → Prop) :
    Law.prob (x :: l) P = Law.prob [x] P + Law.prob l P := by
  simp [Law.prob]

theorem Law.prob_append (l m : Law S) (P : S → Prop) :
    Law.prob (l ++ m) P = Law.prob l P + Law.prob m P := by
  simp [Law.prob]

theorem Law.prob_scale (c : ℝ) (l : Law S) (P : S → Prop) :
    Law.prob (l.map fun y => (c * y.1, y.2)) P = c * Law.prob l P := by
  induction l with
  | nil => simp [Law.prob]
  | cons x l ih =>
    rw [List.map_cons, Law.prob_cons, ih, Law.prob_cons x, mul_add]
    congr 1
    simp [Law.prob]

theorem Law.prob_congr {l : Law S} {P Q : S → Prop} (h : ∀ x ∈ l, (P x.2 ↔ Q x.2)) :
    l.prob P = l.prob Q := by
  unfold Law.prob
  congr 1
  refine List.map_congr_left fun x hx => ?_
  by_cases hP : P x.2
  · rw [if_pos hP, if_pos ((h x hx).1 hP)]
  · rw [if_neg hP, if_neg fun hQ => hP ((h x hx).2 hQ)]

theorem Law.prob_false {l : Law S} {P : S → Prop} (h : ∀ x ∈ l, ¬ P x.2) : l.prob P = 0 := by
  rw [Law.prob_congr (Q := fun _ => False) fun x hx => iff_of_false (h x hx) id]
  simp [Law.prob]

open Classical in
/-- Continue each outcome by a law in which the event has a known probability. -/
theorem Law.andThen_ok {l : Law S} {f : S → Except Fault (Law S)} {P Q : S → Prop} {q : ℝ}
    {I : S → Prop} (h : ∀ x ∈ l, ∃ m, f x.2 = .ok m ∧ (∀ y ∈ m, I y.2) ∧
      m.prob P = if Q x.2 then q else 0) :
    ∃ m, l.andThen f = .ok m ∧ (∀ y ∈ m, I y.2) ∧ m.prob P = l.prob Q * q := by
  induction l with
  | nil => exact ⟨[], rfl, by simp, by simp [Law.prob]⟩
  | cons x l ih =>
    obtain ⟨m1, e1, i1, p1⟩ := h x (by simp)
    obtain ⟨m2, e2, i2, p2⟩ := ih fun y hy => h y (by simp [hy])
    unfold Law.andThen at e2 ⊢
    rw [List.mapM_cons]
    simp only [e1, ok_bind]
    cases hr : l.mapM (fun x => do
        let m ← f x.2
        (Except.ok (m.map fun y : ℝ × S => (x.1 * y.1, y.2)) : Except Fault (Law S))) with
    | error e => rw [hr] at e2; cases e2
    | ok r =>
      rw [hr] at e2
      simp only [ok_bind] at e2 ⊢
      have e2' := Except.ok.inj e2
      refine ⟨_, rfl, ?_, ?_⟩
      · intro y hy
        rw [List.flatten_cons, e2', List.mem_append, List.mem_map] at hy
        rcases hy with ⟨z, hz, rfl⟩ | hy
        · exact i1 z hz
        · exact i2 y hy
      · rw [List.flatten_cons, e2', Law.prob_append, Law.prob_scale, p1, p2, Law.prob_cons x, add_mul]
        congr 1
        by_cases hQ : Q x.2 <;> simp [Law.prob, hQ]

open Classical in
/-- The law of the labels after a sweep in which row `i` gets label `k` with probability `p i k`,
whatever the labels of the other rows. -/
theorem sweep_ok {row : ℕ → S → Except Fault (Law S)} {lab : S → List ℕ} {I : S → Prop} {n : ℕ}
    {p : ℕ → ℕ → ℝ} (hlen : ∀ s, I s → (lab s).length = n)
    (h : ∀ i < n, ∀ s, I s → ∃ l, row i s = .ok l ∧
      (∀ x ∈ l, I x.2 ∧ ∃ k, lab x.2 = (lab s).set i k) ∧
      ∀ k, l.prob (fun t => lab t = (lab s).set i k) = p i k)
    (rows : List ℕ) (hr : ∀ i ∈ rows, i < n) (hnd : rows.Nodup) (s : S) (hs : I s) (c : List ℕ)
    (hc : c.length = n) :
    ∃ l, sweep row rows s = .ok l ∧ (∀ x ∈ l, I x.2 ∧ ∀ i < n, i ∉ rows →
        (lab x.2)[i]? = (lab s)[i]?) ∧
      l.prob (fun t => lab t = c) = if ∀ i < n, i ∉ rows → c[i]? = (lab s)[i]? then
        (rows.map fun i => p i (c.getD i 0)).prod else 0 := by
  induction rows generalizing s with
  | nil =>
    refine ⟨[(1, s)], rfl, ?_, ?_⟩
    · intro x hx
      rw [List.mem_singleton] at hx
      subst hx
      exact ⟨hs, fun _ _ _ => rfl⟩
    · have : lab s = c ↔ ∀ i < n, i ∉ ([] : List ℕ) → c[i]? = (lab s)[i]? := by
        constructor
        · rintro rfl _ _ _; rfl
        · intro h
          refine List.ext_getElem? fun i => ?_
          by_cases hi : i < n
          · exact (h i hi (by simp)).symm
          · rw [List.getElem?_eq_none (by rw [hlen s hs]; omega),
              List.getElem?_eq_none (by omega)]
      simp only [Law.prob, List.map_cons, List.map_nil, List.sum_cons, List.sum_nil, add_zero,
        List.prod_nil]
      simp only [this]
  | cons i rows ih =>
    have hi := hr i (by simp)
    obtain ⟨hni, hnd'⟩ := List.nodup_cons.mp hnd
    obtain ⟨l, e, h1, h2⟩ := h i hi s hs
    have hci : i < c.length := by omega
    rw [sweep]
    simp only [e, ok_bind]
    obtain ⟨m, em, im, pm⟩ := Law.andThen_ok (l := l) (f := sweep row rows)
      (P := fun t => lab t = c)
      (Q := fun t => lab t = (lab s).set i (c.getD i 0) ∧
        ∀ j < n, j ∉ i :: rows → c[j]? = (lab s)[j]?)
      (q := (rows.map fun i => p i (c.getD i 0)).prod)
      (I := fun t => I t ∧ ∀ j < n, j ∉ i :: rows → (lab t)[j]? = (lab s)[j]?) (by
        intro x hx
        obtain ⟨hI, k, hk⟩ := h1 x hx
        obtain ⟨m, e, i1, i2⟩ := ih (fun j hj => hr j (by simp [hj])) hnd' x.2 hI
        refine ⟨m, e, fun y hy => ⟨(i1 y hy).1, fun j hj hjn => ?_⟩, ?_⟩
        · rw [List.mem_cons, not_or] at hjn
          rw [(i1 y hy).2 j hj hjn.2, hk, List.getElem?_set_ne (Ne.symm hjn.1)]
        · rw [i2]
          congr 1
          rw [eq_iff_iff]
          have hlx : i < (lab s).length := by rw [hlen s hs]; exact hi
          constructor
          · intro hall
            have hck : c[i]? = some k := by
              rw [hall i hi hni, hk, List.getElem?_set_self hlx]
            refine ⟨by rw [hk, List.getD_eq_getElem?_getD, hck]; rfl, fun j hj hjn => ?_⟩
            rw [List.mem_cons, not_or] at hjn
            rw [hall j hj hjn.2, hk, List.getElem?_set_ne (Ne.symm hjn.1)]
          · rintro ⟨hx, hall⟩ j hj hjr
            rw [hx]
            by_cases hji : j = i
            · subst hji
              rw [List.getElem?_set_self hlx, List.getD_eq_getElem?_getD,
                List.getElem?_eq_getElem hci]
              rfl
            · rw [List.getElem?_set_ne (Ne.symm hji)]
              exact hall j hj (by simp [hji, hjr]))
    refine ⟨m, em, im, ?_⟩
    rw [pm]
    by_cases hall : ∀ j < n, j ∉ i :: rows → c[j]? = (lab s)[j]?
    · rw [if_pos hall, List.map_cons, List.prod_cons, ← h2]
      congr 1
      exact Law.prob_congr fun x _ => ⟨fun h => h.1, fun h => ⟨h, hall⟩⟩
    · rw [if_neg hall, Law.prob_false fun x _ h => hall h.2, zero_mul]

/-- The sweep over all rows. -/
theorem sweep_all {row : ℕ → S → Except Fault (Law S)} {lab : S → List ℕ} {I : S → Prop} {n : ℕ}
    {p : ℕ → ℕ → ℝ} (hlen : ∀ s, I s → (lab s).length = n)
    (h : ∀ i < n, ∀ s, I s → ∃ l, row i s = .ok l ∧
      (∀ x ∈ l, I x.2 ∧ ∃ k, lab x.2 = (lab s).set i k) ∧
      ∀ k, l.prob (fun t => lab t = (lab s).set i k) = p i k) (s : S) (hs : I s) :
    ∃ l, sweep row (List.range n) s = .ok l ∧ (∀ x ∈ l, I x.2) ∧
      ∀ c : List ℕ, c.length = n →
        l.prob (fun t => lab t = c) = ∏ i ∈ Finset.range n, p i (c.getD i 0) := by
  obtain ⟨l, e, i1, -⟩ := sweep_ok hlen h (List.range n) (fun i hi => List.mem_range.mp hi)
    List.nodup_range s hs (List.replicate n 0) (by simp)
  refine ⟨l, e, fun x hx => (i1 x hx).1, fun c hc => ?_⟩
  obtain ⟨l', e', -, h2⟩ := sweep_ok hlen h (List.range n) (fun i hi => List.mem_range.mp hi)
    List.nodup_range s hs c hc
  rw [e] at e'
  rw [Except.ok.inj e', h2, if_pos (by intro i hi h; simp at h; omega),
    Finset.prod_range, ← List.prod_ofFn]
  congr 1
  exact List.ext_getElem (by simp) (by simp)

end Bayesmix.Cond
