import Verif.Algo.SMMoves
import Verif.Mixing.Exch
import Verif.Alloc.Run
import Mathlib.Analysis.SpecialFunctions.Log.Basic
import Mathlib.Tactic.Linarith
import Mathlib.Tactic.Positivity

/-! The acceptance rate of a split and the posterior over partitions. -/

namespace Bayesmix.SplitMerge
open Bayesmix.Mixing

variable {G H Θ : Type} [AddCommGroup G]

/-- `m A` is the log marginal likelihood of the rows `A`: the predictive densities of the rows,
one after another in any order, add up to it. -/
structure MargLik (E : Env G H Θ) (S : Scores H) (h : H) (m : Finset ℕ → ℝ) : Prop where
  single : ∀ x, m {x} = S.pred h x
  step : ∀ (A : Finset ℕ) x, A.Nonempty → x ∉ A →
    m (insert x A) = m A + S.pred (E.post h A.card (∑ y ∈ A, E.contrib y)) x

theorem chain_eq {E : Env G H Θ} {S : Scores H} {h : H} {m : Finset ℕ → ℝ}
    (hm : MargLik E S h m) (l : List ℕ) (hn : l.Nodup) (A : Finset ℕ) (hA : A.Nonempty)
    (hl : ∀ x ∈ l, x ∉ A) : chain E S h A l = m (A ∪ l.toFinset) - m A := by
  induction l generalizing A with
  | nil => simp [chain]
  | cons x l ih =>
    obtain ⟨h1, h2⟩ := List.nodup_cons.mp hn
    have hx := hl x (by simp)
    rw [chain, ih h2 (insert x A) (by simp) (by
      intro y hy
      simp only [Finset.mem_insert, not_or]
      exact ⟨by rintro rfl; exact h1 hy, hl y (by simp [hy])⟩)]
    have e : insert x A ∪ l.toFinset = A ∪ (x :: l).toFinset := by
      rw [List.toFinset_cons]; ext y; simp
    rw [e, hm.step A x hA hx, predOn]
    ring

theorem likRatio_eq {E : Env G H Θ} {S : Scores H} {h : H} {m : Finset ℕ → ℝ}
    (hm : MargLik E S h m) {i j : ℕ} {D0 D1 : Finset ℕ} (hi : i ∈ D0) (hj : j ∈ D1)
    (hd : Disjoint D0 D1) : likRatio E S h i j D0 D1 = m D0 + m D1 - m (D0 ∪ D1) := by
  have hjD0 : j ∉ D0 := fun h => Finset.disjoint_left.mp hd h hj
  have h0 : ({i} : Finset ℕ) ∪ (rest D0 i).toFinset = D0 := by
    simpa using rest_union (U := ∅) hi
  have h1 : ({j} : Finset ℕ) ∪ (rest D1 j).toFinset = D1 := by
    simpa using rest_union (U := ∅) hj
  have e0 := chain_eq hm (rest D0 i) (rest_nodup _ _) {i} (by simp)
    (by intro x hx; simpa using (mem_rest.mp hx).1)
  have e1 := chain_eq hm (rest D1 j) (rest_nodup _ _) {j} (by simp)
    (by intro x hx; simpa using (mem_rest.mp hx).1)
  have e2 := chain_eq hm (rest D1 j) (rest_nodup _ _) (insert j D0) (by simp)
    (by
      intro x hx
      have hx := mem_rest.mp hx
      simp only [Finset.mem_insert, not_or]
      exact ⟨hx.1, fun h => Finset.disjoint_left.mp hd h hx.2⟩)
  rw [h0] at e0; rw [h1] at e1; rw [rest_union hj] at e2
  have e3 := hm.step D0 j ⟨i, hi⟩ hjD0
  rw [likRatio, e0, e1, e2, hm.single, hm.single, predOn]
  linarith

/-- Unnormalized posterior probability of a list of labels: probability of the labels under the
sequential scheme with the given masses, times the marginal likelihoods of the clusters. -/
noncomputable def posterior (ex : ℕ → ℕ → ℕ → ℝ) (nw : ℕ → ℕ → ℝ) (m : Finset ℕ → ℝ)
    (al : List ℕ) : ℝ :=
  schemeProb ex nw al *
    Real.exp (∑ c ∈ al.toFinset, m (membersIn (Finset.range al.length) al c))

/-- The posterior with the masses of a Pitman-Yor process. -/
noncomputable def pyPosterior (st : PYState) (m : Finset ℕ → ℝ) (al : List ℕ) : ℝ :=
  posterior (fun n _ c => pyMassExisting st n false c) (fun n k => pyMassNew st n k false) m al

theorem count_eq_card (al : List ℕ) (c : ℕ) :
    al.count c = (membersIn (Finset.range al.length) al c).card := by
  induction al using List.reverseRecOn with
  | nil => simp [membersIn]
  | append_singleton l x ih =>
    have h1 : membersIn (Finset.range (l ++ [x]).length) (l ++ [x]) c =
        if x = c then insert l.length (membersIn (Finset.range l.length) l c)
        else membersIn (Finset.range l.length) l c := by
      ext y
      have key : y ∈ membersIn (Finset.range (l ++ [x]).length) (l ++ [x]) c ↔
          (y < l.length ∧ l[y]? = some c) ∨ (y = l.length ∧ x = c) := by
        rw [mem_membersIn]
        simp only [List.length_append, List.length_singleton, Finset.mem_range]
        by_cases hy : y < l.length
        · rw [List.getElem?_append_left hy]
          constructor
          · rintro ⟨-, h⟩; exact .inl ⟨hy, h⟩
          · rintro (h | h)
            · exact ⟨by omega, h.2⟩
            · omega
        · constructor
          · rintro ⟨h1, h2⟩
            have : y = l.length := by omega
            subst this
            simp at h2
            exact .inr ⟨rfl, h2⟩
          · rintro (h | ⟨rfl, rfl⟩)
            · exact absurd h.1 hy
            · exact ⟨by omega, by simp⟩
      rw [key]
      split
      · rename_i h; simp [mem_membersIn, h, or_comm]
      · rename_i h; simp [mem_membersIn, h]
    rw [h1, List.count_append, ih]
    split
    · rename_i h
      rw [Finset.card_insert_of_notMem (by simp [mem_membersIn]), h]
      simp
    · rename_i h
      simp [List.count_singleton, h]

theorem py_scheme_closed (st : PYState) (hs : -1 < st.strength) {al : List ℕ} (hne : al ≠ []) :
    schemeProb (fun n _ c => pyMassExisting st n false c) (fun n k => pyMassNew st n k false) al =
      pyA st al.toFinset.card / pyD st al.length * ∏ x ∈ al.toFinset, pyB st (al.count x) := by
  cases al with
  | nil => exact absurd rfl hne
  | cons x xs =>
    have e := schemeFrom_closed (ex := fun n _ c => pyMassExisting st n false c)
      (nw := fun n k => pyMassNew st n k false)
      (E := prodForm (fun n k => pyA st k / pyD st n) (pyB st)) (pyForm_step st hs) xs [x]
      (by simp)
    have e1 : prodForm (fun n k => pyA st k / pyD st n) (pyB st) [x] = 1 := by
      simp [prodForm, pyA, pyB, pyD]
    rw [e1, one_mul] at e
    simp only [schemeProb]
    rw [← e]
    rfl

theorem pyA_pos {st : PYState} (h : -st.discount < st.strength) (hd : 0 ≤ st.discount) (k : ℕ) :
    0 < pyA st k := by
  apply Finset.prod_pos
  intro t _
  have : (0 : ℝ) ≤ t := Nat.cast_nonneg t
  nlinarith

theorem pyB_pos {st : PYState} (hd : st.discount < 1) (k : ℕ) : 0 < pyB st k := by
  apply Finset.prod_pos
  intro t _
  have : (0 : ℝ) ≤ t := Nat.cast_nonneg t
  linarith

theorem pyD_pos {st : PYState} (hs : -1 < st.strength) (n : ℕ) : 0 < pyD st n := by
  apply Finset.prod_pos
  intro t _
  have : (0 : ℝ) ≤ t := Nat.cast_nonneg t
  linarith

/-- Log prior weight of a cluster plus its log marginal likelihood. -/
noncomputable def blockScore (st : PYState) (m : Finset ℕ → ℝ) (A : Finset ℕ) : ℝ :=
  Real.log (pyB st A.card) + m A

theorem pyPosterior_eq {st : PYState} (h : -st.discount < st.strength) (hd : 0 ≤ st.discount)
    (hd1 : st.discount < 1) (m : Finset ℕ → ℝ) {al : List ℕ} (hne : al ≠ []) :
    pyPosterior st m al = Real.exp (Real.log (pyA st al.toFinset.card) - Real.log (pyD st al.length)
      + ∑ c ∈ al.toFinset, blockScore st m (membersIn (Finset.range al.length) al c)) := by
  have hs : -1 < st.strength := by linarith
  have h1 : ∏ x ∈ al.toFinset, pyB st (al.count x) = Real.exp
      (∑ c ∈ al.toFinset, Real.log (pyB st (membersIn (Finset.range al.length) al c).card)) := by
    rw [Real.exp_sum]
    apply Finset.prod_congr rfl
    intro c _
    rw [Real.exp_log (pyB_pos hd1 _), count_eq_card]
  rw [pyPosterior, posterior, py_scheme_closed st hs hne, h1]
  have h2 : pyA st al.toFinset.card / pyD st al.length =
      Real.exp (Real.log (pyA st al.toFinset.card) - Real.log (pyD st al.length)) := by
    rw [Real.exp_sub, Real.exp_log (pyA_pos h hd _), Real.exp_log (pyD_pos hs _)]
  rw [h2, ← Real.exp_add, ← Real.exp_add]
  congr 1
  simp only [blockScore, Finset.sum_add_distrib]
  ring

/-- Labels of a consistent state without empty clusters. -/
theorem labels_eq_range {f : ℕ → G} {n : ℕ} {s : Alg G H Θ} (hc : Consistent f n s)
    (hne : NoEmptyOn (Finset.range n) s) : s.alloc.toFinset = Finset.range s.clus.length := by
  ext k
  simp only [List.mem_toFinset, Finset.mem_range]
  constructor
  · intro hk
    obtain ⟨i, hi⟩ := List.getElem?_of_mem hk
    obtain ⟨c, h1, h2⟩ := hc.on.labelled i (by
      have := (List.getElem?_eq_some_iff.mp hi).1
      rw [Finset.mem_range, ← hc.len]; exact this)
    rw [hi] at h1; rw [Option.some.inj h1]; exact h2
  · intro hk
    obtain ⟨i, -, hi⟩ := hne k hk
    exact List.mem_of_getElem? hi

/-- Change of a sum over clusters at a split. -/
theorem split_sum {E : Env G H Θ} {n i j : ℕ} {D : Finset ℕ} {s s' : Alg G H Θ}
    (hc : Consistent E.contrib n s) (hi : i < n) (hD : D ⊆ clusterOf n s.alloc i)
    (h : SplitDone E n i j D s s') (F : Finset ℕ → ℝ) :
    ∑ k ∈ Finset.range s'.clus.length, F (membersIn (Finset.range n) s'.alloc k) =
      ∑ k ∈ Finset.range s.clus.length, F (membersIn (Finset.range n) s.alloc k) +
        F D + F (clusterOf n s.alloc i \ D) - F (clusterOf n s.alloc i) := by
  obtain ⟨a, ha, hal⟩ := hc.on.labelled i (Finset.mem_range.mpr hi)
  have hlab : ∀ x < n, ∃ c, s.alloc[x]? = some c ∧ c < s.clus.length := fun x hx =>
    hc.on.labelled x (Finset.mem_range.mpr hx)
  have hnew : membersIn (Finset.range n) s'.alloc s.clus.length = D := by
    ext x
    rw [mem_membersIn, h.alloc, Finset.mem_range]
    constructor
    · rintro ⟨hx, e⟩
      by_contra hxD
      rw [if_neg hxD] at e
      obtain ⟨c, h1, h2⟩ := hlab x hx
      rw [h1] at e; have := Option.some.inj e; omega
    · intro hx
      exact ⟨(mem_clusterOf.mp (hD hx)).1, by rw [if_pos hx]⟩
  have hold : membersIn (Finset.range n) s'.alloc a = clusterOf n s.alloc i \ D := by
    ext x
    rw [mem_membersIn, h.alloc, Finset.mem_range, Finset.mem_sdiff, mem_clusterOf, ha]
    by_cases hx : x ∈ D
    · rw [if_pos hx]
      simp only [hx, not_true, and_false, iff_false, not_and]
      intro _ e; have := Option.some.inj e; omega
    · rw [if_neg hx]; simp [hx]
  have hother : ∀ k ∈ (Finset.range s.clus.length).erase a,
      membersIn (Finset.range n) s'.alloc k = membersIn (Finset.range n) s.alloc k := by
    intro k hk
    obtain ⟨hka, hkl⟩ := Finset.mem_erase.mp hk
    rw [Finset.mem_range] at hkl
    ext x
    rw [mem_membersIn, mem_membersIn, h.alloc]
    by_cases hx : x ∈ D
    · rw [if_pos hx, (mem_clusterOf.mp (hD hx)).2, ha]
      constructor
      · rintro ⟨-, e⟩; have := Option.some.inj e; omega
      · rintro ⟨-, e⟩; exact absurd (Option.some.inj e).symm hka
    · rw [if_neg hx]
  have haR : a ∈ Finset.range s.clus.length := Finset.mem_range.mpr hal
  rw [h.len, Finset.sum_range_succ, hnew, ← Finset.add_sum_erase _ _ haR, hold,
    Finset.sum_congr rfl (fun k hk => by rw [hother k hk]), ← Finset.add_sum_erase _ _ haR,
    ← clusterOf_eq ha]
  ring

theorem pyA_succ (st : PYState) {k : ℕ} (hk : 0 < k) :
    pyA st (k + 1) = pyA st k * (st.strength + st.discount * k) := by
  unfold pyA
  rw [range_prod_succ _ _ hk, cast_pred hk]

/-- The prior weights computed by the sampler, when the masses of existing clusters are those of
the Pitman-Yor process. -/
theorem wgt_eq {S : Scores H} {st : PYState} (hd1 : st.discount < 1) {n : ℕ}
    (hS : ∀ c : ℕ, 1 ≤ c → S.exist n 2 c = Real.log (c - st.discount)) {k : ℕ} (hk : 1 ≤ k) :
    wgt S n k = Real.log (pyB st k) := by
  induction k, hk using Nat.le_induction with
  | base => simp [pyB]
  | succ k hk ih =>
    have : (1 : ℝ) ≤ k := by exact_mod_cast hk
    have hB : pyB st (k + 1) = pyB st k * (k - st.discount) := by
      unfold pyB
      rw [range_prod_succ _ _ hk, cast_pred hk]
    have hne : (k : ℝ) - st.discount ≠ 0 := by linarith
    rw [wgt_succ S n hk, ih, hS k hk, hB, Real.log_mul (pyB_pos hd1 k).ne' hne]

/-- Metropolis-Hastings balance as an equation between logarithms. -/
theorem balance_iff (T T' q rate : ℝ) :
    Real.exp T * Real.exp q * min 1 (Real.exp rate) = Real.exp T' * min 1 (Real.exp (-rate)) ↔
      T' - T = rate + q := by
  have hmin : min 1 (Real.exp rate) = Real.exp rate * min 1 (Real.exp (-rate)) := by
    rw [mul_min_of_nonneg _ _ (Real.exp_pos rate).le, mul_one, ← Real.exp_add, add_neg_cancel,
      Real.exp_zero, min_comm]
  have hpos : 0 < min 1 (Real.exp (-rate)) := lt_min one_pos (Real.exp_pos _)
  rw [hmin, ← mul_assoc, ← Real.exp_add, ← Real.exp_add, mul_left_inj' hpos.ne',
    Real.exp_eq_exp]
  constructor <;> intro h <;> linarith

theorem transLog_congr (E : Env G H Θ) (S : Scores H) (h : H) (i j : ℕ) (rows : List ℕ)
    (c0 : ℕ → Bool) {c1 c1' : ℕ → Bool} (hc : ∀ t < rows.length, c1 t = c1' t) :
    transLog E S h i j rows c0 c1 rows.length = transLog E S h i j rows c0 c1' rows.length := by
  unfold transLog
  apply Finset.sum_congr rfl
  intro t ht
  have ht := Finset.mem_range.mp ht
  have e : mixLab c0 c1 t = mixLab c0 c1' t := by
    funext u
    unfold mixLab
    split
    · exact hc u (by omega)
    · rfl
  rw [e, hc t ht]

theorem side_congr {i j : ℕ} {rows : List ℕ} {c c' : ℕ → Bool}
    (hc : ∀ t < rows.length, c t = c' t) (b : Bool) :
    side i j rows c b = side i j rows c' b := by
  unfold side
  congr 2
  apply Finset.filter_congr
  intro t ht; rw [hc t (Finset.mem_range.mp ht)]

theorem splitRate_congr (E : Env G H Θ) (S : Scores H) (h : H) (n i j : ℕ) (rows : List ℕ)
    (c0 : ℕ → Bool) {c1 c1' : ℕ → Bool} (hc : ∀ t < rows.length, c1 t = c1' t) :
    splitRate E S h n i j rows c0 c1 = splitRate E S h n i j rows c0 c1' := by
  unfold splitRate
  rw [transLog_congr E S h i j rows c0 hc, side_congr hc, side_congr hc]

/-- After a split the two clusters together are the old one. -/
theorem split_rows {E : Env G H Θ} {n i j : ℕ} {D : Finset ℕ} {s s' : Alg G H Θ}
    (hc : Consistent E.contrib n s) (ht : s.alloc[i]? = s.alloc[j]?)
    (hiD : i ∈ D) (hjD : j ∉ D) (hD : D ⊆ clusterOf n s.alloc i)
    (h : SplitDone E n i j D s s') :
    clusterOf n s'.alloc i = D ∧ clusterOf n s'.alloc j = clusterOf n s.alloc i \ D ∧
      scanRows n s'.alloc i j = scanRows n s.alloc i j ∧ s'.alloc[i]? ≠ s'.alloc[j]? := by
  have hi' : s'.alloc[i]? = some s.clus.length := by rw [h.alloc, if_pos hiD]
  have hj' : s'.alloc[j]? = s.alloc[i]? := by rw [h.alloc, if_neg hjD, ht]
  have hlt : ∀ x < n, s.alloc[x]? ≠ some s.clus.length := by
    intro x hx e
    obtain ⟨c, h1, h2⟩ := hc.on.labelled x (Finset.mem_range.mpr hx)
    rw [h1] at e; have := Option.some.inj e; omega
  have hin : i < n := (mem_clusterOf.mp (hD hiD)).1
  have e1 : clusterOf n s'.alloc i = D := by
    ext x
    rw [mem_clusterOf, hi', h.alloc]
    constructor
    · rintro ⟨hx, e⟩
      by_contra hxD
      rw [if_neg hxD] at e
      exact hlt x hx e
    · intro hx; exact ⟨(mem_clusterOf.mp (hD hx)).1, by rw [if_pos hx]⟩
  have e2 : clusterOf n s'.alloc j = clusterOf n s.alloc i \ D := by
    ext x
    rw [mem_clusterOf, hj', h.alloc, Finset.mem_sdiff, mem_clusterOf]
    by_cases hx : x ∈ D
    · rw [if_pos hx]
      simp only [hx, not_true, and_false, iff_false, not_and]
      intro _ e; exact hlt i hin e.symm
    · rw [if_neg hx]; simp [hx]
  refine ⟨e1, e2, ?_, ?_⟩
  · have e3 : clusterOf n s.alloc j = clusterOf n s.alloc i := by simp [clusterOf, ht]
    unfold scanRows
    rw [e1, e2, e3, Finset.union_self, Finset.union_sdiff_of_subset hD]
  · rw [hi', hj']; exact fun e => hlt i hin e.symm

end Bayesmix.SplitMerge
