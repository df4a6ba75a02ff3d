import Verif.Alloc.Spec
import Verif.FaultLemmas
import Mathlib.Tactic.Common
import Mathlib.Tactic.Ring
import Mathlib.Tactic.Abel
import Mathlib.Tactic.NormNum
import Mathlib.Algebra.BigOperators.Group.Finset.Sigma
import Mathlib.Algebra.Order.BigOperators.Group.Finset

/-! Helper lemmas for the allocation model. -/

namespace Bayesmix

variable {G H Θ : Type}

/-! ### Objects -/

/-- Saving posterior hypers is only possible for (semi)conjugate updaters. -/
def CanSave (E : Env G H Θ) (upd : Bool) : Prop := upd = true → E.kind ≠ .other

theorem canSave_false (E : Env G H Θ) : CanSave E false := by simp [CanSave]

section
variable [AddCommGroup G]

/-- Normal form of a successful `addDatum`. -/
def Hier.added (E : Env G H Θ) (h : H) (upd : Bool) (i : ℕ) (o : Hier G H Θ) : Hier G H Θ :=
  { o with
    card := o.card + 1, ss := o.ss + E.contrib i, idx := insert i o.idx
    saved := upd || o.saved
    ph := if upd then some (E.post h (o.card + 1) (o.ss + E.contrib i)) else o.ph }

/-- Normal form of a successful `removeDatum`. -/
def Hier.removed (E : Env G H Θ) (h : H) (upd : Bool) (i : ℕ) (o : Hier G H Θ) : Hier G H Θ :=
  { o with
    card := o.card - 1, ss := o.ss - E.contrib i, idx := o.idx.erase i
    saved := upd || o.saved
    ph := if upd then some (E.post h (o.card - 1) (o.ss - E.contrib i)) else o.ph }

theorem Hier.addDatum_eq {E : Env G H Θ} {h : H} {upd : Bool} {i : ℕ} {o : Hier G H Θ}
    (hi : i ∉ o.idx) (hs : CanSave E upd) :
    o.addDatum E h upd i = .ok (o.added E h upd i) := by
  cases upd with
  | false => simp [addDatum, hi, added]
  | true => simp [addDatum, hi, added, savePosterior, hs rfl]

theorem Hier.removeDatum_eq {E : Env G H Θ} {h : H} {upd : Bool} {i : ℕ} {o : Hier G H Θ}
    (hi : i ∈ o.idx) (hs : CanSave E upd) :
    o.removeDatum E h upd i = .ok (o.removed E h upd i) := by
  cases upd with
  | false => simp [removeDatum, hi, removed]
  | true => simp [removeDatum, hi, removed, savePosterior, hs rfl]

/-- Cached posterior hypers are present whenever flagged as saved. -/
def Hier.CacheOk (o : Hier G H Θ) : Prop := o.saved = true → o.ph.isSome

/-- A draw never faults when the cache is present; it changes only the state and the
cache. -/
theorem Hier.sampleFullCond_ok (E : Env G H Θ) (h : H) (upd : Bool) (r : ℕ) (o : Hier G H Θ)
    (hc : o.CacheOk) :
    ∃ o', o.sampleFullCond E h upd r = .ok o' ∧ o'.card = o.card ∧ o'.idx = o.idx ∧
      o'.ss = o.ss ∧ o'.saved = o.saved ∧ o'.CacheOk ∧ (o.saved = true → o'.ph = o.ph) := by
  unfold sampleFullCond
  by_cases hk : E.kind = .other
  · simp only [hk, if_true]
    exact ⟨_, rfl, rfl, rfl, rfl, rfl, hc, fun _ => rfl⟩
  · simp only [hk, if_false]
    by_cases h0 : o.card = 0
    · simp only [h0, if_true]
      exact ⟨_, rfl, by simp [h0], rfl, rfl, rfl, hc, fun _ => rfl⟩
    · simp only [h0, if_false]
      unfold getPosterior
      cases hs : o.saved with
      | false =>
        cases upd with
        | false =>
          refine ⟨_, rfl, rfl, rfl, rfl, by simp [hs], by simp [CacheOk, hs], by simp⟩
        | true =>
          refine ⟨_, rfl, rfl, rfl, rfl, by simp [hs], by simp [CacheOk, hs], by simp⟩
      | true =>
        have hp := hc hs
        obtain ⟨p, hp⟩ := Option.isSome_iff_exists.mp hp
        refine ⟨{ o with state := E.sample p r }, by simp [hp], rfl, rfl, rfl, by simp [hs],
          by simp [CacheOk, hp], by simp⟩

end

/-! ### membership sets -/

theorem mem_membersIn {A : Finset ℕ} {al : List ℕ} {k i : ℕ} :
    i ∈ membersIn A al k ↔ i ∈ A ∧ al[i]? = some k := by simp [membersIn]

theorem membersIn_erase (A : Finset ℕ) (al : List ℕ) (k i : ℕ) :
    membersIn (A.erase i) al k = (membersIn A al k).erase i := by
  ext j; simp [membersIn]; tauto

theorem membersIn_erase_of_ne {A : Finset ℕ} {al : List ℕ} {k i c : ℕ}
    (h : al[i]? = some c) (hk : k ≠ c) :
    membersIn (A.erase i) al k = membersIn A al k := by
  rw [membersIn_erase, Finset.erase_eq_of_notMem]
  rw [mem_membersIn]; rintro ⟨_, h'⟩
  rw [h] at h'; exact hk (Option.some.inj h').symm

theorem membersIn_insert_set_eq {A : Finset ℕ} {al : List ℕ} {c i : ℕ}
    (hi : i ∉ A) (hl : i < al.length) :
    membersIn (insert i A) (al.set i c) c = insert i (membersIn A al c) := by
  ext j
  simp only [mem_membersIn, Finset.mem_insert, List.getElem?_set]
  by_cases hj : i = j
  · subst hj; simp [hl]
  · have hj' : ¬ j = i := fun h => hj h.symm
    simp [hj, hj']

theorem membersIn_insert_set_ne {A : Finset ℕ} {al : List ℕ} {c k i : ℕ}
    (hi : i ∉ A) (hl : i < al.length) (hk : k ≠ c) :
    membersIn (insert i A) (al.set i c) k = membersIn A al k := by
  ext j
  simp only [mem_membersIn, Finset.mem_insert, List.getElem?_set]
  by_cases hj : i = j
  · subst hj; simp [hl, hi, Ne.symm hk]
  · have hj' : ¬ j = i := fun h => hj h.symm
    simp [hj, hj']

section
variable [AddCommGroup G] {f : ℕ → G}

/-! ### detach -/

/-- After the removal of `i`, everything about the other rows is preserved. -/
structure Detached (f : ℕ → G) (A : Finset ℕ) (i : ℕ) (s s1 : Alg G H Θ) : Prop where
  cons : ConsistentOn f (A.erase i) s1
  len : s1.alloc.length = s.alloc.length
  hyp : s1.hyp = s.hyp
  noEmpty : NoEmptyOn A s → NoEmptyOn (A.erase i) s1
  co : ∀ j ∈ A.erase i, ∀ k ∈ A.erase i, together s1.alloc j k ↔ together s.alloc j k

/-- Relabelling done by `remove_singleton`. -/
def shiftDown (idx c : ℕ) : ℕ := if c > idx then c - 1 else c

theorem shiftDown_inj {idx a b : ℕ} (ha : a ≠ idx) (hb : b ≠ idx)
    (h : shiftDown idx a = shiftDown idx b) : a = b := by
  unfold shiftDown at h; split at h <;> split at h <;> omega

theorem removeSingleton_eq {s : Alg G H Θ} {c : ℕ} (hc : c < s.clus.length) :
    removeSingleton s c =
      .ok { s with alloc := s.alloc.map (shiftDown c), clus := s.clus.eraseIdx c } := by
  simp [removeSingleton, verase_ok hc, shiftDown]

theorem detach_removed {A : Finset ℕ} {s : Alg G H Θ} {i c : ℕ} {o o' : Hier G H Θ}
    (hc : ConsistentOn f A s) (hi : i ∈ A) (hl : s.alloc[i]? = some c)
    (ho : s.clus[c]? = some o) (h1 : 1 < o.card)
    (hcard : o'.card = o.card - 1) (hss : o'.ss = o.ss - f i) (hidx : o'.idx = o.idx.erase i) :
    Detached f A i s { s with clus := s.clus.set c o' } := by
  have hclt : c < s.clus.length := (List.getElem?_eq_some_iff.mp ho).1
  have him : i ∈ membersIn A s.alloc c := mem_membersIn.mpr ⟨hi, hl⟩
  constructor
  · constructor
    · intro j hj
      obtain ⟨c', h, h'⟩ := hc.labelled j (Finset.mem_of_mem_erase hj)
      exact ⟨c', h, by simpa using h'⟩
    · intro k p hp
      by_cases hk : c = k
      · subst hk
        simp [hclt] at hp; subst hp
        rw [hidx, hc.members _ _ ho, membersIn_erase]
      · simp [List.getElem?_set_ne hk] at hp
        rw [hc.members _ _ hp, membersIn_erase_of_ne hl (Ne.symm hk)]
    · intro k p hp
      by_cases hk : c = k
      · subst hk
        simp [hclt] at hp; subst hp
        rw [hcard, hc.cards _ _ ho, membersIn_erase, Finset.card_erase_of_mem him]
        have : 0 < (membersIn A s.alloc c).card := Finset.card_pos.mpr ⟨i, him⟩
        push_cast [Nat.cast_sub this]
        omega
      · simp [List.getElem?_set_ne hk] at hp
        rw [hc.cards _ _ hp, membersIn_erase_of_ne hl (Ne.symm hk)]
    · intro k p hp
      by_cases hk : c = k
      · subst hk
        simp [hclt] at hp; subst hp
        rw [hss, hc.stats _ _ ho, membersIn_erase, ← Finset.add_sum_erase _ _ him]
        abel
      · simp [List.getElem?_set_ne hk] at hp
        rw [hc.stats _ _ hp, membersIn_erase_of_ne hl (Ne.symm hk)]
  · rfl
  · rfl
  · intro hne k hk
    simp only [List.length_set] at hk
    by_cases hkc : k = c
    · subst hkc
      have hcd := hc.cards _ _ ho
      have : 1 < (membersIn A s.alloc k).card := by omega
      obtain ⟨j, hj, hji⟩ := Finset.exists_mem_ne this i
      exact ⟨j, by simp [hji, (mem_membersIn.mp hj).1], (mem_membersIn.mp hj).2⟩
    · obtain ⟨j, hj, hjk⟩ := hne k hk
      refine ⟨j, ?_, hjk⟩
      rw [Finset.mem_erase]
      refine ⟨?_, hj⟩
      rintro rfl
      rw [hl] at hjk; exact hkc (Option.some.inj hjk).symm
  · intro j _ k _; exact Iff.rfl

theorem detach_singleton {A : Finset ℕ} {s : Alg G H Θ} {i c : ℕ} {o : Hier G H Θ}
    (hc : ConsistentOn f A s) (hi : i ∈ A) (hl : s.alloc[i]? = some c)
    (ho : s.clus[c]? = some o) (h1 : o.card ≤ 1) :
    Detached f A i s { s with alloc := s.alloc.map (shiftDown c), clus := s.clus.eraseIdx c } := by
  have hclt : c < s.clus.length := (List.getElem?_eq_some_iff.mp ho).1
  have him : i ∈ membersIn A s.alloc c := mem_membersIn.mpr ⟨hi, hl⟩
  -- no other row carries label `c`
  have honly : ∀ j ∈ A.erase i, s.alloc[j]? ≠ some c := by
    intro j hj hjc
    have hcd := hc.cards _ _ ho
    have hle : (membersIn A s.alloc c).card ≤ 1 := by omega
    have := Finset.card_le_one.mp hle j
      (mem_membersIn.mpr ⟨Finset.mem_of_mem_erase hj, hjc⟩) i him
    exact (Finset.ne_of_mem_erase hj) this
  -- position of the surviving clusters
  have hmem : ∀ k k', k' ≠ c → k = shiftDown c k' →
      membersIn (A.erase i) (s.alloc.map (shiftDown c)) k = membersIn A s.alloc k' := by
    intro k k' hk' hk
    rw [← membersIn_erase_of_ne (A := A) hl hk']
    ext j
    simp only [mem_membersIn, List.getElem?_map, Option.map_eq_some_iff]
    constructor
    · rintro ⟨hj, a, ha, hak⟩
      refine ⟨hj, ?_⟩
      rw [ha]
      congr 1
      refine shiftDown_inj ?_ hk' (hak.trans hk)
      rintro rfl
      exact honly j hj ha
    · rintro ⟨hj, h⟩
      exact ⟨hj, k', h, hk.symm⟩
  have herase : ∀ k p, (s.clus.eraseIdx c)[k]? = some p →
      ∃ k', k' ≠ c ∧ k = shiftDown c k' ∧ s.clus[k']? = some p := by
    intro k p hp
    rw [List.getElem?_eraseIdx] at hp
    by_cases hkc : k < c
    · simp only [hkc, if_true] at hp
      exact ⟨k, by omega, by simp [shiftDown]; omega, hp⟩
    · simp only [hkc, if_false] at hp
      exact ⟨k + 1, by omega, by simp [shiftDown]; omega, hp⟩
  constructor
  · constructor
    · intro j hj
      obtain ⟨c', h, h'⟩ := hc.labelled j (Finset.mem_of_mem_erase hj)
      have hne : c' ≠ c := by
        rintro rfl
        exact honly j hj h
      refine ⟨shiftDown c c', by simp [h], ?_⟩
      simp only [List.length_eraseIdx, hclt, if_true, shiftDown]
      split <;> omega
    · intro k p hp
      obtain ⟨k', h1, h2, h3⟩ := herase k p hp
      rw [hc.members _ _ h3, hmem k k' h1 h2]
    · intro k p hp
      obtain ⟨k', h1, h2, h3⟩ := herase k p hp
      rw [hc.cards _ _ h3, hmem k k' h1 h2]
    · intro k p hp
      obtain ⟨k', h1, h2, h3⟩ := herase k p hp
      rw [hc.stats _ _ h3, hmem k k' h1 h2]
  · simp
  · rfl
  · intro hne k hk
    have hk2 : k < (s.clus.eraseIdx c).length := hk
    obtain ⟨k', h1, h2, h3⟩ := herase k _ (List.getElem?_eq_getElem hk2)
    obtain ⟨j, hj, hjk⟩ := hne k' (List.getElem?_eq_some_iff.mp h3).1
    refine ⟨j, ?_, by simp [hjk, h2]⟩
    rw [Finset.mem_erase]
    refine ⟨?_, hj⟩
    rintro rfl
    rw [hl] at hjk; exact h1 (Option.some.inj hjk).symm
  · intro j hj k hk
    obtain ⟨a, ha, _⟩ := hc.labelled j (Finset.mem_of_mem_erase hj)
    obtain ⟨b, hb, _⟩ := hc.labelled k (Finset.mem_of_mem_erase hk)
    have hac : a ≠ c := by rintro rfl; exact honly j hj ha
    have hbc : b ≠ c := by rintro rfl; exact honly k hk hb
    simp only [together, List.getElem?_map, ha, hb, Option.map_some, Option.some.injEq]
    exact ⟨shiftDown_inj hac hbc, fun h => by rw [h]⟩

/-- `detach` does not fault on a consistent state. -/
theorem detach_ok {E : Env G H Θ} {upd : Bool} {A : Finset ℕ} {s : Alg G H Θ} {i : ℕ}
    (hcs : CanSave E upd) (hc : ConsistentOn E.contrib A s) (hi : i ∈ A) :
    ∃ s1 c o, detach E upd s i = .ok (s1, o, decide (o.card ≤ 1)) ∧
      Detached E.contrib A i s s1 ∧ s.alloc[i]? = some c ∧ s.clus[c]? = some o ∧
      (o.card ≤ 1 → s1.clus = s.clus.eraseIdx c) ∧
      (¬ o.card ≤ 1 → s1.clus = s.clus.set c (o.removed E s.hyp upd i)) := by
  obtain ⟨c, hl, hlt⟩ := hc.labelled i hi
  have ho := List.getElem?_eq_getElem hlt
  set o := s.clus[c] with hodef
  have hio : i ∈ o.idx := by rw [hc.members c o ho]; exact mem_membersIn.mpr ⟨hi, hl⟩
  unfold detach
  by_cases h1 : o.card ≤ 1
  · refine ⟨_, c, o, ?_, detach_singleton hc hi hl ho h1, hl, ho, fun _ => rfl, fun h => absurd h1 h⟩
    simp [vget_ok hl, vget_ok ho, h1, removeSingleton_eq hlt]
  · refine ⟨_, c, o, ?_, detach_removed hc hi hl ho (by omega)
      (o' := o.removed E s.hyp upd i) rfl rfl rfl, hl, ho, fun h => absurd h h1, fun _ => rfl⟩
    simp [vget_ok hl, vget_ok ho, h1, Hier.removeDatum_eq hio hcs]

/-! ### attach -/

/-- After inserting `i` in cluster `c`. -/
structure Attached (f : ℕ → G) (A : Finset ℕ) (i c : ℕ) (s s' : Alg G H Θ) : Prop where
  cons : ConsistentOn f (insert i A) s'
  alloc : s'.alloc = s.alloc.set i c
  hyp : s'.hyp = s.hyp
  noEmpty : NoEmptyOn A s → NoEmptyOn (insert i A) s'

theorem attach_existing {A : Finset ℕ} {s : Alg G H Θ} {i c : ℕ} {o o' : Hier G H Θ}
    (hc : ConsistentOn f A s) (hi : i ∉ A) (hl : i < s.alloc.length)
    (ho : s.clus[c]? = some o)
    (hcard : o'.card = o.card + 1) (hss : o'.ss = o.ss + f i) (hidx : o'.idx = insert i o.idx) :
    Attached f A i c s { s with alloc := s.alloc.set i c, clus := s.clus.set c o' } := by
  have hclt : c < s.clus.length := (List.getElem?_eq_some_iff.mp ho).1
  have hnm : i ∉ membersIn A s.alloc c := fun h => hi (mem_membersIn.mp h).1
  refine ⟨⟨?_, ?_, ?_, ?_⟩, rfl, rfl, ?_⟩
  · intro j hj
    rcases eq_or_ne i j with rfl | hij
    · exact ⟨c, by simp [hl], by simpa using hclt⟩
    · have hjA : j ∈ A := (Finset.mem_insert.mp hj).resolve_left (Ne.symm hij)
      obtain ⟨c', h, h'⟩ := hc.labelled j hjA
      exact ⟨c', by simp [List.getElem?_set_ne hij, h], by simpa using h'⟩
  · intro k p hp
    by_cases hk : c = k
    · subst hk
      simp [hclt] at hp; subst hp
      rw [hidx, hc.members _ _ ho, membersIn_insert_set_eq hi hl]
    · simp [List.getElem?_set_ne hk] at hp
      rw [hc.members _ _ hp, membersIn_insert_set_ne hi hl (Ne.symm hk)]
  · intro k p hp
    by_cases hk : c = k
    · subst hk
      simp [hclt] at hp; subst hp
      rw [hcard, hc.cards _ _ ho, membersIn_insert_set_eq hi hl, Finset.card_insert_of_notMem hnm]
      push_cast; ring
    · simp [List.getElem?_set_ne hk] at hp
      rw [hc.cards _ _ hp, membersIn_insert_set_ne hi hl (Ne.symm hk)]
  · intro k p hp
    by_cases hk : c = k
    · subst hk
      simp [hclt] at hp; subst hp
      rw [hss, hc.stats _ _ ho, membersIn_insert_set_eq hi hl, Finset.sum_insert hnm, add_comm]
    · simp [List.getElem?_set_ne hk] at hp
      rw [hc.stats _ _ hp, membersIn_insert_set_ne hi hl (Ne.symm hk)]
  · intro hne k hk
    simp only [List.length_set] at hk
    obtain ⟨j, hj, hjk⟩ := hne k hk
    have hij : i ≠ j := by rintro rfl; exact hi hj
    exact ⟨j, Finset.mem_insert_of_mem hj, by simp [List.getElem?_set_ne hij, hjk]⟩

theorem attach_new {A : Finset ℕ} {s : Alg G H Θ} {i : ℕ} {o' : Hier G H Θ}
    (hc : ConsistentOn f A s) (hi : i ∉ A) (hl : i < s.alloc.length)
    (hcard : o'.card = 1) (hss : o'.ss = f i) (hidx : o'.idx = {i}) :
    Attached f A i s.clus.length s
      { s with alloc := s.alloc.set i s.clus.length, clus := s.clus ++ [o'] } := by
  -- nobody carried the new label before
  have hempty : membersIn A s.alloc s.clus.length = ∅ := by
    ext j
    simp only [mem_membersIn, Finset.notMem_empty, iff_false, not_and]
    intro hj hjc
    obtain ⟨c', h, h'⟩ := hc.labelled j hj
    rw [hjc] at h; have := Option.some.inj h; omega
  have hcase : ∀ k p, (s.clus ++ [o'])[k]? = some p →
      (k = s.clus.length ∧ p = o') ∨ (k ≠ s.clus.length ∧ s.clus[k]? = some p) := by
    intro k p hp
    by_cases hk : k < s.clus.length
    · rw [List.getElem?_append_left hk] at hp
      exact .inr ⟨by omega, hp⟩
    · rw [List.getElem?_append_right (by omega)] at hp
      have h0 : k - s.clus.length = 0 := by
        by_contra hne
        rw [List.getElem?_eq_none (by simp; omega)] at hp
        exact absurd hp (by simp)
      rw [h0] at hp
      simp at hp
      exact .inl ⟨by omega, hp.symm⟩
  refine ⟨⟨?_, ?_, ?_, ?_⟩, rfl, rfl, ?_⟩
  · intro j hj
    rcases eq_or_ne i j with rfl | hij
    · exact ⟨_, by simp [hl]; rfl, by simp⟩
    · have hjA : j ∈ A := (Finset.mem_insert.mp hj).resolve_left (Ne.symm hij)
      obtain ⟨c', h, h'⟩ := hc.labelled j hjA
      exact ⟨c', by simp [List.getElem?_set_ne hij, h], by simp; omega⟩
  · intro k p hp
    rcases hcase k p hp with ⟨rfl, rfl⟩ | ⟨hk, hp⟩
    · rw [hidx, membersIn_insert_set_eq hi hl, hempty]; rfl
    · rw [hc.members _ _ hp, membersIn_insert_set_ne hi hl hk]
  · intro k p hp
    rcases hcase k p hp with ⟨rfl, rfl⟩ | ⟨hk, hp⟩
    · rw [hcard, membersIn_insert_set_eq hi hl, hempty]; simp
    · rw [hc.cards _ _ hp, membersIn_insert_set_ne hi hl hk]
  · intro k p hp
    rcases hcase k p hp with ⟨rfl, rfl⟩ | ⟨hk, hp⟩
    · rw [hss, membersIn_insert_set_eq hi hl, hempty]; simp
    · rw [hc.stats _ _ hp, membersIn_insert_set_ne hi hl hk]
  · intro hne k hk
    simp only [List.length_append, List.length_singleton] at hk
    by_cases hkc : k = s.clus.length
    · exact ⟨i, Finset.mem_insert_self _ _, by simp [hl, hkc]⟩
    · obtain ⟨j, hj, hjk⟩ := hne k (by omega)
      have hij : i ≠ j := by rintro rfl; exact hi hj
      exact ⟨j, Finset.mem_insert_of_mem hj, by simp [List.getElem?_set_ne hij, hjk]⟩

end

end Bayesmix
