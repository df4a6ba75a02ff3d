import Verif.Algo.SplitMerge
import Verif.Alloc.Cache

/-! Lemmas for the split-merge sampler: moving rows between clusters. -/

namespace Bayesmix.SplitMerge

variable {G H Θ : Type} [AddCommGroup G]

/-- Taking row `x` out of its cluster. -/
theorem remove_cons {f : ℕ → G} {A : Finset ℕ} {s : Alg G H Θ} {x c : ℕ} {o o' : Hier G H Θ}
    (hc : ConsistentOn f A s) (hx : x ∈ A) (hl : s.alloc[x]? = some c) (ho : s.clus[c]? = some o)
    (hcard : o'.card = o.card - 1) (hss : o'.ss = o.ss - f x) (hidx : o'.idx = o.idx.erase x) :
    ConsistentOn f (A.erase x) { s with clus := s.clus.set c o' } := by
  have hclt : c < s.clus.length := (List.getElem?_eq_some_iff.mp ho).1
  have him : x ∈ membersIn A s.alloc c := mem_membersIn.mpr ⟨hx, hl⟩
  constructor
  · intro j hj
    obtain ⟨c', h, h'⟩ := hc.labelled j (Finset.mem_of_mem_erase hj)
    exact ⟨c', h, by simpa using h'⟩
  · intro k p hp
    by_cases hk : c = k
    · subst hk
      simp [hclt] at hp; subst hp
      rw [hidx, hc.members _ _ ho, membersIn_erase]
    · simp [List.getElem?_set_ne hk] at hp
      rw [hc.members _ _ hp, membersIn_erase_of_ne hl (Ne.symm hk)]
  · intro k p hp
    by_cases hk : c = k
    · subst hk
      simp [hclt] at hp; subst hp
      rw [hcard, hc.cards _ _ ho, membersIn_erase, Finset.card_erase_of_mem him]
      have : 0 < (membersIn A s.alloc c).card := Finset.card_pos.mpr ⟨x, him⟩
      push_cast [Nat.cast_sub this]
      omega
    · simp [List.getElem?_set_ne hk] at hp
      rw [hc.cards _ _ hp, membersIn_erase_of_ne hl (Ne.symm hk)]
  · intro k p hp
    by_cases hk : c = k
    · subst hk
      simp [hclt] at hp; subst hp
      rw [hss, hc.stats _ _ ho, membersIn_erase, ← Finset.add_sum_erase _ _ him]
      abel
    · simp [List.getElem?_set_ne hk] at hp
      rw [hc.stats _ _ hp, membersIn_erase_of_ne hl (Ne.symm hk)]

/-- What moving one row from cluster `a` to cluster `b` gives. -/
structure Moved (E : Env G H Θ) (n x a b : ℕ) (upd : Bool) (s s' : Alg G H Θ) : Prop where
  cons : Consistent E.contrib n s'
  alloc : s'.alloc = s.alloc.set x b
  hyp : s'.hyp = s.hyp
  clus : ∃ o p : Hier G H Θ, s.clus[a]? = some o ∧ s.clus[b]? = some p ∧
    s'.clus = (s.clus.set a (o.removed E s.hyp upd x)).set b (p.added E s.hyp upd x)

theorem move_one {E : Env G H Θ} {n x a b : ℕ} {upd : Bool} {s : Alg G H Θ}
    (hcs : CanSave E upd) (hc : Consistent E.contrib n s) (hx : x < n)
    (hl : s.alloc[x]? = some a) (hab : a ≠ b) (hb : b < s.clus.length) :
    ∃ o p s', s.clus[a]? = some o ∧ o.removeDatum E s.hyp upd x = .ok (o.removed E s.hyp upd x) ∧
      (s.clus.set a (o.removed E s.hyp upd x))[b]? = some p ∧
      p.addDatum E s.hyp upd x = .ok (p.added E s.hyp upd x) ∧ x < s.alloc.length ∧
      s' = { s with alloc := s.alloc.set x b, clus :=
        (s.clus.set a (o.removed E s.hyp upd x)).set b (p.added E s.hyp upd x) } ∧
      Moved E n x a b upd s s' := by
  have hxA : x ∈ Finset.range n := Finset.mem_range.mpr hx
  obtain ⟨a', hl', halt⟩ := hc.on.labelled x hxA
  rw [hl] at hl'; cases hl'
  have ho := List.getElem?_eq_getElem halt
  have hp := List.getElem?_eq_getElem hb
  obtain ⟨o, hoe⟩ : ∃ o, o = s.clus[a] := ⟨_, rfl⟩
  obtain ⟨p, hpe⟩ : ∃ p, p = s.clus[b] := ⟨_, rfl⟩
  rw [← hoe] at ho; rw [← hpe] at hp
  have hxo : x ∈ o.idx := by rw [hc.on.members a o ho]; exact mem_membersIn.mpr ⟨hxA, hl⟩
  have hxp : x ∉ p.idx := by
    rw [hc.on.members b p hp, mem_membersIn]; rintro ⟨-, h⟩
    rw [hl] at h; exact hab (Option.some.inj h)
  have hlen : x < s.alloc.length := by rw [hc.len]; exact hx
  have hp2 : (s.clus.set a (o.removed E s.hyp upd x))[b]? = some p := by
    rw [List.getElem?_set_ne hab, hp]
  have h1 := remove_cons (o' := o.removed E s.hyp upd x) hc.on hxA hl ho rfl rfl rfl
  have h2 := (attach_existing (o' := p.added E s.hyp upd x) h1 (by simp) hlen hp2 rfl rfl rfl).cons
  rw [erase_range_insert hx] at h2
  exact ⟨o, p, _, ho, Hier.removeDatum_eq hxo hcs, hp2, Hier.addDatum_eq hxp hcs, hlen, rfl,
    ⟨by simp [hc.len], h2⟩, rfl, rfl, o, p, ho, hp, rfl⟩

/-- What a whole move of rows `l` from cluster `a` to cluster `b` gives. -/
structure MovedAll (E : Env G H Θ) (n : ℕ) (l : List ℕ) (a b : ℕ) (s s' : Alg G H Θ) : Prop where
  cons : Consistent E.contrib n s'
  caches : CachesOk s → CachesOk s'
  hyp : s'.hyp = s.hyp
  len : s'.clus.length = s.clus.length
  alloc : ∀ x, s'.alloc[x]? = if x ∈ l then some b else s.alloc[x]?
  others : ∀ k, k ≠ a → k ≠ b → s'.clus[k]? = s.clus[k]?
  states : ∀ (k : ℕ) (o' : Hier G H Θ), s'.clus[k]? = some o' →
    ∃ o : Hier G H Θ, s.clus[k]? = some o ∧ o'.state = o.state
  fresh : ∀ (k : ℕ) (o' : Hier G H Θ), k = a ∨ k = b → s'.clus[k]? = some o' → o'.Fresh E s.hyp

theorem Moved.caches {E : Env G H Θ} {n x a b : ℕ} {upd : Bool} {s s' : Alg G H Θ}
    (h : Moved E n x a b upd s s') (hs : CachesOk s) : CachesOk s' := by
  obtain ⟨o, p, ho, hp, e⟩ := h.clus
  intro q hq
  rw [e] at hq
  rcases List.mem_or_eq_of_mem_set hq with hq | rfl
  · rcases List.mem_or_eq_of_mem_set hq with hq | rfl
    · exact hs q hq
    · exact Hier.cacheOk_removed (hs o (List.mem_of_getElem? ho))
  · exact Hier.cacheOk_added (hs p (List.mem_of_getElem? hp))

theorem Moved.len {E : Env G H Θ} {n x a b : ℕ} {upd : Bool} {s s' : Alg G H Θ}
    (h : Moved E n x a b upd s s') : s'.clus.length = s.clus.length := by
  obtain ⟨o, p, ho, hp, e⟩ := h.clus; rw [e]; simp

theorem Moved.others {E : Env G H Θ} {n x a b : ℕ} {upd : Bool} {s s' : Alg G H Θ}
    (h : Moved E n x a b upd s s') (k : ℕ) (ha : k ≠ a) (hb : k ≠ b) :
    s'.clus[k]? = s.clus[k]? := by
  obtain ⟨o, p, ho, hp, e⟩ := h.clus
  rw [e, List.getElem?_set_ne (Ne.symm hb), List.getElem?_set_ne (Ne.symm ha)]

theorem Moved.at {E : Env G H Θ} {n x a b : ℕ} {upd : Bool} {s s' : Alg G H Θ}
    (h : Moved E n x a b upd s s') (hab : a ≠ b) : ∃ o p : Hier G H Θ, s.clus[a]? = some o ∧
      s.clus[b]? = some p ∧ s'.clus[a]? = some (o.removed E s.hyp upd x) ∧
      s'.clus[b]? = some (p.added E s.hyp upd x) := by
  obtain ⟨o, p, ho, hp, e⟩ := h.clus
  refine ⟨o, p, ho, hp, ?_, ?_⟩
  · rw [e, List.getElem?_set_ne (Ne.symm hab)]
    simp [(List.getElem?_eq_some_iff.mp ho).1]
  · rw [e]; simp [(List.getElem?_eq_some_iff.mp hp).1]

theorem Moved.states {E : Env G H Θ} {n x a b : ℕ} {upd : Bool} {s s' : Alg G H Θ}
    (h : Moved E n x a b upd s s') (hab : a ≠ b) (k : ℕ) (o' : Hier G H Θ)
    (ho' : s'.clus[k]? = some o') :
    ∃ o : Hier G H Θ, s.clus[k]? = some o ∧ o'.state = o.state := by
  obtain ⟨o, p, ho, hp, ea, eb⟩ := h.at hab
  by_cases hka : k = a
  · subst hka; rw [ea] at ho'; cases ho'; exact ⟨o, ho, rfl⟩
  by_cases hkb : k = b
  · subst hkb; rw [eb] at ho'; cases ho'; exact ⟨p, hp, rfl⟩
  rw [h.others k hka hkb] at ho'; exact ⟨o', ho', rfl⟩

theorem set_getElem?_ite {al : List ℕ} {x b : ℕ} (hx : x < al.length) (y : ℕ) :
    (al.set x b)[y]? = if y = x then some b else al[y]? := by
  by_cases h : y = x
  · subst h; simp [hx]
  · rw [List.getElem?_set_ne (Ne.symm h), if_neg h]

/-- Split: rows `l` go from cluster `a` to cluster `b`. -/
theorem moveRows_split {E : Env G H Θ} (hk : E.kind ≠ .other) {n a b : ℕ} (second : ℕ)
    (hab : a ≠ b) (l : List ℕ) (hne : l ≠ []) (hnd : l.Nodup) (s : Alg G H Θ)
    (hc : Consistent E.contrib n s) (hl : ∀ x ∈ l, x < n ∧ s.alloc[x]? = some a)
    (hb : b < s.clus.length) :
    ∃ s', moveRows E true second a b l s = .ok s' ∧ MovedAll E n l a b s s' := by
  induction l generalizing s with
  | nil => exact absurd rfl hne
  | cons x l ih =>
    cases l with
    | nil =>
      obtain ⟨hx, hla⟩ := hl x (by simp)
      obtain ⟨o, p, s', ho, er, hp, ea, hlen, hs', hm⟩ :=
        move_one (upd := true) (fun _ => hk) hc hx hla hab hb
      refine ⟨s', ?_, hm.cons, hm.caches, hm.hyp, hm.len, ?_, hm.others, hm.states hab, ?_⟩
      · simp only [moveRows, if_true, vget_ok ho, ok_bind, er, vget_ok hp, ea, vset_ok hlen]
        rw [hs']
      · intro y
        rw [hm.alloc, set_getElem?_ite hlen]; simp
      · intro k o' hkab ho'
        obtain ⟨o, p, -, -, e1, e2⟩ := hm.at hab
        rcases hkab with rfl | rfl
        · rw [e1] at ho'; cases ho'; exact Hier.fresh_removed E s.hyp x o
        · rw [e2] at ho'; cases ho'; exact Hier.fresh_added E s.hyp x p
    | cons y l =>
      obtain ⟨hx, hla⟩ := hl x (by simp)
      obtain ⟨o, p, s1, ho, er, hp, ea, hlen, hs1, hm⟩ :=
        move_one (upd := false) (canSave_false E) hc hx hla hab hb
      have hxl : x ∉ y :: l := (List.nodup_cons.mp hnd).1
      have hl1 : ∀ z ∈ y :: l, z < n ∧ s1.alloc[z]? = some a := by
        intro z hz
        refine ⟨(hl z (by simp [hz])).1, ?_⟩
        rw [hm.alloc, set_getElem?_ite hlen, if_neg (by rintro rfl; exact hxl hz)]
        exact (hl z (List.mem_cons_of_mem _ hz)).2
      obtain ⟨s', e', h'⟩ := ih (by simp) (List.nodup_cons.mp hnd).2 s1 hm.cons hl1
        (by rw [hm.len]; exact hb)
      refine ⟨s', ?_, h'.cons, fun h => h'.caches (hm.caches h), by rw [h'.hyp, hm.hyp],
        by rw [h'.len, hm.len], ?_, ?_, ?_, ?_⟩
      · rw [moveRows]
        simp only [vget_ok ho, ok_bind, er, vget_ok hp, ea, vset_ok hlen]
        rw [← hs1]; exact e'
      · intro z
        rw [h'.alloc, hm.alloc, set_getElem?_ite hlen]
        by_cases hz : z = x
        · subst hz; rw [if_neg hxl]; simp
        · simp [hz]
      · intro k h1 h2; rw [h'.others k h1 h2, hm.others k h1 h2]
      · intro k o' ho'
        obtain ⟨q, hq, e1⟩ := h'.states k o' ho'
        obtain ⟨q', hq', e2⟩ := hm.states hab k q hq
        exact ⟨q', hq', by rw [e1, e2]⟩
      · intro k o' h1 h2
        have := h'.fresh k o' h1 h2
        rwa [hm.hyp] at this

/-- What a merge of cluster `a` into cluster `b` gives. -/
structure MergedAll (E : Env G H Θ) (n : ℕ) (l : List ℕ) (a b : ℕ) (s s' : Alg G H Θ) : Prop where
  cons : Consistent E.contrib n s'
  caches : CachesOk s → CachesOk s'
  hyp : s'.hyp = s.hyp
  len : s'.clus.length + 1 = s.clus.length
  alloc : ∀ x < n, s'.alloc[x]? =
    if x ∈ l then some (shiftDown a b) else (s.alloc[x]?).map (shiftDown a)
  others : ∀ k, k ≠ a → k ≠ b → s'.clus[shiftDown a k]? = s.clus[k]?
  state : ∀ o' : Hier G H Θ, s'.clus[shiftDown a b]? = some o' →
    ∃ o : Hier G H Θ, s.clus[b]? = some o ∧ o'.state = o.state
  fresh : ∀ o' : Hier G H Θ, s'.clus[shiftDown a b]? = some o' → o'.Fresh E s.hyp

theorem eraseIdx_shiftDown {α : Type} (l : List α) {a k : ℕ} (h : k ≠ a) :
    (l.eraseIdx a)[shiftDown a k]? = l[k]? := by
  unfold shiftDown
  by_cases hk : k > a
  · rw [if_pos hk, List.getElem?_eraseIdx_of_ge (by omega)]
    congr 1; omega
  · rw [if_neg hk, List.getElem?_eraseIdx_of_lt (by omega)]

theorem moveRows_merge {E : Env G H Θ} (hk : E.kind ≠ .other) {n a b second : ℕ}
    (hab : a ≠ b) (l : List ℕ) (hne : l ≠ []) (hnd : l.Nodup) (s : Alg G H Θ)
    (hc : Consistent E.contrib n s) (hl : ∀ x, x ∈ l ↔ x < n ∧ s.alloc[x]? = some a)
    (h2 : second < n) (hb : s.alloc[second]? = some b) :
    ∃ s', moveRows E false second a b l s = .ok s' ∧ MergedAll E n l a b s s' := by
  induction l generalizing s with
  | nil => exact absurd rfl hne
  | cons x l ih =>
    obtain ⟨hx, hla⟩ := (hl x).mp (by simp)
    have hxA : x ∈ Finset.range n := Finset.mem_range.mpr hx
    obtain ⟨b', hb', hblt⟩ := hc.on.labelled second (Finset.mem_range.mpr h2)
    rw [hb] at hb'; cases hb'
    obtain ⟨a', ha', halt⟩ := hc.on.labelled x hxA
    rw [hla] at ha'; cases ha'
    cases l with
    | nil =>
      have ho := List.getElem?_eq_getElem halt
      obtain ⟨o, hoe⟩ : ∃ o, o = s.clus[a] := ⟨_, rfl⟩
      rw [← hoe] at ho
      have hcard : o.card ≤ 1 := by
        rw [hc.on.cards a o ho]
        have : membersIn (Finset.range n) s.alloc a ⊆ {x} := by
          intro y hy
          have hy' := mem_membersIn.mp hy
          have := (hl y).mpr ⟨Finset.mem_range.mp hy'.1, hy'.2⟩
          simpa using this
        have := Finset.card_le_card this
        simp at this; exact_mod_cast this
      have hd := detach_singleton hc.on hxA hla ho hcard
      obtain ⟨s1, hs1⟩ : ∃ s1 : Alg G H Θ, s1 = { s with
        alloc := s.alloc.map (shiftDown a), clus := s.clus.eraseIdx a } := ⟨_, rfl⟩
      rw [← hs1] at hd
      have hb1 : s1.alloc[second]? = some (shiftDown a b) := by rw [hs1]; simp [hb]
      have hba : b ≠ a := Ne.symm hab
      have hbc : s1.clus[shiftDown a b]? = s.clus[b]? := by
        rw [hs1]; exact eraseIdx_shiftDown _ hba
      have hp := List.getElem?_eq_getElem hblt
      obtain ⟨p, hpe⟩ : ∃ p, p = s.clus[b] := ⟨_, rfl⟩
      rw [← hpe] at hp
      rw [hp] at hbc
      have hxp : x ∉ p.idx := by
        rw [hc.on.members b p hp, mem_membersIn]; rintro ⟨-, h⟩
        rw [hla] at h; exact hab (Option.some.inj h)
      have hlen : x < s1.alloc.length := by rw [hd.len, hc.len]; exact hx
      have hat := attach_existing (o' := p.added E s1.hyp true x) hd.cons (by simp) hlen hbc
        rfl rfl rfl
      have hcons := hat.cons
      rw [erase_range_insert hx] at hcons
      refine ⟨_, ?_, ⟨?_, hcons⟩, ?_, ?_, ?_, ?_, ?_, ?_, ?_⟩
      · simp only [moveRows, Bool.false_eq_true, if_false, removeSingleton_eq halt, ok_bind]
        rw [← hs1]
        have hb2 : (s.alloc.map (shiftDown a))[second]? = some (shiftDown a b) := by simp [hb]
        simp only [vget_ok hb2, ok_bind, vget_ok hbc,
          Hier.addDatum_eq (upd := true) hxp (fun _ => hk), vset_ok hlen]
      · simp [hs1, hc.len]
      · intro hca q hq
        rcases List.mem_or_eq_of_mem_set hq with hq | rfl
        · rw [hs1] at hq; exact hca q (List.mem_of_mem_eraseIdx hq)
        · exact Hier.cacheOk_added (hca p (List.mem_of_getElem? hp))
      · rw [hs1]
      · rw [hs1]; simp [List.length_eraseIdx, halt]; omega
      · intro y hy
        show (s1.alloc.set x _)[y]? = _
        rw [set_getElem?_ite hlen, hs1]
        simp
      · intro k hka hkb
        show (s1.clus.set _ _)[_]? = _
        have : shiftDown a b ≠ shiftDown a k :=
          fun e => hkb (shiftDown_inj hba hka e).symm
        rw [List.getElem?_set_ne this, hs1]
        exact eraseIdx_shiftDown _ hka
      · intro o' ho'
        have hlt := (List.getElem?_eq_some_iff.mp hbc).1
        simp [hlt] at ho'
        exact ⟨p, hp, by rw [← ho']; rfl⟩
      · intro o' ho'
        have hlt := (List.getElem?_eq_some_iff.mp hbc).1
        simp [hlt] at ho'
        rw [← ho', hs1]; exact Hier.fresh_added E s.hyp x p
    | cons y l =>
      obtain ⟨o, p, s1, ho, er, hp, ea, hlen, hs1, hm⟩ :=
        move_one (upd := false) (canSave_false E) hc hx hla hab hblt
      have hxl : x ∉ y :: l := (List.nodup_cons.mp hnd).1
      have hl1 : ∀ z, z ∈ y :: l ↔ z < n ∧ s1.alloc[z]? = some a := by
        intro z
        rw [hm.alloc, set_getElem?_ite hlen]
        by_cases hz : z = x
        · subst hz
          simp only [hxl, if_true, false_iff, not_and]
          intro _ h; exact hab (Option.some.inj h).symm
        · rw [if_neg hz, ← hl z]; simp [hz]
      have hb1 : s1.alloc[second]? = some b := by
        rw [hm.alloc, set_getElem?_ite hlen]
        split
        · rfl
        · exact hb
      obtain ⟨s', e', h'⟩ := ih (by simp) (List.nodup_cons.mp hnd).2 s1 hm.cons hl1 hb1
      refine ⟨s', ?_, h'.cons, fun h => h'.caches (hm.caches h), by rw [h'.hyp, hm.hyp],
        by rw [h'.len, hm.len], ?_, ?_, ?_, ?_⟩
      · rw [moveRows]
        simp only [vget_ok ho, ok_bind, er, vget_ok hp, ea, vset_ok hlen]
        rw [← hs1]; exact e'
      · intro z hz
        rw [h'.alloc z hz, hm.alloc, set_getElem?_ite hlen]
        by_cases hzx : z = x
        · subst hzx; rw [if_neg hxl]; simp
        · simp [hzx]
      · intro k h1 h2; rw [h'.others k h1 h2, hm.others k h1 h2]
      · intro o' ho'
        obtain ⟨q, hq, e1⟩ := h'.state o' ho'
        obtain ⟨q', hq', e2⟩ := hm.states hab b q hq
        exact ⟨q', hq', by rw [e1, e2]⟩
      · intro o' h1
        have := h'.fresh o' h1
        rwa [hm.hyp] at this

end Bayesmix.SplitMerge
