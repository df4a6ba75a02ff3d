import Verif.Alloc.InitLemmas

/-! Freshness of the cached posterior hyperparameters. -/

namespace Bayesmix

variable {G H Θ : Type} [AddCommGroup G]

/-- The cache holds the posterior hypers of the object's own data. -/
def Hier.Fresh (E : Env G H Θ) (h : H) (o : Hier G H Θ) : Prop :=
  o.saved = true ∧ o.ph = some (E.post h o.card o.ss)

theorem Hier.fresh_added (E : Env G H Θ) (h : H) (i : ℕ) (o : Hier G H Θ) :
    (o.added E h true i).Fresh E h := by simp [Fresh, added]

theorem Hier.fresh_removed (E : Env G H Θ) (h : H) (i : ℕ) (o : Hier G H Θ) :
    (o.removed E h true i).Fresh E h := by simp [Fresh, removed]

/-- A draw keeps the cache fresh. -/
theorem Hier.fresh_draw {E : Env G H Θ} {h h' : H} {upd : Bool} {r : ℕ} {o o' : Hier G H Θ}
    (hf : o.Fresh E h) (e : o.sampleFullCond E h' upd r = .ok o') : o'.Fresh E h := by
  have hc : o.CacheOk := fun _ => by rw [hf.2]; rfl
  obtain ⟨q, e', h1, h2, h3, h4, -, h6⟩ := o.sampleFullCond_ok E h' upd r hc
  rw [e] at e'; cases e'
  refine ⟨by rw [h4, hf.1], ?_⟩
  rw [h6 hf.1, hf.2, h1, h3]

/-- A draw with a fresh cache, or with no cache at all, uses the posterior of the
object's own data. -/
theorem Hier.draw_posterior {E : Env G H Θ} {h : H} {upd : Bool} {r : ℕ} {o o' : Hier G H Θ}
    (hk : E.kind ≠ .other) (h0 : o.card ≠ 0) (hf : o.Fresh E h ∨ o.saved = false)
    (e : o.sampleFullCond E h upd r = .ok o') : o'.state = E.sample (E.post h o.card o.ss) r := by
  unfold sampleFullCond at e
  simp only [hk, h0, if_false] at e
  rcases hf with hf | hf
  · simp [getPosterior, hf.1, hf.2] at e
    rw [← e]
  · cases upd <;> simp [getPosterior, hf] at e <;> rw [← e]

/-- Each object after `neal2Datum` (with `upd = true`) is fresh or an untouched old one. -/
theorem neal3Datum_objs {E : Env G H Θ} {n : ℕ} {s s' : Alg G H Θ} {i rc rd : ℕ}
    (hk : E.kind ≠ .other) (hc : Consistent E.contrib n s) (hi : i < n)
    (e : neal2Datum E true s i rc rd = .ok s') :
    ∀ o ∈ s'.clus, o.Fresh E s.hyp ∨ (o ∈ s.clus ∧ i ∉ o.idx) := by
  have hcs : CanSave E true := fun _ => hk
  have hiA : i ∈ Finset.range n := Finset.mem_range.mpr hi
  obtain ⟨s1, c, o, hdet, hd, hl, ho, hsing, hrem⟩ := detach_ok hcs hc.on hiA
  have h1 : ∀ p ∈ s1.clus, p.Fresh E s.hyp ∨ (p ∈ s.clus ∧ i ∉ p.idx) := by
    intro p hp
    have hnot : i ∉ p.idx := by
      obtain ⟨k, hk⟩ := List.getElem?_of_mem hp
      rw [hd.cons.members k p hk, mem_membersIn]; simp
    by_cases h : o.card ≤ 1
    · rw [hsing h] at hp
      exact .inr ⟨List.mem_of_mem_eraseIdx hp, hnot⟩
    · rw [hrem h] at hp
      rcases List.mem_or_eq_of_mem_set hp with hp | rfl
      · exact .inr ⟨hp, hnot⟩
      · exact .inl (Hier.fresh_removed E s.hyp i o)
  simp only [neal2Datum, hdet, ok_bind] at e
  cases hfirst : vget s1.clus 0 with
  | error x => rw [hfirst] at e; simp at e
  | ok first =>
    rw [hfirst, ok_bind, categorical_ok _ (Nat.succ_pos _), ok_bind] at e
    by_cases hnew : rc % (s1.clus.length + 1) = s1.clus.length
    · simp only [hnew, if_true] at e
      rw [Hier.addDatum_eq (by simp [Hier.clone]) hcs, ok_bind] at e
      cases hdraw : (first.clone.added E s1.hyp true i).sampleFullCond E s1.hyp (!true) rd with
      | error x => rw [hdraw] at e; simp at e
      | ok q =>
        rw [hdraw, ok_bind] at e
        have hq : q.Fresh E s1.hyp := Hier.fresh_draw (Hier.fresh_added E s1.hyp i _) hdraw
        cases hv : vset s1.alloc i ((s1.clus ++ [q]).length - 1) with
        | error x => rw [hv] at e; simp at e
        | ok al =>
          rw [hv, ok_bind] at e
          cases e
          intro p hp
          simp only [List.mem_append, List.mem_singleton] at hp
          rcases hp with hp | rfl
          · exact h1 p hp
          · rw [← hd.hyp]; exact .inl hq
    · simp only [hnew, if_false, attach] at e
      cases hv : vset s1.alloc i (rc % (s1.clus.length + 1)) with
      | error x => rw [hv] at e; simp at e
      | ok al =>
        rw [hv, ok_bind] at e
        cases hg : vget s1.clus (rc % (s1.clus.length + 1)) with
        | error x => rw [hg] at e; simp at e
        | ok p0 =>
          rw [hg, ok_bind] at e
          have hp0 : p0 ∈ s1.clus := by
            unfold vget at hg
            split at hg
            · rename_i a ha; cases hg; exact List.mem_of_getElem? ha
            · cases hg
          have hnot : i ∉ p0.idx := by
            obtain ⟨k, hk⟩ := List.getElem?_of_mem hp0
            rw [hd.cons.members k p0 hk, mem_membersIn]; simp
          rw [Hier.addDatum_eq hnot hcs, ok_bind] at e
          cases e
          intro p hp
          rcases List.mem_or_eq_of_mem_set hp with hp | rfl
          · exact h1 p hp
          · rw [← hd.hyp]; exact .inl (Hier.fresh_added E s1.hyp i p0)

/-- After the whole sweep of Neal3, whatever the caches were before, all caches are
fresh for the current hyperparameters. -/
theorem neal3Allocations_fresh {E : Env G H Θ} {n : ℕ} {s : Alg G H Θ} (ω : ℕ → ℕ × ℕ)
    (hn : 2 ≤ n) (hk : E.kind ≠ .other) (hs : MarginalOk E.contrib n s) :
    ∃ s', neal2Allocations E true n ω s = .ok s' ∧ MarginalOk E.contrib n s' ∧ s'.hyp = s.hyp ∧
      ∀ o ∈ s'.clus, o.Fresh E s.hyp := by
  obtain ⟨s', e, h1, h2, h3⟩ := foldlM_range_inv
    (fun s i => neal2Datum E true s i (ω i).1 (ω i).2)
    (fun i s' => MarginalOk E.contrib n s' ∧ s'.hyp = s.hyp ∧
      ∀ o ∈ s'.clus, (∃ j < i, j ∈ o.idx) → o.Fresh E s.hyp) n (by
      rintro i t hi ⟨h1, h2, h3⟩
      obtain ⟨t', e, hr, hne⟩ :=
        neal2Datum_ok (ω i).1 (ω i).2 hn (fun _ => hk) h1.cons h1.noEmpty h1.caches hi
      refine ⟨t', e, ⟨hr.cons, hne, hr.caches⟩, by rw [hr.hyp, h2], ?_⟩
      intro o ho hj
      rcases neal3Datum_objs hk h1.cons hi e o ho with hf | ⟨hm, hni⟩
      · rw [← h2]; exact hf
      · obtain ⟨j, hj1, hj2⟩ := hj
        refine h3 o hm ⟨j, ?_, hj2⟩
        rcases Nat.lt_succ_iff_lt_or_eq.mp hj1 with h | rfl
        · exact h
        · exact absurd hj2 hni) s ⟨hs, rfl, by rintro o - ⟨j, hj, -⟩; omega⟩
  refine ⟨s', e, h1, h2, ?_⟩
  intro o ho
  obtain ⟨k, hk'⟩ := List.getElem?_of_mem ho
  obtain ⟨j, hj, hjk⟩ := h1.noEmpty k (List.getElem?_eq_some_iff.mp hk').1
  refine h3 o ho ⟨j, by simpa using hj, ?_⟩
  rw [h1.cons.on.members k o hk', mem_membersIn]
  exact ⟨hj, hjk⟩

/-- With fresh caches everywhere, processing the first `i` rows keeps them fresh. -/
theorem neal3Prefix_fresh {E : Env G H Θ} {n : ℕ} {s : Alg G H Θ} (ω : ℕ → ℕ × ℕ) (i : ℕ)
    (hi : i ≤ n) (hn : 2 ≤ n) (hk : E.kind ≠ .other) (hs : MarginalOk E.contrib n s)
    (hf : ∀ o ∈ s.clus, o.Fresh E s.hyp) :
    ∃ s', neal2Allocations E true i ω s = .ok s' ∧ MarginalOk E.contrib n s' ∧ s'.hyp = s.hyp ∧
      ∀ o ∈ s'.clus, o.Fresh E s.hyp := by
  refine foldlM_range_inv (fun s i => neal2Datum E true s i (ω i).1 (ω i).2)
    (fun _ s' => MarginalOk E.contrib n s' ∧ s'.hyp = s.hyp ∧ ∀ o ∈ s'.clus, o.Fresh E s.hyp)
    i ?_ s ⟨hs, rfl, hf⟩
  rintro j t hj ⟨h1, h2, h3⟩
  obtain ⟨t', e, hr, hne⟩ :=
    neal2Datum_ok (i := j) (ω j).1 (ω j).2 hn (fun _ => hk) h1.cons h1.noEmpty h1.caches (by omega)
  refine ⟨t', e, ⟨hr.cons, hne, hr.caches⟩, by rw [hr.hyp, h2], ?_⟩
  intro o ho
  rcases neal3Datum_objs (i := j) hk h1.cons (by omega) e o ho with hf | ⟨hm, -⟩
  · rw [← h2]; exact hf
  · exact h3 o hm

/-! ### Neal2: only the object handed in by the user has a saved posterior -/

/-- Number of objects flagged as having saved posterior hypers. -/
def savedCount (s : Alg G H Θ) : ℕ := s.clus.countP (·.saved)

theorem countP_set_same {α : Type} (p : α → Bool) (l : List α) (c : ℕ) (a b : α)
    (ha : l[c]? = some a) (hb : p b = p a) : (l.set c b).countP p = l.countP p := by
  induction l generalizing c with
  | nil => simp at ha
  | cons x l ih =>
    cases c with
    | zero =>
      simp at ha; subst ha
      simp [List.countP_cons, hb]
    | succ c =>
      simp at ha
      simp [List.countP_cons, ih c ha]

theorem neal2Datum_saved {E : Env G H Θ} {n : ℕ} {s s' : Alg G H Θ} {i rc rd : ℕ}
    (hc : Consistent E.contrib n s) (hca : CachesOk s) (hi : i < n)
    (e : neal2Datum E false s i rc rd = .ok s') : savedCount s' ≤ savedCount s := by
  have hcs := canSave_false E
  have hiA : i ∈ Finset.range n := Finset.mem_range.mpr hi
  obtain ⟨s1, c, o, hdet, hd, hl, ho, hsing, hrem⟩ := detach_ok hcs hc.on hiA
  have h1 : savedCount s1 ≤ savedCount s := by
    unfold savedCount
    by_cases h : o.card ≤ 1
    · rw [hsing h]; exact (List.eraseIdx_sublist _ _).countP_le
    · rw [hrem h, countP_set_same _ _ _ _ _ ho (by simp [Hier.removed])]
  refine le_trans ?_ h1
  simp only [neal2Datum, hdet, ok_bind] at e
  cases hfirst : vget s1.clus 0 with
  | error x => rw [hfirst] at e; simp at e
  | ok first =>
    rw [hfirst, ok_bind, categorical_ok _ (Nat.succ_pos _), ok_bind] at e
    by_cases hnew : rc % (s1.clus.length + 1) = s1.clus.length
    · simp only [hnew, if_true] at e
      rw [Hier.addDatum_eq (by simp [Hier.clone]) hcs, ok_bind] at e
      obtain ⟨q, hdraw, -, -, -, hsv, -, -⟩ :=
        (first.clone.added E s1.hyp false i).sampleFullCond_ok E s1.hyp (!false) rd
        (Hier.cacheOk_added (Hier.cacheOk_clone _))
      rw [hdraw, ok_bind] at e
      cases hv : vset s1.alloc i ((s1.clus ++ [q]).length - 1) with
      | error x => rw [hv] at e; simp at e
      | ok al =>
        rw [hv, ok_bind] at e
        cases e
        have : q.saved = false := by rw [hsv]; simp [Hier.added, Hier.clone]
        simp [savedCount, List.countP_append, this]
    · simp only [hnew, if_false, attach] at e
      cases hv : vset s1.alloc i (rc % (s1.clus.length + 1)) with
      | error x => rw [hv] at e; simp at e
      | ok al =>
        rw [hv, ok_bind] at e
        cases hg : s1.clus[rc % (s1.clus.length + 1)]? with
        | none => simp [vget, hg] at e
        | some p0 =>
          rw [vget_ok hg, ok_bind] at e
          have hnot : i ∉ p0.idx := by
            rw [hd.cons.members _ p0 hg, mem_membersIn]; simp
          rw [Hier.addDatum_eq hnot hcs, ok_bind] at e
          cases e
          simp only [savedCount]
          rw [countP_set_same _ _ _ _ _ hg (by simp [Hier.added])]

theorem neal2Allocations_saved {E : Env G H Θ} {n : ℕ} {s s' : Alg G H Θ} {ω : ℕ → ℕ × ℕ}
    (hn : 2 ≤ n) (hs : MarginalOk E.contrib n s) (e : neal2Allocations E false n ω s = .ok s') :
    savedCount s' ≤ savedCount s := by
  obtain ⟨t, e', -, h⟩ := foldlM_range_inv
    (fun s i => neal2Datum E false s i (ω i).1 (ω i).2)
    (fun _ s' => MarginalOk E.contrib n s' ∧ savedCount s' ≤ savedCount s) n (by
      rintro i t hi ⟨h1, h2⟩
      obtain ⟨t', e, hr, hne⟩ :=
        neal2Datum_ok (ω i).1 (ω i).2 hn (canSave_false E) h1.cons h1.noEmpty h1.caches hi
      exact ⟨t', e, ⟨hr.cons, hne, hr.caches⟩,
        le_trans (neal2Datum_saved h1.cons h1.caches hi e) h2⟩) s ⟨hs, le_rfl⟩
  have : neal2Allocations E false n ω s = .ok t := e'
  rw [e] at this; cases this
  exact h

/-- Two saved objects cannot sit at different positions when the count is at most one. -/
theorem saved_unique {s : Alg G H Θ} (h : savedCount s ≤ 1) :
    ∃ k0, ∀ (k : ℕ) (o : Hier G H Θ), k ≠ k0 → s.clus[k]? = some o → o.saved = false := by
  unfold savedCount at h
  generalize s.clus = l at h
  induction l with
  | nil => exact ⟨0, by simp⟩
  | cons x l ih =>
    by_cases hx : x.saved = true
    · refine ⟨0, ?_⟩
      rw [List.countP_cons_of_pos (by simpa using hx)] at h
      have h0 : l.countP (·.saved) = 0 := by omega
      rw [List.countP_eq_zero] at h0
      intro k o hk ho
      cases k with
      | zero => exact absurd rfl hk
      | succ k =>
        simp at ho
        simpa using h0 o (List.mem_of_getElem? ho)
    · rw [List.countP_cons_of_neg (by simpa using hx)] at h
      obtain ⟨k0, hk0⟩ := ih h
      refine ⟨k0 + 1, ?_⟩
      intro k o hk ho
      cases k with
      | zero => simp at ho; subst ho; simpa using hx
      | succ k => simp at ho; exact hk0 k o (by omega) ho

end Bayesmix
