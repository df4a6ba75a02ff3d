import Verif.Alloc.Lemmas

/-! Loop lemmas for the Gibbs samplers: one observation, one sweep, one iteration. -/

namespace Bayesmix

variable {G H Θ : Type} [AddCommGroup G]

/-- All objects have a posterior stored if they are flagged so. -/
def CachesOk (s : Alg G H Θ) : Prop := ∀ o ∈ s.clus, o.CacheOk

theorem Hier.cacheOk_removed {E : Env G H Θ} {h : H} {upd : Bool} {i : ℕ} {o : Hier G H Θ}
    (ho : o.CacheOk) : (o.removed E h upd i).CacheOk := by
  cases upd <;> simp [CacheOk, removed] at *
  exact ho

theorem Hier.cacheOk_added {E : Env G H Θ} {h : H} {upd : Bool} {i : ℕ} {o : Hier G H Θ}
    (ho : o.CacheOk) : (o.added E h upd i).CacheOk := by
  cases upd <;> simp [CacheOk, added] at *
  exact ho

theorem Hier.cacheOk_clone (o : Hier G H Θ) : (o.clone).CacheOk := by simp [CacheOk, clone]

/-- What one re-allocation does: the state stays good and the others keep company. -/
structure Realloc (f : ℕ → G) (n i : ℕ) (s s' : Alg G H Θ) : Prop where
  cons : Consistent f n s'
  hyp : s'.hyp = s.hyp
  caches : CachesOk s'
  co : ∀ j < n, ∀ k < n, j ≠ i → k ≠ i → (together s'.alloc j k ↔ together s.alloc j k)

theorem mem_of_eraseIdx {α : Type} {l : List α} {c : ℕ} {a : α} (h : a ∈ l.eraseIdx c) : a ∈ l :=
  List.mem_of_mem_eraseIdx h

theorem caches_detach {E : Env G H Θ} {upd : Bool} {s s1 : Alg G H Θ} {i c : ℕ} {o : Hier G H Θ}
    (hs : CachesOk s) (ho : s.clus[c]? = some o)
    (h1 : o.card ≤ 1 → s1.clus = s.clus.eraseIdx c)
    (h2 : ¬ o.card ≤ 1 → s1.clus = s.clus.set c (o.removed E s.hyp upd i)) : CachesOk s1 := by
  intro p hp
  by_cases h : o.card ≤ 1
  · rw [h1 h] at hp
    exact hs p (List.mem_of_mem_eraseIdx hp)
  · rw [h2 h] at hp
    rcases List.mem_or_eq_of_mem_set hp with hp | rfl
    · exact hs p hp
    · exact Hier.cacheOk_removed (hs o (List.mem_of_getElem? ho))

theorem erase_range_insert {n i : ℕ} (hi : i < n) :
    insert i ((Finset.range n).erase i) = Finset.range n :=
  Finset.insert_erase (Finset.mem_range.mpr hi)

theorem together_set {al : List ℕ} {i c j k : ℕ} (hj : j ≠ i) (hk : k ≠ i) :
    together (al.set i c) j k ↔ together al j k := by
  simp [together, List.getElem?_set_ne hj.symm, List.getElem?_set_ne hk.symm]

theorem realloc_of {f : ℕ → G} {n i c : ℕ} {s s1 s' : Alg G H Θ} (hi : i < n)
    (hlen : s.alloc.length = n) (hd : Detached f (Finset.range n) i s s1)
    (ha : Attached f ((Finset.range n).erase i) i c s1 s') (hca : CachesOk s') :
    Realloc f n i s s' := by
  refine ⟨⟨?_, ?_⟩, ?_, hca, ?_⟩
  · rw [ha.alloc]; simp [hd.len, hlen]
  · have := ha.cons; rwa [erase_range_insert hi] at this
  · rw [ha.hyp, hd.hyp]
  · intro j hj k hk hji hki
    rw [ha.alloc, together_set hji hki]
    exact hd.co j (by simp [hji, hj]) k (by simp [hki, hk])

theorem noEmpty_of {f : ℕ → G} {n i c : ℕ} {s s1 s' : Alg G H Θ} (hi : i < n)
    (hd : Detached f (Finset.range n) i s s1)
    (ha : Attached f ((Finset.range n).erase i) i c s1 s') (hne : NoEmptyOn (Finset.range n) s) :
    NoEmptyOn (Finset.range n) s' := by
  have := ha.noEmpty (hd.noEmpty hne)
  rwa [erase_range_insert hi] at this

/-- Successful `attach`. -/
theorem attach_ok {E : Env G H Θ} {upd : Bool} {A : Finset ℕ} {s : Alg G H Θ} {i c : ℕ}
    (hcs : CanSave E upd) (hc : ConsistentOn E.contrib A s) (hi : i ∉ A)
    (hl : i < s.alloc.length) (hclt : c < s.clus.length) (hca : CachesOk s) :
    ∃ s' o, attach E upd s i c = .ok s' ∧ Attached E.contrib A i c s s' ∧ CachesOk s' ∧
      s.clus[c]? = some o ∧ s'.clus = s.clus.set c (o.added E s.hyp upd i) := by
  have ho := List.getElem?_eq_getElem hclt
  set o := s.clus[c] with hodef
  have hnm : i ∉ o.idx := by
    rw [hc.members c o ho]; exact fun h => hi (mem_membersIn.mp h).1
  refine ⟨_, o, ?_, attach_existing (o' := o.added E s.hyp upd i) hc hi hl ho rfl rfl rfl, ?_, ho, rfl⟩
  · simp [attach, vset_ok hl, vget_ok ho, Hier.addDatum_eq hnm hcs]
  · intro p hp
    rcases List.mem_or_eq_of_mem_set hp with hp | rfl
    · exact hca p hp
    · exact Hier.cacheOk_added (hca o (List.mem_of_getElem? ho))

/-- One observation of Neal2/Neal3. -/
theorem neal2Datum_ok {E : Env G H Θ} {upd : Bool} {n : ℕ} {s : Alg G H Θ} {i : ℕ} (rc rd : ℕ)
    (hn : 2 ≤ n) (hcs : CanSave E upd) (hc : Consistent E.contrib n s)
    (hne : NoEmptyOn (Finset.range n) s) (hca : CachesOk s) (hi : i < n) :
    ∃ s', neal2Datum E upd s i rc rd = .ok s' ∧ Realloc E.contrib n i s s' ∧
      NoEmptyOn (Finset.range n) s' := by
  have hiA : i ∈ Finset.range n := Finset.mem_range.mpr hi
  obtain ⟨s1, c, o, hdet, hd, hl, ho, hsing, hrem⟩ := detach_ok hcs hc.on hiA
  have hca1 : CachesOk s1 := caches_detach hca ho hsing hrem
  have hlen1 : i < s1.alloc.length := by rw [hd.len, hc.len]; exact hi
  have hnotin : i ∉ (Finset.range n).erase i := by simp
  -- there is another observation, hence a first cluster
  have hpos : 0 < s1.clus.length := by
    obtain ⟨j, hjn, hji⟩ : ∃ j, j < n ∧ j ≠ i := by
      by_cases h : i = 0
      · exact ⟨1, by omega, by omega⟩
      · exact ⟨0, by omega, by omega⟩
    obtain ⟨c', _, h'⟩ := hd.cons.labelled j (by simp [hji, hjn])
    omega
  have hfirst := List.getElem?_eq_getElem hpos
  set first := s1.clus[0] with hf
  have hstart : neal2Datum E upd s i rc rd =
      (do
        let cNew ← categorical (s1.clus.length + 1) rc
        if cNew = s1.clus.length then
          let o ← first.clone.addDatum E s1.hyp upd i
          let o ← o.sampleFullCond E s1.hyp (!upd) rd
          let cl := s1.clus ++ [o]
          let al ← vset s1.alloc i (cl.length - 1)
          .ok { s1 with alloc := al, clus := cl }
        else
          attach E upd s1 i cNew) := by
    simp only [neal2Datum, hdet, ok_bind, vget_ok hfirst]
  rw [hstart, categorical_ok _ (Nat.succ_pos _), ok_bind]
  by_cases hnew : rc % (s1.clus.length + 1) = s1.clus.length
  · simp only [hnew, if_true]
    have hnm : i ∉ first.clone.idx := by simp [Hier.clone]
    rw [Hier.addDatum_eq hnm hcs, ok_bind]
    obtain ⟨o', ho', hc1, hc2, hc3, -, hc5, -⟩ :=
      (first.clone.added E s1.hyp upd i).sampleFullCond_ok E s1.hyp (!upd) rd
        (Hier.cacheOk_added (Hier.cacheOk_clone _))
    rw [ho', ok_bind]
    simp only [List.length_append, List.length_singleton, Nat.add_sub_cancel,
      vset_ok hlen1, ok_bind]
    have ha := attach_new (o' := o') hd.cons hnotin hlen1
      (by rw [hc1]; simp [Hier.added, Hier.clone])
      (by rw [hc3]; simp [Hier.added, Hier.clone])
      (by rw [hc2]; simp [Hier.added, Hier.clone])
    refine ⟨_, rfl, realloc_of hi hc.len hd ha ?_, noEmpty_of hi hd ha hne⟩
    intro p hp
    simp only [List.mem_append, List.mem_singleton] at hp
    rcases hp with hp | rfl
    · exact hca1 p hp
    · exact hc5
  · simp only [hnew, if_false]
    have hlt : rc % (s1.clus.length + 1) < s1.clus.length := by
      exact lt_of_le_of_ne (Nat.lt_succ_iff.mp (Nat.mod_lt rc (Nat.succ_pos _))) hnew
    obtain ⟨s', _, hs', ha, hca', -, -⟩ := attach_ok hcs hd.cons hnotin hlen1 hlt hca1
    exact ⟨s', hs', realloc_of hi hc.len hd ha hca', noEmpty_of hi hd ha hne⟩

/-- `drawAll` only changes the states (and caches). -/
theorem drawAll_ok (E : Env G H Θ) (h : H) (upd : Bool) (r : ℕ → ℕ) (j : ℕ)
    (l : List (Hier G H Θ)) (hc : ∀ o ∈ l, o.CacheOk) :
    ∃ l' : List (Hier G H Θ), drawAll E h upd r j l = .ok l' ∧ l'.length = l.length ∧ (∀ o ∈ l', o.CacheOk) ∧
      ∀ (k : ℕ) (o' : Hier G H Θ), l'[k]? = some o' → ∃ o : Hier G H Θ, l[k]? = some o ∧
        o.sampleFullCond E h upd (r (j + k)) = .ok o' ∧
        o'.card = o.card ∧ o'.idx = o.idx ∧ o'.ss = o.ss ∧ o'.saved = o.saved := by
  induction l generalizing j with
  | nil => exact ⟨[], rfl, rfl, by simp, by simp⟩
  | cons o os ih =>
    obtain ⟨o', h1, h2, h3, h4, h5, h6, -⟩ :=
      o.sampleFullCond_ok E h upd (r j) (hc o (by simp))
    obtain ⟨os', g1, g2, g3, g4⟩ := ih (j + 1) (fun p hp => hc p (by simp [hp]))
    refine ⟨o' :: os', by simp [drawAll, h1, g1], by simp [g2], ?_, ?_⟩
    · intro p hp
      rcases List.mem_cons.mp hp with rfl | hp
      · exact h6
      · exact g3 p hp
    · intro k p hp
      cases k with
      | zero =>
        simp at hp; subst hp
        exact ⟨o, by simp, by simpa using h1, h2, h3, h4, h5⟩
      | succ k =>
        simp at hp
        obtain ⟨q, hq, hrest⟩ := g4 k p hp
        refine ⟨q, by simpa using hq, ?_, hrest.2⟩
        have : j + (k + 1) = j + 1 + k := by omega
        rw [this]; exact hrest.1

/-- Consistency only looks at labels, cardinalities, index sets and statistics. -/
theorem consistentOn_congr {f : ℕ → G} {A : Finset ℕ} {s s' : Alg G H Θ}
    (hc : ConsistentOn f A s) (ha : s'.alloc = s.alloc) (hlen : s'.clus.length = s.clus.length)
    (h : ∀ (k : ℕ) (o' : Hier G H Θ), s'.clus[k]? = some o' → ∃ o : Hier G H Θ, s.clus[k]? = some o ∧
      o'.card = o.card ∧ o'.idx = o.idx ∧ o'.ss = o.ss) : ConsistentOn f A s' := by
  constructor
  · intro i hi; rw [ha, hlen]; exact hc.labelled i hi
  · intro k o' ho'
    obtain ⟨o, ho, -, h2, -⟩ := h k o' ho'
    rw [h2, ha, hc.members k o ho]
  · intro k o' ho'
    obtain ⟨o, ho, h1, -, -⟩ := h k o' ho'
    rw [h1, ha, hc.cards k o ho]
  · intro k o' ho'
    obtain ⟨o, ho, -, -, h3⟩ := h k o' ho'
    rw [h3, ha, hc.stats k o ho]

/-- `sampleUniqueValues` preserves everything but the unique values. -/
theorem sampleUniqueValues_ok {E : Env G H Θ} {upd : Bool} {r : ℕ → ℕ} {n : ℕ} {s : Alg G H Θ}
    (hc : Consistent E.contrib n s) (hca : CachesOk s) :
    ∃ s' : Alg G H Θ, sampleUniqueValues E upd r s = .ok s' ∧ Consistent E.contrib n s' ∧ CachesOk s' ∧
      s'.alloc = s.alloc ∧ s'.clus.length = s.clus.length ∧ s'.hyp = s.hyp ∧
      ∀ (k : ℕ) (o' : Hier G H Θ), s'.clus[k]? = some o' → ∃ o : Hier G H Θ, s.clus[k]? = some o ∧
        o.sampleFullCond E s.hyp (!upd) (r k) = .ok o' ∧
        o'.card = o.card ∧ o'.idx = o.idx ∧ o'.ss = o.ss ∧ o'.saved = o.saved := by
  obtain ⟨l', h1, h2, h3, h4⟩ := drawAll_ok E s.hyp (!upd) r 0 s.clus hca
  refine ⟨{ s with clus := l' }, by simp [sampleUniqueValues, h1], ⟨hc.len, ?_⟩, h3, rfl, h2, rfl,
    ?_⟩
  · refine consistentOn_congr hc.on rfl h2 ?_
    intro k o' ho'
    obtain ⟨o, ho, -, a, b, c, -⟩ := h4 k o' ho'
    exact ⟨o, ho, a, b, c⟩
  · intro k o' ho'
    simpa using h4 k o' ho'

theorem noEmpty_congr {A : Finset ℕ} {s s' : Alg G H Θ} (h : NoEmptyOn A s)
    (ha : s'.alloc = s.alloc) (hl : s'.clus.length = s.clus.length) : NoEmptyOn A s' := by
  intro k hk; rw [ha]; rw [hl] at hk; exact h k hk

theorem updateHypers_ok {E : Env G H Θ} {r : ℕ} {s : Alg G H Θ} (h : 0 < s.clus.length) :
    ∃ h', updateHypers E r s = .ok { s with hyp := h' } := by
  simp [updateHypers, vget_ok (List.getElem?_eq_getElem h)]

theorem clus_pos {f : ℕ → G} {n : ℕ} {s : Alg G H Θ} (hc : Consistent f n s) (hn : 0 < n) :
    0 < s.clus.length := by
  obtain ⟨c, _, h⟩ := hc.on.labelled 0 (by simpa using hn)
  omega

/-- A state as the marginal algorithms keep it. -/
structure MarginalOk (f : ℕ → G) (n : ℕ) (s : Alg G H Θ) : Prop where
  cons : Consistent f n s
  noEmpty : NoEmptyOn (Finset.range n) s
  caches : CachesOk s

theorem neal2Allocations_ok {E : Env G H Θ} {upd : Bool} {n : ℕ} {s : Alg G H Θ}
    (ω : ℕ → ℕ × ℕ) (hn : 2 ≤ n) (hcs : CanSave E upd) (hs : MarginalOk E.contrib n s) :
    ∃ s', neal2Allocations E upd n ω s = .ok s' ∧ MarginalOk E.contrib n s' ∧ s'.hyp = s.hyp := by
  refine foldlM_range_inv _ (fun _ s' => MarginalOk E.contrib n s' ∧ s'.hyp = s.hyp) n ?_ s
    ⟨hs, rfl⟩
  rintro i s' hi ⟨h1, h2⟩
  obtain ⟨s'', e, hr, hne⟩ :=
    neal2Datum_ok (ω i).1 (ω i).2 hn hcs h1.cons h1.noEmpty h1.caches hi
  exact ⟨s'', e, ⟨hr.cons, hne, hr.caches⟩, by rw [hr.hyp, h2]⟩

theorem marginal_tail_ok {E : Env G H Θ} {upd : Bool} {n : ℕ} {s : Alg G H Θ} (z : Noise)
    (hn : 0 < n) (hs : MarginalOk E.contrib n s) :
    ∃ s1 s2, sampleUniqueValues E upd z.uv s = .ok s1 ∧ updateHypers E z.hyp s1 = .ok s2 ∧
      MarginalOk E.contrib n s2 := by
  obtain ⟨s1, e1, c1, k1, a1, l1, -, -⟩ :=
    sampleUniqueValues_ok (E := E) (upd := upd) (r := z.uv) hs.cons hs.caches
  obtain ⟨h', e2⟩ := updateHypers_ok (E := E) (r := z.hyp) (clus_pos c1 hn)
  refine ⟨s1, _, e1, e2, ⟨c1.len, ?_⟩, ?_, k1⟩
  · exact consistentOn_congr c1.on rfl rfl (fun k o ho => ⟨o, ho, rfl, rfl, rfl⟩)
  · exact noEmpty_congr (noEmpty_congr hs.noEmpty a1 l1) rfl rfl

theorem neal2Step_ok {E : Env G H Θ} {upd : Bool} {n : ℕ} {s : Alg G H Θ} (z : Noise)
    (hn : 2 ≤ n) (hcs : CanSave E upd) (hs : MarginalOk E.contrib n s) :
    ∃ s', neal2Step E upd n s z = .ok s' ∧ MarginalOk E.contrib n s' := by
  obtain ⟨s1, e1, h1, -⟩ := neal2Allocations_ok z.cat hn hcs hs
  obtain ⟨s2, s3, e2, e3, h3⟩ := marginal_tail_ok (upd := upd) z (by omega) h1
  exact ⟨s3, by simp [neal2Step, e1, e2, e3], h3⟩

/-! ### Neal8 -/

theorem neal8Datum_ok {E : Env G H Θ} {n : ℕ} {s : Alg8 G H Θ} {i : ℕ} (rc : ℕ) (ra : ℕ → ℕ)
    (haux : 0 < s.aux.length) (hs : MarginalOk E.contrib n s.base) (hi : i < n) :
    ∃ s', neal8Datum E s i rc ra = .ok s' ∧ Realloc E.contrib n i s.base s'.base ∧
      NoEmptyOn (Finset.range n) s'.base ∧ s'.aux.length = s.aux.length := by
  have hiA : i ∈ Finset.range n := Finset.mem_range.mpr hi
  have hcs := canSave_false E
  obtain ⟨s1, c, o, hdet, hd, hl, ho, hsing, hrem⟩ := detach_ok hcs hs.cons.on hiA
  have hca1 : CachesOk s1 := caches_detach hs.caches ho hsing hrem
  have hlen1 : i < s1.alloc.length := by rw [hd.len, hs.cons.len]; exact hi
  have hnotin : i ∉ (Finset.range n).erase i := by simp
  -- the auxiliary blocks after the (possible) copy of the singleton
  obtain ⟨aux, hauxeq, hauxlen⟩ : ∃ aux : List (Hier G H Θ),
      storeSingleton s.aux o (decide (o.card ≤ 1)) = .ok aux ∧ aux.length = s.aux.length := by
    by_cases h : o.card ≤ 1
    · refine ⟨s.aux.set 0 { s.aux[0] with state := o.state, card := o.card }, ?_, by simp⟩
      simp [storeSingleton, h, vget_ok (List.getElem?_eq_getElem haux)]
    · exact ⟨s.aux, by simp [storeSingleton, h], rfl⟩
  set aux' := resampleAux E s1.hyp ra (if decide (o.card ≤ 1) = true then 1 else 0) aux with haux'
  have haux'len : aux'.length = s.aux.length := by simp [haux', resampleAux, hauxlen]
  have hstart : neal8Datum E s i rc ra =
      (do
        let cNew ← categorical (s1.clus.length + aux'.length) rc
        if cNew ≥ s1.clus.length then
          let a ← vget aux' (cNew - s1.clus.length)
          let o ← a.clone.addDatum E s1.hyp false i
          let al ← vset s1.alloc i s1.clus.length
          .ok { base := { s1 with alloc := al, clus := s1.clus ++ [o] }, aux := aux' }
        else
          let s2 ← attach E false s1 i cNew
          .ok { base := s2, aux := aux' }) := by
    simp only [neal8Datum, hdet, ok_bind, hauxeq]
    rfl
  have hpos : 0 < s1.clus.length + aux'.length := by omega
  rw [hstart, categorical_ok _ hpos, ok_bind]
  have hmod := Nat.mod_lt rc hpos
  by_cases hnew : rc % (s1.clus.length + aux'.length) ≥ s1.clus.length
  · simp only [hnew, if_true]
    have hlt : rc % (s1.clus.length + aux'.length) - s1.clus.length < aux'.length := by omega
    rw [vget_ok (List.getElem?_eq_getElem hlt), ok_bind]
    have hnm : i ∉ (aux'[rc % (s1.clus.length + aux'.length) - s1.clus.length]).clone.idx := by
      simp [Hier.clone]
    rw [Hier.addDatum_eq hnm hcs, ok_bind, vset_ok hlen1, ok_bind]
    have ha := attach_new (o' := (aux'[rc % (s1.clus.length + aux'.length) -
        s1.clus.length]).clone.added E s1.hyp false i) hd.cons hnotin hlen1
      (by simp [Hier.added, Hier.clone]) (by simp [Hier.added, Hier.clone])
      (by simp [Hier.added, Hier.clone])
    refine ⟨_, rfl, realloc_of hi hs.cons.len hd ha ?_, noEmpty_of hi hd ha hs.noEmpty, haux'len⟩
    intro p hp
    simp only [List.mem_append, List.mem_singleton] at hp
    rcases hp with hp | rfl
    · exact hca1 p hp
    · exact Hier.cacheOk_added (Hier.cacheOk_clone _)
  · simp only [hnew, if_false]
    obtain ⟨s', _, hs', ha, hca', -, -⟩ := attach_ok hcs hd.cons hnotin hlen1 (Nat.lt_of_not_ge hnew) hca1
    exact ⟨_, by rw [hs', ok_bind], realloc_of hi hs.cons.len hd ha hca',
      noEmpty_of hi hd ha hs.noEmpty, haux'len⟩

theorem neal8Step_ok {E : Env G H Θ} {n : ℕ} {s : Alg8 G H Θ} (z : Noise)
    (hn : 0 < n) (haux : 0 < s.aux.length) (hs : MarginalOk E.contrib n s.base) :
    ∃ s', neal8Step E n s z = .ok s' ∧ MarginalOk E.contrib n s'.base ∧
      s'.aux.length = s.aux.length := by
  obtain ⟨s1, e1, h1, hx⟩ := foldlM_range_inv
    (fun s i => neal8Datum E s i (z.cat i).1 (z.aux i))
    (fun _ s' => MarginalOk E.contrib n s'.base ∧ s'.aux.length = s.aux.length) n (by
      rintro i s' hi ⟨h1, h2⟩
      obtain ⟨s'', e, hr, hne, hl⟩ := neal8Datum_ok (z.cat i).1 (z.aux i) (by omega) h1 hi
      exact ⟨s'', e, ⟨hr.cons, hne, hr.caches⟩, by omega⟩) s ⟨hs, rfl⟩
  obtain ⟨s2, s3, e2, e3, h3⟩ := marginal_tail_ok (upd := false) z hn h1
  exact ⟨{ s1 with base := s3 }, by simp [neal8Step, neal8Allocations, e1, e2, e3], h3, hx⟩

/-! ### Blocked Gibbs -/

theorem blockedDatum_ok {E : Env G H Θ} {K n : ℕ} {s : Alg G H Θ} {i : ℕ} (rc : ℕ)
    (hK : s.clus.length = K) (hc : Consistent E.contrib n s) (hca : CachesOk s) (hi : i < n) :
    ∃ s', blockedDatum E K s i rc = .ok s' ∧ Consistent E.contrib n s' ∧ CachesOk s' ∧
      s'.clus.length = K ∧ s'.hyp = s.hyp ∧ s'.alloc = s.alloc.set i (rc % K) := by
  have hiA : i ∈ Finset.range n := Finset.mem_range.mpr hi
  have hpos : 0 < K := by rw [← hK]; exact clus_pos hc (by omega)
  obtain ⟨c, hl, hclt⟩ := hc.on.labelled i hiA
  unfold blockedDatum
  simp only [hK, lt_irrefl, if_false, categorical_ok rc hpos, ok_bind, vget_ok hl]
  by_cases h : rc % K = c
  · simp only [h, ne_eq, not_true_eq_false, if_false]
    refine ⟨s, rfl, hc, hca, hK, rfl, ?_⟩
    refine List.ext_getElem? fun j => ?_
    by_cases hj : i = j
    · subst hj; rw [hl]; simp [hc.len, hi]
    · simp [List.getElem?_set_ne hj]
  · have hlen : i < s.alloc.length := by rw [hc.len]; exact hi
    have ho := List.getElem?_eq_getElem hclt
    have hio : i ∈ (s.clus[c]).idx := by
      rw [hc.on.members c _ ho]; exact mem_membersIn.mpr ⟨hiA, hl⟩
    have hmod : rc % K < s.clus.length := by rw [hK]; exact Nat.mod_lt _ hpos
    have hp := List.getElem?_eq_getElem hmod
    set o := s.clus[c] with hodef
    set p := s.clus[rc % K] with hpdef
    have hcne : c ≠ rc % K := fun e => h e.symm
    have hp2 : (s.clus.set c (o.removed E s.hyp false i))[rc % K]? = some p := by
      rw [List.getElem?_set_ne hcne, hp]
    have hip : i ∉ p.idx := by
      rw [hc.on.members _ _ hp, mem_membersIn]
      rintro ⟨-, h'⟩; rw [hl] at h'; exact hcne (Option.some.inj h')
    simp only [h, ne_eq, not_false_eq_true, if_true, vset_ok hlen, ok_bind, vget_ok ho,
      Hier.removeDatum_eq hio (canSave_false E), vget_ok hp2,
      Hier.addDatum_eq hip (canSave_false E)]
    refine ⟨_, rfl, ⟨by simp [hc.len], ?_⟩, ?_, by simp [hK], rfl, rfl⟩
    · -- first take `i` out, then put it in
      have h1 : ConsistentOn E.contrib ((Finset.range n).erase i)
          { s with clus := s.clus.set c (o.removed E s.hyp false i) } := by
        have him : i ∈ membersIn (Finset.range n) s.alloc c := mem_membersIn.mpr ⟨hiA, hl⟩
        constructor
        · intro j hj
          obtain ⟨c', h, h'⟩ := hc.on.labelled j (Finset.mem_of_mem_erase hj)
          exact ⟨c', h, by simpa using h'⟩
        · intro k q hq
          by_cases hk : c = k
          · subst hk
            simp [hclt] at hq; subst hq
            simp only [Hier.removed]
            rw [hc.on.members _ _ ho, membersIn_erase]
          · simp [List.getElem?_set_ne hk] at hq
            rw [hc.on.members _ _ hq, membersIn_erase_of_ne hl (Ne.symm hk)]
        · intro k q hq
          by_cases hk : c = k
          · subst hk
            simp [hclt] at hq; subst hq
            simp only [Hier.removed]
            rw [hc.on.cards _ _ ho, membersIn_erase, Finset.card_erase_of_mem him]
            have : 0 < (membersIn (Finset.range n) s.alloc c).card := Finset.card_pos.mpr ⟨i, him⟩
            push_cast [Nat.cast_sub this]
            omega
          · simp [List.getElem?_set_ne hk] at hq
            rw [hc.on.cards _ _ hq, membersIn_erase_of_ne hl (Ne.symm hk)]
        · intro k q hq
          by_cases hk : c = k
          · subst hk
            simp [hclt] at hq; subst hq
            simp only [Hier.removed]
            rw [hc.on.stats _ _ ho, membersIn_erase, ← Finset.add_sum_erase _ _ him]
            abel
          · simp [List.getElem?_set_ne hk] at hq
            rw [hc.on.stats _ _ hq, membersIn_erase_of_ne hl (Ne.symm hk)]
      have h2 := attach_existing (o' := p.added E s.hyp false i) h1 (by simp) hlen hp2 rfl rfl rfl
      have h3 := h2.cons
      rw [erase_range_insert hi] at h3
      exact h3
    · intro q hq
      rcases List.mem_or_eq_of_mem_set hq with hq | rfl
      · rcases List.mem_or_eq_of_mem_set hq with hq | rfl
        · exact hca q hq
        · exact Hier.cacheOk_removed (hca o (List.mem_of_getElem? ho))
      · exact Hier.cacheOk_added (hca p (List.mem_of_getElem? hp))

theorem blockedStep_ok {E : Env G H Θ} {K n : ℕ} {s : Alg G H Θ} (z : Noise) (hn : 0 < n)
    (hK : s.clus.length = K) (hc : Consistent E.contrib n s) (hca : CachesOk s) :
    ∃ s', blockedStep E K n s z = .ok s' ∧ Consistent E.contrib n s' ∧ CachesOk s' ∧
      s'.clus.length = K := by
  obtain ⟨s1, e1, h1, h2, h3⟩ := foldlM_range_inv
    (fun s i => blockedDatum E K s i (z.cat i).1)
    (fun _ s' => Consistent E.contrib n s' ∧ CachesOk s' ∧ s'.clus.length = K) n (by
      rintro i s' hi ⟨h1, h2, h3⟩
      obtain ⟨s'', e, a, b, c, -, -⟩ := blockedDatum_ok (z.cat i).1 h3 h1 h2 hi
      exact ⟨s'', e, a, b, c⟩) s ⟨hc, hca, hK⟩
  obtain ⟨s2, e2, c2, k2, a2, l2, -, -⟩ :=
    sampleUniqueValues_ok (E := E) (upd := false) (r := z.uv) h1 h2
  obtain ⟨h', e3⟩ := updateHypers_ok (E := E) (r := z.hyp) (clus_pos c2 hn)
  refine ⟨{ s2 with hyp := h' }, by simp [blockedStep, blockedAllocations, e1, e2, e3], ⟨c2.len, ?_⟩, k2, ?_⟩
  · exact consistentOn_congr c2.on rfl rfl (fun k o ho => ⟨o, ho, rfl, rfl, rfl⟩)
  · simpa [l2] using h3

end Bayesmix
