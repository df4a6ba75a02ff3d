import Verif.Alloc.Props

/-!
# Properties C68-C70: what one re-allocation, one hyper update and the initialization do
-/

namespace Bayesmix

variable {G H Θ : Type} [AddCommGroup G]

/-- The unique value (cluster state) that row `j` currently has. -/
def valueOf (s : Alg G H Θ) (j : ℕ) : Option Θ :=
  (s.alloc[j]?).bind fun c => (s.clus[c]?).map fun o => o.state

/-- The labels carried by the rows other than `i`. -/
def otherLabels (n : ℕ) (alloc : List ℕ) (i : ℕ) : Finset (Option ℕ) :=
  ((Finset.range n).erase i).image fun j => alloc[j]?

theorem getElem?_eraseIdx_shift {α : Type} (l : List α) {c d : ℕ} (h : d ≠ c) :
    (l.eraseIdx c)[shiftDown c d]? = l[d]? := by
  rw [List.getElem?_eraseIdx]
  unfold shiftDown
  by_cases h1 : d > c
  · simp only [h1, if_true]
    rw [if_neg (by omega)]
    congr 1; omega
  · simp only [h1, if_false]
    rw [if_pos (by omega)]

theorem detach_values {E : Env G H Θ} {upd : Bool} {A : Finset ℕ} {s s1 : Alg G H Θ} {i : ℕ}
    {o : Hier G H Θ} {b : Bool} (hcs : CanSave E upd) (hc : ConsistentOn E.contrib A s)
    (hi : i ∈ A) (hd : detach E upd s i = .ok (s1, o, b)) :
    (∀ j ∈ A.erase i, valueOf s1 j = valueOf s j) ∧ valueOf s i = some o.state ∧
      (b = true ↔ ∀ j ∈ A.erase i, ¬ together s.alloc i j) := by
  obtain ⟨c, hl, hlt⟩ := hc.labelled i hi
  obtain ⟨p, ho⟩ : ∃ p, s.clus[c]? = some p := ⟨_, List.getElem?_eq_getElem hlt⟩
  have hip : i ∈ p.idx := by rw [hc.members c p ho]; exact mem_membersIn.mpr ⟨hi, hl⟩
  have halone : p.card ≤ 1 ↔ ∀ j ∈ A.erase i, ¬ together s.alloc i j := by
    rw [hc.cards c p ho]
    have h1 : membersIn A s.alloc c = insert i (membersIn (A.erase i) s.alloc c) := by
      rw [membersIn_erase, Finset.insert_erase (mem_membersIn.mpr ⟨hi, hl⟩)]
    have h2 : i ∉ membersIn (A.erase i) s.alloc c := by simp [membersIn]
    rw [h1, Finset.card_insert_of_notMem h2]
    constructor
    · intro h j hj ht
      have h3 : membersIn (A.erase i) s.alloc c = ∅ := by
        rw [← Finset.card_eq_zero]; push_cast at h; omega
      have : j ∈ membersIn (A.erase i) s.alloc c := mem_membersIn.mpr ⟨hj, by rw [← ht, hl]⟩
      rw [h3] at this; simp at this
    · intro h
      have h3 : membersIn (A.erase i) s.alloc c = ∅ := by
        rw [Finset.eq_empty_iff_forall_notMem]
        intro j hj
        obtain ⟨h4, h5⟩ := mem_membersIn.mp hj
        exact h j h4 (by rw [together, hl, h5])
      simp [h3]
  unfold detach at hd
  by_cases h1 : p.card ≤ 1
  · simp only [vget_ok hl, vget_ok ho, ok_bind, h1, if_true, removeSingleton_eq hlt] at hd
    cases hd
    refine ⟨?_, by simp [valueOf, hl, ho], by simpa using halone.mp h1⟩
    intro j hj
    obtain ⟨d, hd, hdl⟩ := hc.labelled j (Finset.mem_of_mem_erase hj)
    have hne : d ≠ c := by
      rintro rfl
      exact halone.mp h1 j hj (by rw [together, hl, hd])
    simp [valueOf, hd, getElem?_eraseIdx_shift _ hne]
  · simp only [vget_ok hl, vget_ok ho, ok_bind, h1, if_false,
      Hier.removeDatum_eq hip hcs] at hd
    cases hd
    refine ⟨?_, by simp [valueOf, hl, ho], ?_⟩
    · intro j hj
      obtain ⟨d, hd, hdl⟩ := hc.labelled j (Finset.mem_of_mem_erase hj)
      simp only [valueOf, hd, Option.bind_some, List.getElem?_set]
      by_cases hcd : c = d
      · subst hcd; rw [if_pos rfl, if_pos hlt, ho]; rfl
      · simp [hcd]
    · simp only [Bool.false_eq_true, false_iff]
      exact fun h => h1 (halone.mpr h)

/-- Number of clusters left after taking `i` out. -/
theorem detached_length {f : ℕ → G} {n i : ℕ} {s s1 : Alg G H Θ} 
    (hd : Detached f (Finset.range n) i s s1) (hne : NoEmptyOn (Finset.range n) s) :
    s1.clus.length = (otherLabels n s.alloc i).card := by
  have h1 : s1.clus.length = (otherLabels n s1.alloc i).card := by
    have : otherLabels n s1.alloc i = (Finset.range s1.clus.length).image some := by
      ext x
      simp only [otherLabels, Finset.mem_image, Finset.mem_range]
      constructor
      · rintro ⟨j, hj, rfl⟩
        obtain ⟨c, h1, h2⟩ := hd.cons.labelled j hj
        exact ⟨c, h2, h1.symm⟩
      · rintro ⟨c, hc, rfl⟩
        obtain ⟨j, hj, h⟩ := hd.noEmpty hne c hc
        exact ⟨j, hj, h⟩
    rw [this, Finset.card_image_of_injective _ (Option.some_injective _), Finset.card_range]
  rw [h1]
  classical
  have hex : ∀ (al : List ℕ), ∀ x ∈ otherLabels n al i, ∃ j ∈ (Finset.range n).erase i,
      al[j]? = x := by
    intro al x hx; simpa only [otherLabels, Finset.mem_image] using hx
  refine Finset.card_bij (fun x hx => s.alloc[(hex _ x hx).choose]?) ?_ ?_ ?_
  · intro x hx
    exact Finset.mem_image_of_mem _ (hex _ x hx).choose_spec.1
  · intro x hx y hy h
    have a := (hex _ x hx).choose_spec
    have b := (hex _ y hy).choose_spec
    rw [← a.2, ← b.2]
    exact (hd.co _ a.1 _ b.1).mpr h
  · intro y hy
    obtain ⟨j, hj, rfl⟩ := hex _ y hy
    have hx : s1.alloc[j]? ∈ otherLabels n s1.alloc i := Finset.mem_image_of_mem _ hj
    refine ⟨_, hx, ?_⟩
    have a := (hex _ _ hx).choose_spec
    exact (hd.co _ a.1 _ hj).mp a.2

/-- What the re-allocation of row `i` does, given the option `c` among `k` existing
clusters and `value`, the value of a new cluster. -/
structure MoveSpec (n i k c : ℕ) (s s' : Alg G H Θ) (value : Option Θ) : Prop where
  /-- the other rows keep their unique values -/
  others : ∀ j < n, j ≠ i → valueOf s' j = valueOf s j
  /-- an existing cluster is chosen: the row gets that label, shared with another row -/
  old : c < k → s'.alloc[i]? = some c ∧ ∃ j < n, j ≠ i ∧ together s'.alloc i j ∧
    valueOf s' i = valueOf s j
  /-- a new cluster is chosen: the row is alone and has the new value -/
  new : k ≤ c → (∀ j < n, j ≠ i → ¬ together s'.alloc i j) ∧ valueOf s' i = value

theorem mem_others {n i j : ℕ} (hj : j < n) (hji : j ≠ i) : j ∈ (Finset.range n).erase i := by
  simp [hj, hji]

theorem moveSpec_attach {E : Env G H Θ} {upd : Bool} {n i c : ℕ} {s s1 s' : Alg G H Θ}
    {o : Hier G H Θ} {value : Option Θ} (hlen : i < s1.alloc.length)
    (hd : Detached E.contrib (Finset.range n) i s s1) (hne : NoEmptyOn (Finset.range n) s)
    (hv : ∀ j ∈ (Finset.range n).erase i, valueOf s1 j = valueOf s j)
    (hclt : c < s1.clus.length) (ho : s1.clus[c]? = some o)
    (ha : s'.alloc = s1.alloc.set i c)
    (hs' : s'.clus = s1.clus.set c (o.added E s1.hyp upd i)) :
    MoveSpec n i s1.clus.length c s s' value := by
  have hst : ∀ d : ℕ, (s'.clus[d]?).map (fun o => o.state) = (s1.clus[d]?).map (fun o => o.state) := by
    intro d
    rw [hs', List.getElem?_set]
    by_cases h : c = d
    · subst h; rw [if_pos rfl, if_pos hclt, ho]; rfl
    · simp [h]
  have hoth : ∀ j < n, j ≠ i → valueOf s' j = valueOf s j := by
    intro j hj hji
    rw [← hv j (mem_others hj hji)]
    simp only [valueOf, ha, List.getElem?_set_ne hji.symm, hst]
  refine ⟨hoth, fun _ => ?_, fun h => absurd h (by omega)⟩
  have hi : s'.alloc[i]? = some c := by rw [ha]; simp [hlen]
  refine ⟨hi, ?_⟩
  obtain ⟨j, hj, hjc⟩ := hd.noEmpty hne c hclt
  have hjn : j < n := by simpa using (Finset.mem_of_mem_erase hj)
  have hji : j ≠ i := Finset.ne_of_mem_erase hj
  refine ⟨j, hjn, hji, ?_, ?_⟩
  · rw [together, hi, ha, List.getElem?_set_ne hji.symm, hjc]
  · rw [← hoth j hjn hji]
    have hj' : s'.alloc[j]? = some c := by rw [ha, List.getElem?_set_ne hji.symm, hjc]
    simp only [valueOf, hi, hj']

theorem moveSpec_new {f : ℕ → G} {n i k : ℕ} {s s1 s' : Alg G H Θ} {o : Hier G H Θ}
    (hlen : i < s1.alloc.length) (hd : Detached f (Finset.range n) i s s1)
    (hv : ∀ j ∈ (Finset.range n).erase i, valueOf s1 j = valueOf s j)
    (hk : s1.clus.length ≤ k) (ha : s'.alloc = s1.alloc.set i s1.clus.length)
    (hs' : s'.clus = s1.clus ++ [o]) :
    MoveSpec n i s1.clus.length k s s' (some o.state) := by
  have hi : s'.alloc[i]? = some s1.clus.length := by rw [ha]; simp [hlen]
  refine ⟨?_, fun h => absurd h (by omega), fun _ => ⟨?_, ?_⟩⟩
  · intro j hj hji
    rw [← hv j (mem_others hj hji)]
    obtain ⟨d, hdl, hdlt⟩ := hd.cons.labelled j (mem_others hj hji)
    simp only [valueOf, ha, List.getElem?_set_ne hji.symm, hdl, Option.bind_some, hs',
      List.getElem?_append_left hdlt]
  · intro j hj hji h
    obtain ⟨d, hdl, hdlt⟩ := hd.cons.labelled j (mem_others hj hji)
    rw [together, hi, ha, List.getElem?_set_ne hji.symm, hdl] at h
    have := Option.some.inj h
    omega
  · simp [valueOf, hi, hs']

/-- **C68 for Neal2/Neal3.** With `k` clusters among the other rows, the allocation draw
selects one of `k + 1` options. Each of the first `k` joins an existing cluster (the one with
that label) and takes its value; the last one puts the row alone, with a value drawn from the
posterior given this row only. The values of all other rows are untouched. -/
theorem c68_neal2_neal3_move (E : Env G H Θ) (upd : Bool) (n : ℕ) (hn : 2 ≤ n)
    (hk : E.kind ≠ .other) (s : Alg G H Θ) (hs : Consistent E.contrib n s)
    (hne : NoEmptyOn (Finset.range n) s) (hca : ∀ o ∈ s.clus, o.saved = true → o.ph.isSome)
    (i : ℕ) (hi : i < n) (rc rd : ℕ) :
    ∃ s', neal2Datum E upd s i rc rd = .ok s' ∧
      MoveSpec n i (otherLabels n s.alloc i).card (rc % ((otherLabels n s.alloc i).card + 1)) s s'
        (some (E.sample (E.post s.hyp 1 (E.contrib i)) rd)) := by
  have hcs : CanSave E upd := fun _ => hk
  have hiA : i ∈ Finset.range n := Finset.mem_range.mpr hi
  obtain ⟨s1, c, o, hdet, hd, hl, ho, hsing, hrem⟩ := detach_ok hcs hs.on hiA
  obtain ⟨hv, -, -⟩ := detach_values hcs hs.on hiA hdet
  have hca1 : CachesOk s1 := caches_detach hca ho hsing hrem
  have hlen1 : i < s1.alloc.length := by rw [hd.len, hs.len]; exact hi
  have hnotin : i ∉ (Finset.range n).erase i := by simp
  rw [← detached_length hd hne]
  have hpos : 0 < s1.clus.length := by
    obtain ⟨j, hjn, hji⟩ : ∃ j, j < n ∧ j ≠ i := by
      by_cases h : i = 0
      · exact ⟨1, by omega, by omega⟩
      · exact ⟨0, by omega, by omega⟩
    obtain ⟨c', _, h'⟩ := hd.cons.labelled j (by simp [hji, hjn])
    omega
  have hfirst := List.getElem?_eq_getElem hpos
  set first := s1.clus[0] with hf
  have hmod : rc % (s1.clus.length + 1) < s1.clus.length + 1 := Nat.mod_lt rc (Nat.succ_pos _)
  simp only [neal2Datum, hdet, ok_bind, vget_ok hfirst, categorical_ok rc (Nat.succ_pos _)]
  by_cases hnew : rc % (s1.clus.length + 1) = s1.clus.length
  · simp only [hnew, if_true]
    have hnm : i ∉ first.clone.idx := by simp [Hier.clone]
    rw [Hier.addDatum_eq hnm hcs, ok_bind]
    have hfull : (first.clone.added E s1.hyp upd i).sampleFullCond E s1.hyp (!upd) rd =
        .ok { first.clone.added E s1.hyp upd i with
          state := E.sample (E.post s.hyp 1 (E.contrib i)) rd
          ph := some (E.post s.hyp 1 (E.contrib i)) } := by
      rw [← hd.hyp]
      cases upd <;>
        simp [Hier.sampleFullCond, Hier.added, Hier.clone, Hier.getPosterior, hk]
    rw [hfull, ok_bind]
    simp only [List.length_append, List.length_singleton, Nat.add_sub_cancel, vset_ok hlen1,
      ok_bind]
    exact ⟨_, rfl, moveSpec_new (o := { first.clone.added E s1.hyp upd i with
          state := E.sample (E.post s.hyp 1 (E.contrib i)) rd
          ph := some (E.post s.hyp 1 (E.contrib i)) }) hlen1 hd hv le_rfl rfl rfl⟩
  · simp only [hnew, if_false]
    have hlt : rc % (s1.clus.length + 1) < s1.clus.length := by omega
    obtain ⟨s', p, hs', ha, -, hp, hcl⟩ := attach_ok hcs hd.cons hnotin hlen1 hlt hca1
    exact ⟨s', hs', moveSpec_attach hlen1 hd hne hv hlt hp ha.alloc hcl⟩

/-- **C68 for Neal8.** With `k` clusters among the other rows and `m` auxiliary blocks, the
draw selects one of `k + m` options: an existing cluster, or the `a`-th auxiliary value. The
auxiliary values are fresh draws from the prior, except that a row that was alone keeps its
own value as the first of them. -/
theorem c68_neal8_move (E : Env G H Θ) (n : ℕ) (s : Alg8 G H Θ) (haux : 0 < s.aux.length)
    (hs : Consistent E.contrib n s.base) (hne : NoEmptyOn (Finset.range n) s.base)
    (hca : ∀ o ∈ s.base.clus, o.saved = true → o.ph.isSome)
    (i : ℕ) (hi : i < n) (rc : ℕ) (ra : ℕ → ℕ) (k m c : ℕ)
    (hk : k = (otherLabels n s.base.alloc i).card) (hm : m = s.aux.length)
    (hcdef : c = rc % (k + m)) :
    ∃ s', neal8Datum E s i rc ra = .ok s' ∧
      ((∀ j < n, j ≠ i → ¬ together s.base.alloc i j) →
        MoveSpec n i k c s.base s'.base
          (if c = k then valueOf s.base i else some (E.sample s.base.hyp (ra (c - k))))) ∧
      ((∃ j < n, j ≠ i ∧ together s.base.alloc i j) →
        MoveSpec n i k c s.base s'.base (some (E.sample s.base.hyp (ra (c - k))))) := by
  have hiA : i ∈ Finset.range n := Finset.mem_range.mpr hi
  have hcs := canSave_false E
  obtain ⟨s1, c0, o, hdet, hd, hl, ho, hsing, hrem⟩ := detach_ok hcs hs.on hiA
  obtain ⟨hv, hvi, hal⟩ := detach_values hcs hs.on hiA hdet
  have hca1 : CachesOk s1 := caches_detach hca ho hsing hrem
  have hlen1 : i < s1.alloc.length := by rw [hd.len, hs.len]; exact hi
  have hnotin : i ∉ (Finset.range n).erase i := by simp
  rw [← detached_length hd hne] at hk
  have hal' : o.card ≤ 1 ↔ ∀ j < n, j ≠ i → ¬ together s.base.alloc i j := by
    rw [← decide_eq_true_iff (p := o.card ≤ 1), hal]
    constructor
    · intro h j hj hji; exact h j (mem_others hj hji)
    · intro h j hj
      exact h j (by simpa using Finset.mem_of_mem_erase hj) (Finset.ne_of_mem_erase hj)
  -- the value an auxiliary block offers
  set val : ℕ → Θ := fun a =>
    if o.card ≤ 1 ∧ a = 0 then o.state else E.sample s.base.hyp (ra a) with hval
  obtain ⟨aux, aux', hauxeq, haux', haux'len, hauxval⟩ : ∃ aux aux' : List (Hier G H Θ),
      storeSingleton s.aux o (decide (o.card ≤ 1)) = .ok aux ∧
      resampleAux E s1.hyp ra (if decide (o.card ≤ 1) = true then 1 else 0) aux = aux' ∧
      aux'.length = m ∧ ∀ (a : ℕ) (p : Hier G H Θ), aux'[a]? = some p → p.state = val a := by
    by_cases h : o.card ≤ 1
    · refine ⟨s.aux.set 0 { s.aux[0] with state := o.state, card := o.card }, _, ?_, rfl,
        by simp [resampleAux, hm], ?_⟩
      · simp [storeSingleton, h, vget_ok (List.getElem?_eq_getElem haux)]
      · intro a p hp
        simp only [resampleAux, List.getElem?_mapIdx, h, decide_true, if_true,
          Option.map_eq_some_iff] at hp
        obtain ⟨q, hq, rfl⟩ := hp
        by_cases ha : a = 0
        · subst ha
          simp [haux] at hq
          subst hq
          simp [hval, h]
        · rw [if_pos (by omega)]
          simp [hval, ha, Hier.samplePrior, hd.hyp]
    · refine ⟨s.aux, _, by simp [storeSingleton, h], rfl, by simp [resampleAux, hm], ?_⟩
      intro a p hp
      simp only [resampleAux, List.getElem?_mapIdx, h, decide_false, Bool.false_eq_true, if_false,
        Nat.zero_le, if_true, Option.map_eq_some_iff] at hp
      obtain ⟨q, hq, rfl⟩ := hp
      simp [hval, h, Hier.samplePrior, hd.hyp]
  have hpos : 0 < s1.clus.length + m := by omega
  have hmod := Nat.mod_lt rc hpos
  have hmain : ∃ s', neal8Datum E s i rc ra = .ok s' ∧
      MoveSpec n i k c s.base s'.base (some (val (c - k))) := by
    simp only [neal8Datum, hdet, ok_bind, hauxeq, haux', haux'len, categorical_ok rc hpos]
    by_cases hnew : rc % (s1.clus.length + m) ≥ s1.clus.length
    · simp only [hnew, if_true]
      have hlt : rc % (s1.clus.length + m) - s1.clus.length < aux'.length := by omega
      have hget := List.getElem?_eq_getElem hlt
      rw [vget_ok hget, ok_bind]
      have hst := hauxval _ _ hget
      rw [Hier.addDatum_eq (by simp [Hier.clone]) hcs, ok_bind, vset_ok hlen1, ok_bind]
      refine ⟨_, rfl, ?_⟩
      have := moveSpec_new (k := c) (s' := { s1 with
          alloc := s1.alloc.set i s1.clus.length,
          clus := s1.clus ++ [(aux'[rc % (s1.clus.length + m) - s1.clus.length]).clone.added E
            s1.hyp false i] }) hlen1 hd hv (by rw [hcdef, hk]; exact hnew) rfl rfl
      have hv' : ((aux'[rc % (s1.clus.length + m) - s1.clus.length]).clone.added E
            s1.hyp false i).state = val (c - k) := by
        rw [hcdef, hk, ← hst]; rfl
      rw [hv'] at this
      rw [hk]; rw [hk] at this
      exact this
    · simp only [hnew, if_false]
      obtain ⟨s', p, hs', ha, -, hp, hcl⟩ :=
        attach_ok hcs hd.cons hnotin hlen1 (Nat.lt_of_not_ge hnew) hca1
      refine ⟨_, by rw [hs', ok_bind], ?_⟩
      rw [hcdef, hk]
      exact moveSpec_attach hlen1 hd hne hv (Nat.lt_of_not_ge hnew) hp ha.alloc hcl
  obtain ⟨s', e, hmv⟩ := hmain
  refine ⟨s', e, fun h => ?_, fun ⟨j, hj, hji, ht⟩ => ?_⟩
  · have h1 := hal'.mpr h
    refine ⟨hmv.others, hmv.old, fun hc => ⟨(hmv.new hc).1, ?_⟩⟩
    rw [(hmv.new hc).2, hvi]
    by_cases hck : c = k
    · simp [hck, hval, h1]
    · have : c - k ≠ 0 := by omega
      simp [hck, hval, this]
  · have h1 : ¬ o.card ≤ 1 := fun h => hal'.mp h j hj hji ht
    have hv2 : val (c - k) = E.sample s.base.hyp (ra (c - k)) := by simp [hval, h1]
    rwa [hv2] at hmv

/-- **C68, every partition is offered.** Whatever the state, for each other row `j` some
allocation draw puts row `i` together with `j`, and some draw leaves `i` alone. -/
theorem c68_every_option_reachable (E : Env G H Θ) (upd : Bool) (n : ℕ)
    (hk : E.kind ≠ .other) (s : Alg G H Θ) (hs : Consistent E.contrib n s)
    (hne : NoEmptyOn (Finset.range n) s) (hca : ∀ o ∈ s.clus, o.saved = true → o.ph.isSome)
    (i j : ℕ) (hi : i < n) (hj : j < n) (hji : j ≠ i) (rd : ℕ) :
    (∃ rc s', neal2Datum E upd s i rc rd = .ok s' ∧ together s'.alloc i j) ∧
    (∃ rc s', neal2Datum E upd s i rc rd = .ok s' ∧
      ∀ l < n, l ≠ i → ¬ together s'.alloc i l) := by
  have hcs : CanSave E upd := fun _ => hk
  have hiA : i ∈ Finset.range n := Finset.mem_range.mpr hi
  constructor
  · obtain ⟨s1, c, o, hdet, hd, hl, ho, hsing, hrem⟩ := detach_ok hcs hs.on hiA
    have hca1 : CachesOk s1 := caches_detach hca ho hsing hrem
    have hlen1 : i < s1.alloc.length := by rw [hd.len, hs.len]; exact hi
    obtain ⟨d, hdj, hdlt⟩ := hd.cons.labelled j (mem_others hj hji)
    obtain ⟨s', p, hs', ha, -, -, -⟩ := attach_ok hcs hd.cons (by simp) hlen1 hdlt hca1
    refine ⟨d, s', ?_, ?_⟩
    · have hpos : 0 < s1.clus.length := by omega
      have hmod : d % (s1.clus.length + 1) = d := Nat.mod_eq_of_lt (by omega)
      have hne' : d ≠ s1.clus.length := by omega
      simp only [neal2Datum, hdet, ok_bind, vget_ok (List.getElem?_eq_getElem hpos),
        categorical_ok d (Nat.succ_pos _), hmod, hne', if_false, hs']
    · rw [together, ha.alloc, List.getElem?_set_ne hji.symm, hdj]
      simp [hlen1]
  · obtain ⟨s', e, h⟩ := c68_neal2_neal3_move E upd n (by omega) hk s hs hne hca i hi
      (otherLabels n s.alloc i).card rd
    rw [Nat.mod_eq_of_lt (Nat.lt_succ_self _)] at h
    exact ⟨_, s', e, (h.new le_rfl).1⟩

/-- Non-vacuity: in the initial state of 4 rows in 2 clusters, row 0 (alone) stays alone with a
posterior value, or joins the cluster of the others. -/
example : ∃ c' s, initAlgorithm (toyEnv .conjugate fun h _ _ => h) (toySetup false 4 2)
      ⟨fun _ => 0, fun _ => 1⟩ [toyObj] = .ok (c', s) ∧
    (∃ s', neal2Datum (toyEnv .conjugate fun h _ _ => h) false s 0 1 0 = .ok s' ∧
      s'.alloc = [1, 0, 0, 0] ∧ valueOf s' 0 = some 101) ∧
    (∃ s', neal2Datum (toyEnv .conjugate fun h _ _ => h) false s 0 0 0 = .ok s' ∧
      s'.alloc = [0, 0, 0, 0]) := ⟨_, _, rfl, ⟨_, rfl, rfl, rfl⟩, ⟨_, rfl, rfl⟩⟩

/-- Non-vacuity for Neal8: row 0, alone, keeps its value through the first of two blocks. -/
example : ∃ c' s s', initAlgorithm8 (toyEnv .other fun h _ _ => h)
      { toySetup false 4 2 with algRequiresConjugate := false } 2
      ⟨fun _ => 0, fun _ => 1⟩ [toyObj] = .ok (c', s) ∧
    neal8Datum (toyEnv .other fun h _ _ => h) s 0 1 (fun _ => 0) = .ok s' ∧
    s'.base.alloc = [1, 0, 0, 0] ∧ valueOf s'.base 0 = valueOf s.base 0 :=
  ⟨_, _, _, rfl, rfl, rfl, rfl⟩

/-! ### C69: hyperparameter update -/

/-- The occupied clusters, in label order: their value and the number of rows they hold. -/
def occupied (n : ℕ) (s : Alg G H Θ) : List (Θ × ℤ) :=
  s.clus.zipIdx.filterMap fun p =>
    if membersIn (Finset.range n) s.alloc p.2 = ∅ then none
    else some (p.1.state, ((membersIn (Finset.range n) s.alloc p.2).card : ℤ))

theorem states_eq_occupied {f : ℕ → G} {n : ℕ} {s : Alg G H Θ} (hs : Consistent f n s) :
    ((s.clus.filter fun o => o.card > 0).map fun o => (o.state, o.card)) = occupied n s := by
  rw [occupied, ← List.filterMap_eq_map, List.filterMap_filter]
  conv_lhs => rw [← List.zipIdx_map_fst 0 s.clus, List.filterMap_map]
  apply List.filterMap_congr
  rintro ⟨o, k⟩ hk
  have ho : s.clus[k]? = some o := by
    have := List.mem_zipIdx_iff_getElem?.mp hk
    simpa using this
  have hcard := hs.on.cards k o ho
  by_cases h : membersIn (Finset.range n) s.alloc k = ∅
  · simp [h, hcard]
  · have : 0 < (membersIn (Finset.range n) s.alloc k).card :=
      Finset.card_pos.mpr (Finset.nonempty_of_ne_empty h)
    simp [h, hcard]

theorem updateHypers_occupied {E : Env G H Θ} {n r : ℕ} {s s' : Alg G H Θ}
    (hs : Consistent E.contrib n s) (h : updateHypers E r s = .ok s') :
    s'.hyp = E.hyperUpdate s.hyp (occupied n s') r := by
  unfold updateHypers at h
  cases hv : vget s.clus 0 with
  | error e => rw [hv] at h; cases h
  | ok o =>
    rw [hv, ok_bind] at h
    cases h
    simp only
    rw [states_eq_occupied hs]
    rfl

theorem tail_occupied {E : Env G H Θ} {upd : Bool} {n : ℕ} {s s1 s2 : Alg G H Θ} {z : Noise}
    (hs : Consistent E.contrib n s) (hca : CachesOk s)
    (e1 : sampleUniqueValues E upd z.uv s = .ok s1) (e2 : updateHypers E z.hyp s1 = .ok s2) :
    s2.hyp = E.hyperUpdate s.hyp (occupied n s2) z.hyp := by
  obtain ⟨t, e, hc, -, -, -, hh, -⟩ :=
    sampleUniqueValues_ok (E := E) (upd := upd) (r := z.uv) hs hca
  rw [e1] at e
  cases e
  rw [updateHypers_occupied hc e2, hh]

/-- **C69, marginal samplers.** The hyperparameters after an iteration of Neal2 or Neal3 are
the hyperprior update of the previous ones given exactly the values and sizes of the occupied
clusters of the state that the iteration ends in. -/
theorem c69_neal2_neal3_hypers (E : Env G H Θ) (upd : Bool) (n : ℕ) (hn : 2 ≤ n)
    (hcs : upd = true → E.kind ≠ .other) (s : Alg G H Θ) (hs : Consistent E.contrib n s)
    (hne : NoEmptyOn (Finset.range n) s) (hca : ∀ o ∈ s.clus, o.saved = true → o.ph.isSome)
    (z : Noise) :
    ∃ s', neal2Step E upd n s z = .ok s' ∧
      s'.hyp = E.hyperUpdate s.hyp (occupied n s') z.hyp := by
  obtain ⟨s1, e1, h1, hh⟩ := neal2Allocations_ok z.cat hn hcs ⟨hs, hne, hca⟩
  obtain ⟨s2, s3, e2, e3, -⟩ := marginal_tail_ok (upd := upd) z (by omega) h1
  refine ⟨s3, by simp [neal2Step, e1, e2, e3], ?_⟩
  rw [tail_occupied h1.cons h1.caches e2 e3, hh]

/-- **C69, Neal8.** -/
theorem c69_neal8_hypers (E : Env G H Θ) (n : ℕ) (hn : 0 < n) (s : Alg8 G H Θ)
    (haux : 0 < s.aux.length) (hs : Consistent E.contrib n s.base)
    (hne : NoEmptyOn (Finset.range n) s.base)
    (hca : ∀ o ∈ s.base.clus, o.saved = true → o.ph.isSome) (z : Noise) :
    ∃ s', neal8Step E n s z = .ok s' ∧
      s'.base.hyp = E.hyperUpdate s.base.hyp (occupied n s'.base) z.hyp := by
  obtain ⟨s1, e1, h1, hx, hh⟩ := foldlM_range_inv
    (fun s i => neal8Datum E s i (z.cat i).1 (z.aux i))
    (fun _ s' => MarginalOk E.contrib n s'.base ∧ s'.aux.length = s.aux.length ∧
      s'.base.hyp = s.base.hyp) n (by
      rintro i s' hi ⟨h1, h2, h3⟩
      obtain ⟨s'', e, hr, hne, hl⟩ := neal8Datum_ok (z.cat i).1 (z.aux i) (by omega) h1 hi
      exact ⟨s'', e, ⟨hr.cons, hne, hr.caches⟩, by omega, by rw [hr.hyp, h3]⟩) s
      ⟨⟨hs, hne, hca⟩, rfl, rfl⟩
  obtain ⟨s2, s3, e2, e3, -⟩ := marginal_tail_ok (upd := false) z hn h1
  refine ⟨{ s1 with base := s3 }, by simp [neal8Step, neal8Allocations, e1, e2, e3], ?_⟩
  simp only
  rw [tail_occupied h1.cons h1.caches e2 e3, hh]

/-- **C69, blocked Gibbs.** Here some components may be empty; they do not contribute. -/
theorem c69_blocked_gibbs_hypers (E : Env G H Θ) (K n : ℕ) (hn : 0 < n) (s : Alg G H Θ)
    (hK : s.clus.length = K) (hs : Consistent E.contrib n s)
    (hca : ∀ o ∈ s.clus, o.saved = true → o.ph.isSome) (z : Noise) :
    ∃ s', blockedStep E K n s z = .ok s' ∧
      s'.hyp = E.hyperUpdate s.hyp (occupied n s') z.hyp := by
  obtain ⟨s1, e1, h1, h2, h3, hh⟩ := foldlM_range_inv
    (fun s i => blockedDatum E K s i (z.cat i).1)
    (fun _ s' => Consistent E.contrib n s' ∧ CachesOk s' ∧ s'.clus.length = K ∧
      s'.hyp = s.hyp) n (by
      rintro i s' hi ⟨h1, h2, h3, h4⟩
      obtain ⟨s'', e, a, b, c, d, -⟩ := blockedDatum_ok (z.cat i).1 h3 h1 h2 hi
      exact ⟨s'', e, a, b, c, by rw [d, h4]⟩) s ⟨hs, hca, hK, rfl⟩
  obtain ⟨s2, e2, c2, k2, a2, l2, -, -⟩ :=
    sampleUniqueValues_ok (E := E) (upd := false) (r := z.uv) h1 h2
  obtain ⟨h', e3⟩ := updateHypers_ok (E := E) (r := z.hyp) (clus_pos c2 hn)
  refine ⟨_, by simp only [blockedStep, blockedAllocations, e1, e2, e3, ok_bind]; rfl, ?_⟩
  rw [tail_occupied h1 h2 e2 e3, hh]

/-- Non-vacuity: 3 rows, 3 components, all rows moved to component 0; only its value reaches
the hyperprior update, which here counts the values it is given. -/
example : ∃ c' s s', initAlgorithm (toyEnv .other fun h l _ => h + l.length)
      { toySetup false 3 3 with algRequiresConjugate := false }
      ⟨fun _ => 0, fun _ => 1⟩ [toyObj] = .ok (c', s) ∧
    blockedStep (toyEnv .other fun h l _ => h + l.length) 3 3 s zeroNoise = .ok s' ∧
    s.hyp = 100 ∧ s'.hyp = 101 ∧ s'.alloc = [0, 0, 0] := ⟨_, _, _, rfl, rfl, rfl, rfl, rfl⟩

/-! ### C70: initial labels and values -/

theorem foldlM_ok_inv {S A : Type} (f : S → A → Except Fault S) (P : S → Prop)
    (h : ∀ s a s', f s a = .ok s' → P s → P s') (l : List A) (s s' : S)
    (e : l.foldlM f s = .ok s') (hs : P s) : P s' := by
  induction l generalizing s with
  | nil => cases e; exact hs
  | cons a l ih =>
    rw [List.foldlM_cons] at e
    cases hf : f s a with
    | error x => rw [hf] at e; cases e
    | ok t => rw [hf, ok_bind] at e; exact ih t e (h s a t hf hs)

/-- States of a list of objects. -/
def statesOf (l : List (Hier G H Θ)) : List Θ := l.map fun o => o.state

theorem grow_states (E : Env G H Θ) (h : H) (r : ℕ → ℕ) (m : ℕ) (o : Hier G H Θ) :
    ∃ cl, (List.range m).foldlM (growStep E h r) [o] = .ok cl ∧ cl.length = m + 1 ∧
      statesOf cl = (List.range m).map (fun k => E.sample h (r k)) ++
        [if m ≤ 1 then o.state else E.sample h (r 0)] := by
  refine foldlM_range_inv _ (fun i cl => cl.length = i + 1 ∧
      statesOf cl = (List.range i).map (fun k => E.sample h (r k)) ++
        [if i ≤ 1 then o.state else E.sample h (r 0)]) m ?_ [o] (by simp [statesOf])
  rintro i cl hi ⟨hl, hst⟩
  have h0 : 0 < cl.length := by omega
  have hi' : i < (cl ++ [cl[0].clone]).length := by simp; omega
  refine ⟨(cl ++ [cl[0].clone]).set i ((cl ++ [cl[0].clone])[i].samplePrior E h (r i)), ?_, ?_, ?_⟩
  · simp [growStep, vget_ok (List.getElem?_eq_getElem h0), vget_ok (List.getElem?_eq_getElem hi')]
  · simp [hl]
  · have h00 : (statesOf cl)[0]? = some cl[0].state := by
      simp [statesOf, List.getElem?_eq_getElem h0]
    have hcl : statesOf (cl ++ [cl[0].clone]) = statesOf cl ++ [cl[0].state] := by
      simp [statesOf, Hier.clone]
    have hset : statesOf ((cl ++ [cl[0].clone]).set i
        ((cl ++ [cl[0].clone])[i].samplePrior E h (r i))) =
        (statesOf (cl ++ [cl[0].clone])).set i (E.sample h (r i)) := by
      simp [statesOf, List.map_set, Hier.samplePrior]
    rw [hset, hcl, hst, List.range_succ]
    have hlen : ((List.range i).map (fun k => E.sample h (r k))).length = i := by simp
    have hz : cl[0].state = if i + 1 ≤ 1 then o.state else E.sample h (r 0) := by
      rw [hst] at h00
      by_cases h1 : i = 0
      · subst h1; simpa using h00.symm
      · rw [List.getElem?_append_left (by simp; omega)] at h00
        rw [if_neg (by omega)]
        simpa [show 0 < i by omega] using h00.symm
    rw [hz, List.append_assoc, List.set_append_right _ _ (by simp)]
    simp

theorem seat_states {E : Env G H Θ} {n i c : ℕ} {s s' : Alg G H Θ}
    (h : seat E n s i c = .ok s') : statesOf s'.clus = statesOf s.clus ∧
      s'.alloc = s.alloc ++ [c] := by
  unfold seat at h
  split at h
  · cases hv : vget s.clus c with
    | error e => rw [hv] at h; cases h
    | ok o =>
      rw [hv, ok_bind] at h
      cases ha : o.addDatum E s.hyp false i with
      | error e => rw [ha] at h; cases h
      | ok o' =>
        rw [ha, ok_bind] at h
        cases h
        refine ⟨?_, rfl⟩
        have hs : o'.state = o.state := by
          unfold Hier.addDatum at ha
          split at ha
          · cases ha
          · simp at ha; rw [← ha]
        have hg : s.clus[c]? = some o := by
          unfold vget at hv
          split at hv
          · cases hv; assumption
          · cases hv
        simp only [statesOf, List.map_set, hs]
        apply List.ext_getElem?
        intro j
        rw [List.getElem?_set]
        split
        · rename_i hj; subst hj
          rw [List.getElem?_map, hg]
          simp [(List.getElem?_eq_some_iff.mp hg).1]
        · rfl
  · cases h

theorem saveStep_states {E : Env G H Θ} {i : ℕ} {s s' : Alg G H Θ}
    (h : saveStep E s i = .ok s') : statesOf s'.clus = statesOf s.clus ∧
      s'.alloc = s.alloc := by
  unfold saveStep at h
  cases hv : vget s.clus i with
  | error e => rw [hv] at h; cases h
  | ok o =>
    rw [hv, ok_bind] at h
    cases ha : o.savePosterior E s.hyp with
    | error e => rw [ha] at h; cases h
    | ok o' =>
      rw [ha, ok_bind] at h
      cases h
      refine ⟨?_, rfl⟩
      have hs : o'.state = o.state := by
        unfold Hier.savePosterior at ha
        split at ha
        · cases ha
        · cases ha; rfl
      have hg : s.clus[i]? = some o := by
        unfold vget at hv
        split at hv
        · cases hv; assumption
        · cases hv
      simp only [statesOf, List.map_set, hs]
      apply List.ext_getElem?
      intro j
      rw [List.getElem?_set]
      split
      · rename_i hj; subst hj
        rw [List.getElem?_map, hg]
        simp [(List.getElem?_eq_some_iff.mp hg).1]
      · rfl

theorem seats_labels {E : Env G H Θ} {n : ℕ} (at' lab : ℕ → ℕ) (m : ℕ) {s s' : Alg G H Θ}
    (h : (List.range m).foldlM (fun s j => seat E n s (at' j) (lab j)) s = .ok s') :
    statesOf s'.clus = statesOf s.clus ∧ s'.alloc = s.alloc ++ (List.range m).map lab := by
  induction m generalizing s' with
  | zero => cases h; simp
  | succ m ih =>
    rw [List.range_succ, List.foldlM_append] at h
    cases h1 : (List.range m).foldlM (fun s j => seat E n s (at' j) (lab j)) s with
    | error e => rw [h1] at h; cases h
    | ok t =>
      rw [h1, ok_bind] at h
      simp only [List.foldlM_cons, List.foldlM_nil] at h
      cases h2 : seat E n t (at' m) (lab m) with
      | error e => rw [h2] at h; cases h
      | ok u =>
        rw [h2, ok_bind] at h
        cases h
        obtain ⟨a, b⟩ := ih h1
        obtain ⟨c, d⟩ := seat_states h2
        refine ⟨by rw [c, a], ?_⟩
        rw [d, b, List.range_succ]; simp

theorem initAlloc_shape {E : Env G H Θ} {upd : Bool} {K n : ℕ} {h0 : H} {θ0 : Θ} {z : InitNoise}
    {o : Hier G H Θ} {s : Alg G H Θ} (h : initAlloc E upd K n h0 θ0 z [o] = .ok s) :
    s.alloc = List.range K ++ (List.range (n - K)).map (fun j => z.cat j % K) ∧
    statesOf s.clus = (List.range (K - 1)).map (fun k => E.sample h0 (z.prior k)) ++
        [if K ≤ 2 then θ0 else E.sample h0 (z.prior 0)] := by
  obtain ⟨cl, e1, hl, hst⟩ := grow_states E h0 z.prior (K - 1) (initObject E h0 θ0 o)
  simp only [initAlloc, vget, List.getElem?_cons_zero, ok_bind, List.set_cons_zero, e1] at h
  cases h2 : (List.range K).foldlM (fun s i => seat E n s i i)
      ({ alloc := [], clus := cl, hyp := h0 } : Alg G H Θ) with
  | error e => rw [h2] at h; cases h
  | ok s1 =>
    rw [h2, ok_bind] at h
    cases h3 : (List.range (n - K)).foldlM (fun s j => seat E n s (K + j) (z.cat j % K)) s1 with
    | error e => rw [h3] at h; cases h
    | ok s2 =>
      rw [h3, ok_bind] at h
      obtain ⟨a1, b1⟩ := seats_labels id id K h2
      obtain ⟨a2, b2⟩ := seats_labels (fun j => K + j) (fun j => z.cat j % K) (n - K) h3
      have h4 : statesOf s.clus = statesOf s2.clus ∧ s.alloc = s2.alloc := by
        split at h
        · exact foldlM_ok_inv (saveStep E)
            (fun t => statesOf t.clus = statesOf s2.clus ∧ t.alloc = s2.alloc)
            (fun t a t' ht hp => by
              obtain ⟨x, y⟩ := saveStep_states ht
              exact ⟨x.trans hp.1, y.trans hp.2⟩) _ _ _ h ⟨rfl, rfl⟩
        · cases h; exact ⟨rfl, rfl⟩
      refine ⟨?_, ?_⟩
      · rw [h4.2, b2, b1]; simp
      · rw [h4.1, a2, a1, hst]
        have hK : (K - 1 ≤ 1) ↔ K ≤ 2 := by omega
        simp [hK, initObject]

theorem initAlgorithm_alloc {E : Env G H Θ} {c c' : Setup H Θ} {z : InitNoise}
    {objs : List (Hier G H Θ)} {s : Alg G H Θ} {K : ℕ} {h0 : H} {θ0 : Θ}
    (hK : numComponents c = .ok K) (hinit : c.hierInit = some (h0, θ0))
    (h : initAlgorithm E c z objs = .ok (c', s)) :
    initAlloc E c.algUpdatesParams K c.rows h0 θ0 z objs = .ok s := by
  unfold initAlgorithm at h
  cases hc : checkSetup E.kind objs.length c with
  | error e => rw [hc] at h; cases h
  | ok d =>
    rw [hc, ok_bind] at h
    obtain ⟨h1, -, h3, -, -, h6, h7, h8, h9, h10⟩ := checkSetup_rows hc
    have hnc : numComponents d = .ok K := by
      rw [← hK]; unfold numComponents; rw [h7, h8, h3]
    rw [hnc, ok_bind, h6, hinit] at h
    simp only at h
    rw [h9, h3] at h
    cases hi : initAlloc E c.algUpdatesParams K c.rows h0 θ0 z objs with
    | error e => rw [hi] at h; cases h
    | ok t => rw [hi, ok_bind] at h; cases h; rfl

/-- **C70, labels.** After initialization with `K` components, the first `K` rows carry the
labels `0, ..., K-1` and each further row the label drawn for it, any of the `K`. -/
theorem c70_initial_labels (E : Env G H Θ) (c c' : Setup H Θ) (z : InitNoise) (o : Hier G H Θ)
    (s : Alg G H Θ) (K : ℕ) (hK : numComponents c = .ok K)
    (h : initAlgorithm E c z [o] = .ok (c', s)) :
    (∀ i < K, s.alloc[i]? = some i) ∧
      ∀ j < c.rows - K, s.alloc[K + j]? = some (z.cat j % K) := by
  cases hh : c.hierInit with
  | none =>
    unfold initAlgorithm at h
    cases hc : checkSetup E.kind [o].length c with
    | error e => rw [hc] at h; cases h
    | ok d =>
      rw [hc, ok_bind] at h
      obtain ⟨h1, -, h3, -, -, h6, h7, h8, h9, h10⟩ := checkSetup_rows hc
      have hnc : numComponents d = .ok K := by
        rw [← hK]; unfold numComponents; rw [h7, h8, h3]
      rw [hnc, ok_bind, h6, hh] at h
      cases h
  | some p =>
    obtain ⟨h0, θ0⟩ := p
    obtain ⟨ha, -⟩ := initAlloc_shape (initAlgorithm_alloc hK hh h)
    rw [ha]
    constructor
    · intro i hi
      rw [List.getElem?_append_left (by simpa using hi)]
      simp [hi]
    · intro j hj
      rw [List.getElem?_append_right (by simp)]
      simp [hj]

/-- **C70, values (partial).** All clusters but the last start with a value drawn from the
prior. Missing: the last cluster, see `c70_last_cluster_not_drawn_violated`. -/
theorem c70_initial_values_partial (E : Env G H Θ) (c c' : Setup H Θ) (z : InitNoise)
    (o : Hier G H Θ) (s : Alg G H Θ) (K : ℕ) (hK : numComponents c = .ok K) (h0 : H) (θ0 : Θ)
    (hinit : c.hierInit = some (h0, θ0)) (h : initAlgorithm E c z [o] = .ok (c', s))
    (k : ℕ) (hk : k + 1 < K) :
    (s.clus[k]?).map (fun o => o.state) = some (E.sample h0 (z.prior k)) := by
  obtain ⟨-, hst⟩ := initAlloc_shape (initAlgorithm_alloc hK hinit h)
  have : (statesOf s.clus)[k]? = some (E.sample h0 (z.prior k)) := by
    rw [hst, List.getElem?_append_left (by simp; omega)]
    simp [show k < K - 1 by omega]
  rw [← this]; simp [statesOf]

/-- **C70, violation.** The last cluster never gets a prior draw of its own: with one or two
clusters it starts from the deterministic initial state, with three or more it starts as a copy
of the first cluster's draw, whatever the random draws are. -/
theorem c70_last_cluster_not_drawn_violated (E : Env G H Θ) (c c' : Setup H Θ) (z : InitNoise)
    (o : Hier G H Θ) (s : Alg G H Θ) (K : ℕ) (hK : numComponents c = .ok K) (h0 : H) (θ0 : Θ)
    (hinit : c.hierInit = some (h0, θ0)) (h : initAlgorithm E c z [o] = .ok (c', s)) :
    (K ≤ 2 → (s.clus[K - 1]?).map (fun o => o.state) = some θ0) ∧
    (3 ≤ K → (s.clus[K - 1]?).map (fun o => o.state) = (s.clus[0]?).map (fun o => o.state)) := by
  obtain ⟨-, hst⟩ := initAlloc_shape (initAlgorithm_alloc hK hinit h)
  have hlast : (statesOf s.clus)[K - 1]? =
      some (if K ≤ 2 then θ0 else E.sample h0 (z.prior 0)) := by
    rw [hst, List.getElem?_append_right (by simp)]
    simp
  have hm : ∀ k : ℕ, (s.clus[k]?).map (fun o => o.state) = (statesOf s.clus)[k]? := by
    intro k; simp [statesOf]
  constructor
  · intro h2; rw [hm, hlast, if_pos h2]
  · intro h3
    rw [c70_initial_values_partial E c c' z o s K hK h0 θ0 hinit h 0 (by omega), hm, hlast,
      if_neg (by omega)]

/-- Non-vacuity: five rows, three clusters. -/
example : ∃ c' s, initAlgorithm { toyEnv .conjugate (fun h _ _ => h) with
      sample := fun h r => h + r } (toySetup true 5 3) ⟨fun k => k + 1, fun j => j⟩ [toyObj] =
      .ok (c', s) ∧ s.alloc = [0, 1, 2, 0, 1] ∧ s.clus.map (·.state) = [101, 102, 101] :=
  ⟨_, _, rfl, rfl, rfl⟩

end Bayesmix
