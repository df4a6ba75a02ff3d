import Verif.Alloc.InitModel
import Verif.Alloc.Sweep

/-! Helper lemmas on initialization. -/

namespace Bayesmix

variable {G H Θ : Type} [AddCommGroup G]

/-- An object without data. -/
structure Hier.Blank (o : Hier G H Θ) : Prop where
  card : o.card = 0
  idx : o.idx = ∅
  ss : o.ss = 0
  cache : o.CacheOk

theorem Hier.blank_clone (o : Hier G H Θ) : (o.clone).Blank :=
  ⟨rfl, rfl, rfl, Hier.cacheOk_clone o⟩

theorem Hier.blank_samplePrior {E : Env G H Θ} {h : H} {r : ℕ} {o : Hier G H Θ} (ho : o.Blank) :
    (o.samplePrior E h r).Blank := ⟨ho.card, ho.idx, ho.ss, ho.cache⟩

theorem grow_ok (E : Env G H Θ) (h : H) (r : ℕ → ℕ) (m : ℕ) (o : Hier G H Θ) (ho : o.Blank) :
    ∃ cl, (List.range m).foldlM (growStep E h r) [o] = .ok cl ∧ cl.length = m + 1 ∧
      ∀ p ∈ cl, p.Blank := by
  refine foldlM_range_inv _ (fun i cl => cl.length = i + 1 ∧ ∀ p ∈ cl, Hier.Blank p) m ?_ [o]
    (by simp [ho])
  rintro i cl hi ⟨hl, hb⟩
  have h0 : 0 < cl.length := by omega
  have hi' : i < (cl ++ [cl[0].clone]).length := by simp; omega
  refine ⟨(cl ++ [cl[0].clone]).set i ((cl ++ [cl[0].clone])[i].samplePrior E h (r i)), ?_, ?_, ?_⟩
  · simp [growStep, vget_ok (List.getElem?_eq_getElem h0), vget_ok (List.getElem?_eq_getElem hi')]
  · simp [hl]
  · have hall : ∀ p ∈ cl ++ [cl[0].clone], p.Blank := by
      intro p hp
      rcases List.mem_append.mp hp with hp | hp
      · exact hb p hp
      · simp at hp; subst hp; exact Hier.blank_clone _
    intro p hp
    rcases List.mem_or_eq_of_mem_set hp with hp | rfl
    · exact hall p hp
    · exact Hier.blank_samplePrior (hall _ (List.getElem_mem _))

theorem getElem?_append_lt {α : Type} {l m : List α} {i : ℕ} (h : i < l.length) :
    (l ++ m)[i]? = l[i]? := List.getElem?_append_left h

/-- Extending the label list does not affect rows already seated. -/
theorem consistentOn_extend {f : ℕ → G} {s : Alg G H Θ} {i x : ℕ} (hl : s.alloc.length = i)
    (hc : ConsistentOn f (Finset.range i) s) :
    ConsistentOn f (Finset.range i) { s with alloc := s.alloc ++ [x] } := by
  have hm : ∀ k, membersIn (Finset.range i) (s.alloc ++ [x]) k =
      membersIn (Finset.range i) s.alloc k := by
    intro k; ext j
    simp only [mem_membersIn, Finset.mem_range]
    constructor
    · rintro ⟨h1, h2⟩; rw [getElem?_append_lt (by omega)] at h2; exact ⟨h1, h2⟩
    · rintro ⟨h1, h2⟩; rw [getElem?_append_lt (by omega)]; exact ⟨h1, h2⟩
  constructor
  · intro j hj
    obtain ⟨c, h1, h2⟩ := hc.labelled j hj
    refine ⟨c, ?_, h2⟩
    rw [Finset.mem_range] at hj
    show (s.alloc ++ [x])[j]? = some c
    rw [getElem?_append_lt (by omega), h1]
  · intro k o ho; show o.idx = _; rw [hm]; exact hc.members k o ho
  · intro k o ho; show o.card = _; rw [hm]; exact hc.cards k o ho
  · intro k o ho; show o.ss = _; rw [hm]; exact hc.stats k o ho

theorem seat_ok {E : Env G H Θ} {n i c : ℕ} {s : Alg G H Θ} (hi : i < n)
    (hl : s.alloc.length = i) (hc : ConsistentOn E.contrib (Finset.range i) s)
    (hlt : c < s.clus.length) (hca : CachesOk s) :
    ∃ s', seat E n s i c = .ok s' ∧ s'.alloc = s.alloc ++ [c] ∧
      ConsistentOn E.contrib (Finset.range (i + 1)) s' ∧ s'.clus.length = s.clus.length ∧
      CachesOk s' ∧ s'.hyp = s.hyp ∧
      s'.clus = s.clus.set c ((s.clus[c]).added E s.hyp false i) := by
  have ho := List.getElem?_eq_getElem hlt
  set o := s.clus[c] with hodef
  have hnm : i ∉ o.idx := by
    rw [hc.members c o ho, mem_membersIn]; simp
  refine ⟨{ s with alloc := s.alloc ++ [c], clus := s.clus.set c (o.added E s.hyp false i) },
    ?_, rfl, ?_, by simp, ?_, rfl, rfl⟩
  · simp [seat, hi, vget_ok ho, Hier.addDatum_eq hnm (canSave_false E)]
  · have h1 := consistentOn_extend (x := 0) hl hc
    have h2 := attach_existing (i := i) (c := c) (o' := o.added E s.hyp false i) h1 (by simp)
      (by simp [hl]) ho rfl rfl rfl
    have h3 := h2.cons
    rw [← Finset.range_add_one] at h3
    have : (s.alloc ++ [0]).set i c = s.alloc ++ [c] := by
      rw [List.set_append_right _ _ (by omega)]; simp [hl]
    rw [this] at h3
    exact h3
  · intro p hp
    rcases List.mem_or_eq_of_mem_set hp with hp | rfl
    · exact hca p hp
    · exact Hier.cacheOk_added (hca o (List.mem_of_getElem? ho))

/-- State of the initial allocation after `i` rows, with `K` components. -/
structure Seated (f : ℕ → G) (K i : ℕ) (s : Alg G H Θ) : Prop where
  len : s.alloc.length = i
  cons : ConsistentOn f (Finset.range i) s
  nclus : s.clus.length = K
  own : ∀ j < min i K, s.alloc[j]? = some j
  caches : CachesOk s

theorem seated_step {E : Env G H Θ} {n K i c : ℕ} {s : Alg G H Θ} (hi : i < n)
    (hs : Seated E.contrib K i s) (hc : c < K) (hown : i < K → c = i) :
    ∃ s', seat E n s i c = .ok s' ∧ Seated E.contrib K (i + 1) s' ∧ s'.hyp = s.hyp := by
  obtain ⟨s', e, ha, hcons, hl, hca, hh, -⟩ :=
    seat_ok hi hs.len hs.cons (by rw [hs.nclus]; exact hc) hs.caches
  refine ⟨s', e, ⟨by rw [ha]; simp [hs.len], hcons, by rw [hl, hs.nclus], ?_, hca⟩, hh⟩
  intro j hj
  rw [ha]
  by_cases hji : j < i
  · rw [getElem?_append_lt (by rw [hs.len]; exact hji)]
    exact hs.own j (by omega)
  · have hj' : j = i := by omega
    subst hj'
    rw [List.getElem?_append_right (by rw [hs.len])]
    simp [hs.len, hown (by omega)]

/-- `saveStep` over the components keeps the allocation and marks them saved. -/
theorem saveAll_ok {E : Env G H Θ} {f : ℕ → G} {A : Finset ℕ} {K : ℕ} {s : Alg G H Θ}
    (hk : E.kind ≠ .other) (hK : s.clus.length = K) (hc : ConsistentOn f A s)
    (hca : CachesOk s) :
    ∃ s', (List.range K).foldlM (saveStep E) s = .ok s' ∧ s'.alloc = s.alloc ∧
      s'.clus.length = K ∧ ConsistentOn f A s' ∧ CachesOk s' ∧ s'.hyp = s.hyp ∧
      ∀ (k : ℕ) (o : Hier G H Θ), s'.clus[k]? = some o → o.saved = true ∧
        o.ph = some (E.post s.hyp o.card o.ss) := by
  have := foldlM_range_inv (saveStep E) (fun i s' => s'.alloc = s.alloc ∧ s'.clus.length = K ∧
    ConsistentOn f A s' ∧ CachesOk s' ∧ s'.hyp = s.hyp ∧
      ∀ (k : ℕ) (o : Hier G H Θ), k < i → s'.clus[k]? = some o → o.saved = true ∧
        o.ph = some (E.post s.hyp o.card o.ss)) K ?_ s
      ⟨rfl, hK, hc, hca, rfl, by intro k o hk; omega⟩
  · obtain ⟨s', e, h1, h2, h3, h4, h5, h6⟩ := this
    refine ⟨s', e, h1, h2, h3, h4, h5, ?_⟩
    intro k o ho
    exact h6 k o (by have := (List.getElem?_eq_some_iff.mp ho).1; omega) ho
  · rintro i s' hi ⟨h1, h2, h3, h4, h5, h6⟩
    have hi' : i < s'.clus.length := by omega
    have ho := List.getElem?_eq_getElem hi'
    set o := s'.clus[i] with hodef
    set o' : Hier G H Θ := { o with saved := true, ph := some (E.post s'.hyp o.card o.ss) }
      with ho'def
    refine ⟨{ s' with clus := s'.clus.set i o' }, ?_, h1, by simpa using h2, ?_, ?_, h5, ?_⟩
    · simp [saveStep, vget_ok ho, Hier.savePosterior, hk, ho'def]
    · refine consistentOn_congr h3 rfl (by simp) ?_
      intro k q hq
      by_cases hki : i = k
      · subst hki
        simp [hi'] at hq; subst hq
        exact ⟨o, ho, rfl, rfl, rfl⟩
      · simp [List.getElem?_set_ne hki] at hq
        exact ⟨q, hq, rfl, rfl, rfl⟩
    · intro q hq
      rcases List.mem_or_eq_of_mem_set hq with hq | rfl
      · exact h4 q hq
      · simp [Hier.CacheOk, ho'def]
    · intro k q hk' hq
      by_cases hki : i = k
      · subst hki
        simp [hi'] at hq; subst hq
        simp [ho'def, h5]
      · simp [List.getElem?_set_ne hki] at hq
        exact h6 k q (by omega) hq

/-- Lines 121-150 from a single hierarchy object. -/
theorem initAlloc_ok {E : Env G H Θ} {upd : Bool} {K n : ℕ} {h0 : H} {θ0 : Θ} (z : InitNoise)
    {o : Hier G H Θ} (hupd : CanSave E upd) (hK : 0 < K) (hKn : K ≤ n) (hca : o.CacheOk) :
    ∃ s, initAlloc E upd K n h0 θ0 z [o] = .ok s ∧ MarginalOk E.contrib n s ∧
      s.clus.length = K ∧ s.hyp = h0 ∧
      (upd = true → ∀ (k : ℕ) (p : Hier G H Θ), s.clus[k]? = some p → p.saved = true ∧
        p.ph = some (E.post h0 p.card p.ss)) := by
  have hblank : (initObject E h0 θ0 o).Blank := by
    refine ⟨rfl, rfl, rfl, ?_⟩
    by_cases h : E.kind = .conjugate <;> simp [Hier.CacheOk, initObject, h]
    exact hca
  obtain ⟨cl, e1, hlen, hb⟩ := grow_ok E h0 z.prior (K - 1) (initObject E h0 θ0 o) hblank
  have hlen' : cl.length = K := by omega
  set s0 : Alg G H Θ := { alloc := [], clus := cl, hyp := h0 } with hs0
  have hseat0 : Seated E.contrib K 0 s0 := by
    have hm : ∀ k, membersIn (Finset.range 0) ([] : List ℕ) k = ∅ := by
      intro k; simp [membersIn]
    refine ⟨rfl, ⟨by simp, ?_, ?_, ?_⟩, hlen', by simp, fun p hp => (hb p hp).cache⟩
    · intro k p hp; rw [hm]; exact (hb p (List.mem_of_getElem? hp)).idx
    · intro k p hp; rw [hm]; exact (hb p (List.mem_of_getElem? hp)).card
    · intro k p hp; rw [hm]; exact (hb p (List.mem_of_getElem? hp)).ss
  obtain ⟨s1, e2, h1, hh1⟩ := foldlM_range_inv (fun s i => seat E n s i i)
    (fun i s => Seated E.contrib K i s ∧ s.hyp = h0) K (by
      rintro i s hi ⟨hs, hh⟩
      obtain ⟨s', e, a, b⟩ := seated_step (n := n) (by omega) hs hi (fun _ => rfl)
      exact ⟨s', e, a, by rw [b, hh]⟩) s0 ⟨hseat0, rfl⟩
  obtain ⟨s2, e3, h2, hh2⟩ := foldlM_range_inv (fun s j => seat E n s (K + j) (z.cat j % K))
    (fun j s => Seated E.contrib K (K + j) s ∧ s.hyp = h0) (n - K) (by
      rintro j s hj ⟨hs, hh⟩
      obtain ⟨s', e, a, b⟩ := seated_step (n := n) (c := z.cat j % K) (by omega) hs (Nat.mod_lt _ hK)
        (by omega)
      exact ⟨s', e, a, by rw [b, hh]⟩) s1 ⟨h1, hh1⟩
  have hKn' : K + (n - K) = n := by omega
  rw [hKn'] at h2
  have hno : ∀ s' : Alg G H Θ, s'.alloc = s2.alloc → s'.clus.length = K →
      NoEmptyOn (Finset.range n) s' := by
    intro s' ha hl k hk
    refine ⟨k, by simp; omega, ?_⟩
    rw [ha]; exact h2.own k (by omega)
  have hstart : initAlloc E upd K n h0 θ0 z [o] =
      if upd then (List.range K).foldlM (saveStep E) s2 else .ok s2 := by
    simp only [initAlloc, vget, List.getElem?_cons_zero, ok_bind, List.set_cons_zero, e1]
    rw [e2, ok_bind, e3, ok_bind]
  rw [hstart]
  cases upd with
  | false =>
    exact ⟨s2, by simp, ⟨⟨h2.len, h2.cons⟩, hno s2 rfl h2.nclus, h2.caches⟩, h2.nclus, hh2,
      by simp⟩
  | true =>
    obtain ⟨s3, e4, a, b, c, d, e, g⟩ := saveAll_ok (hupd rfl) h2.nclus h2.cons h2.caches
    refine ⟨s3, by simpa using e4, ⟨⟨by rw [a]; exact h2.len, c⟩, hno s3 a b, d⟩, b,
      by rw [e, hh2], ?_⟩
    intro _ k p hp
    have := g k p hp
    rw [hh2] at this; exact this

end Bayesmix
