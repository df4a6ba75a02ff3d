import Verif.Algo.SemiHdpStep

/-! The invariant of the semi-HDP sampler. -/

namespace Bayesmix.SemiHdp

variable {g : ℕ} {T : Type}

/-- The state between two parts of a step; `n i` is the number of observations of group `i`. -/
structure Inv (n : Fin g → ℕ) (s : State g T) : Prop where
  wf : Wf s
  number : ∀ i, (s.allocs i).length = n i
  usedRest : ∀ r, s.isUsedRest r = true ↔ ∃ i, s.restAllocs i = r
  counts : ∀ r, (s.nByTable r).length = (s.rest r).length

/-- The private tables hold their private values. -/
def PLinked (s : State g T) : Prop :=
  ∀ r (l : ℕ) p, (s.toPrivate r)[l]? = some p → 0 ≤ p → (s.rest r)[l]? = (s.priv r)[p.toNat]?

/-- The pseudo-prior offers at least one table for each restaurant, and a count for each table. -/
def PseudoOk (ps : Pseudo g T) : Prop :=
  ∀ r, ps.tables r ≠ [] ∧ (ps.counts r).length = (ps.tables r).length

theorem mapM_seats (l : List ℕ) (m : ℕ) (hm : 0 < m) (seat : ℕ → ℕ) (c k : ℕ) (hck : ¬ c < k) :
    ∃ al : List ℤ, (l.mapM fun j =>
        if c < k then (.error .ub : Except Fault ℤ)
        else do
          let a ← categorical m (seat j)
          .ok (a : ℤ)) = .ok al ∧ al.length = l.length ∧ ∀ a ∈ al, 0 ≤ a ∧ a < m := by
  induction l with
  | nil => exact ⟨[], rfl, rfl, by simp⟩
  | cons j l ih =>
    obtain ⟨al, h1, h2, h3⟩ := ih
    refine ⟨((seat j % m : ℕ) : ℤ) :: al, ?_, by simp [h2], ?_⟩
    · rw [List.mapM_cons, if_neg hck, categorical_ok _ hm, ok_bind, ok_bind, h1]
      rfl
    · intro a ha
      rcases List.mem_cons.mp ha with rfl | ha
      · have := Nat.mod_lt (seat j) hm
        omega
      · exact h3 a ha

theorem Inv.rest_pos {n : Fin g → ℕ} {s : State g T} (h : Inv n s) (hn : ∀ i, 0 < n i) {r : Fin g}
    (hr : s.isUsedRest r = true) : 0 < (s.rest r).length := by
  obtain ⟨i, hi⟩ := (h.usedRest r).mp hr
  have hlen : 0 < (s.allocs i).length := by rw [h.number]; exact hn i
  have := (h.wf r).seats i hi _ (List.getElem_mem hlen)
  omega

theorem reassignGroup_ok {n : Fin g → ℕ} {s : State g T} {ps : Pseudo g T} (h : Inv n s)
    (hp : PLinked s) (hn : ∀ i, 0 < n i) (hps : PseudoOk ps) (i new : Fin g)
    (hnew : new ≠ s.restAllocs i) (seat : ℕ → ℕ) :
    ∃ s', reassignGroup ps s i new seat = .ok s' ∧ Inv n s' ∧ PLinked s' := by
  have hra : ∀ k r, Function.update s.restAllocs i new k = r →
      (k = i ∧ r = new) ∨ (k ≠ i ∧ s.restAllocs k = r) := by
    intro k r hk
    by_cases hki : k = i
    · subst hki
      rw [Function.update_self] at hk
      exact Or.inl ⟨rfl, hk.symm⟩
    · rw [Function.update_of_ne hki] at hk
      exact Or.inr ⟨hki, hk⟩
  have hused : ∀ r, r ≠ new →
      (Function.update s.isUsedRest (s.restAllocs i)
        (decide (∃ k, Function.update s.restAllocs i new k = s.restAllocs i)) r = true ↔
      ∃ k, Function.update s.restAllocs i new k = r) := by
    intro r hr
    by_cases hro : r = s.restAllocs i
    · subst hro
      simp
    · rw [Function.update_of_ne hro, h.usedRest]
      constructor
      · rintro ⟨k, hk⟩
        refine ⟨k, ?_⟩
        rw [Function.update_of_ne, hk]
        rintro rfl
        exact hro hk.symm
      · rintro ⟨k, hk⟩
        rcases hra k r hk with ⟨_, h2⟩ | ⟨_, h2⟩
        · exact absurd h2 hr
        · exact ⟨k, h2⟩
  unfold reassignGroup
  simp only [Function.update_of_ne hnew]
  by_cases hu : s.isUsedRest new = true
  · simp only [hu, if_true]
    obtain ⟨al, h1, h2, h3⟩ := mapM_seats (List.range (s.allocs i).length) (s.rest new).length
      (h.rest_pos hn hu) seat (s.nByTable new).length (s.rest new).length
      (by rw [h.counts]; omega)
    rw [h1, ok_bind]
    refine ⟨_, rfl, ⟨?_, ?_, ?_, h.counts⟩, hp⟩
    · intro r
      refine (h.wf r).congr rfl rfl rfl rfl le_rfl ?_
      intro k hk a ha
      dsimp only at hk ha ⊢
      rcases hra k r hk with ⟨rfl, rfl⟩ | ⟨hk1, hk2⟩
      · rw [Function.update_self] at ha
        exact h3 a ha
      · rw [Function.update_of_ne hk1] at ha
        exact (h.wf r).seats k hk2 a ha
    · intro k
      dsimp only
      by_cases hki : k = i
      · subst hki
        rw [Function.update_self, h2]
        simpa using h.number k
      · rw [Function.update_of_ne hki]
        exact h.number k
    · intro r
      dsimp only
      by_cases hr : r = new
      · subst hr
        rw [Function.update_of_ne hnew]
        exact ⟨fun _ => ⟨i, by simp⟩, fun _ => hu⟩
      · exact hused r hr
  · have hu' : s.isUsedRest new = false := by simpa using hu
    simp only [hu', Bool.false_eq_true, if_false, Function.update_self]
    obtain ⟨hne, hcl⟩ := hps new
    have hpos : 0 < (ps.tables new).length := List.length_pos_of_ne_nil hne
    obtain ⟨al, h1, h2, h3⟩ := mapM_seats (List.range (s.allocs i).length) (ps.tables new).length
      hpos seat (ps.counts new).length (ps.tables new).length (by omega)
    rw [h1, ok_bind]
    refine ⟨_, rfl, ⟨?_, ?_, ?_, ?_⟩, ?_⟩
    · intro r
      by_cases hr : r = new
      · subst hr
        refine ⟨?_, ?_, ?_, ?_, ?_, ?_, ?_, ?_⟩
        · simp
        · simp
        · intro l p t hp ht
          simp only [Function.update_self, List.getElem?_map, List.getElem?_replicate,
            Option.map_eq_some_iff, Option.ite_none_right_eq_some] at hp ht
          obtain ⟨q, _, rfl⟩ := hp
          obtain ⟨_, ht⟩ := ht
          simp only [Option.some.injEq] at ht
          omega
        · intro l p hp
          simp only [Function.update_self, List.getElem?_map, Option.map_eq_some_iff] at hp ⊢
          obtain ⟨q, hq, rfl⟩ := hp
          have := List.mem_of_getElem? hq
          simp only [List.mem_range] at this
          omega
        · intro l l' p hp hp' _
          simp only [Function.update_self, List.getElem?_map, Option.map_eq_some_iff] at hp hp'
          obtain ⟨q, hq, hqp⟩ := hp
          obtain ⟨q', hq', hqp'⟩ := hp'
          rw [List.getElem?_range (by
            have := (List.getElem?_eq_some_iff.mp hq).1
            simpa using this)] at hq
          rw [List.getElem?_range (by
            have := (List.getElem?_eq_some_iff.mp hq').1
            simpa using this)] at hq'
          simp only [Option.some.injEq] at hq hq'
          omega
        · intro k hk
          simp only [Function.update_self] at hk ⊢
          exact ⟨k, by simp [hk]⟩
        · intro l t ht
          simp only [Function.update_self, List.getElem?_replicate,
            Option.ite_none_right_eq_some, Option.some.injEq] at ht
          omega
        · intro k hk a ha
          dsimp only at hk ha ⊢
          rcases hra k r hk with ⟨rfl, _⟩ | ⟨hk1, hk2⟩
          · rw [Function.update_self] at ha ⊢
            exact h3 a ha
          · exact absurd ((h.usedRest r).mpr ⟨k, hk2⟩) hu
      · refine (h.wf r).congr ?_ ?_ ?_ ?_ le_rfl ?_
        · simp [Function.update_of_ne hr]
        · simp [Function.update_of_ne hr]
        · simp [Function.update_of_ne hr]
        · simp [Function.update_of_ne hr]
        intro k hk a ha
        dsimp only at hk ha ⊢
        rw [Function.update_of_ne hr]
        rcases hra k r hk with ⟨_, h2⟩ | ⟨hk1, hk2⟩
        · exact absurd h2 hr
        · rw [Function.update_of_ne hk1] at ha
          exact (h.wf r).seats k hk2 a ha
    · intro k
      dsimp only
      by_cases hki : k = i
      · subst hki
        rw [Function.update_self, h2]
        simpa using h.number k
      · rw [Function.update_of_ne hki]
        exact h.number k
    · intro r
      dsimp only
      by_cases hr : r = new
      · subst hr
        rw [Function.update_self]
        exact ⟨fun _ => ⟨i, by simp⟩, fun _ => rfl⟩
      · rw [Function.update_of_ne hr]
        exact hused r hr
    · intro r
      dsimp only
      by_cases hr : r = new
      · subst hr
        simp [hcl]
      · simp only [Function.update_of_ne hr]
        exact h.counts r
    · intro r l p hlp hp0
      dsimp only at hlp ⊢
      by_cases hr : r = new
      · subst hr
        simp only [Function.update_self, List.getElem?_map, Option.map_eq_some_iff] at hlp ⊢
        obtain ⟨q, hq, rfl⟩ := hlp
        rw [List.getElem?_range (by
            have := (List.getElem?_eq_some_iff.mp hq).1
            simpa using this)] at hq
        simp only [Option.some.injEq] at hq
        subst hq
        simp
      · simp only [Function.update_of_ne hr] at hlp ⊢
        exact hp r l p hlp hp0

theorem forM_ok {α : Type} (l : List α) (f : α → Except Fault Unit) (h : ∀ a ∈ l, f a = .ok ()) :
    l.forM f = .ok () := by
  induction l with
  | nil => rfl
  | cons a l ih =>
    show (f a >>= fun _ => l.forM f) = _
    rw [h a (by simp), ok_bind, ih fun b hb => h b (by simp [hb])]

theorem updateRestAllocs_ok {n : Fin g → ℕ} {s : State g T} {ps : Pseudo g T} (h : Inv n s)
    (hp : PLinked s) (hn : ∀ i, 0 < n i) (hps : PseudoOk ps) (choice : Fin g → Fin g)
    (seat : Fin g → ℕ → ℕ) :
    ∃ s', updateRestAllocs ps choice seat s = .ok s' ∧ Inv n s' ∧ PLinked s' := by
  refine foldlM_list_inv (updateRest ps choice seat) (fun s => Inv n s ∧ PLinked s) ?_ _ s ⟨h, hp⟩
  rintro i s ⟨h, hp⟩
  unfold updateRest
  rw [forM_ok _ _ fun r _ => by
    unfold readCounts
    rw [if_neg]
    rw [h.counts, (hps r).2]
    omega, ok_bind]
  by_cases hc : choice i = s.restAllocs i
  · rw [if_pos hc]
    exact ⟨s, rfl, h, hp⟩
  · rw [if_neg hc]
    exact reassignGroup_ok h hp hn hps i _ hc _

/-! ### `update_to_shared` -/

/-- What `update_to_shared` leaves alone. -/
structure Relinked (s s' : State g T) : Prop where
  wf : Wf s'
  rest : s'.rest = s.rest
  priv : s'.priv = s.priv
  nByTable : s'.nByTable = s.nByTable
  allocs : s'.allocs = s.allocs
  restAllocs : s'.restAllocs = s.restAllocs
  isUsedRest : s'.isUsedRest = s.isUsedRest
  toPrivate : s'.toPrivate = s.toPrivate
  cnt : s'.cntShared.length = s'.shared.length

theorem wf_relink {s : State g T} (h : Wf s) {r : Fin g} {l : ℕ} {t₀ : ℤ} {t : ℕ}
    (hl : (s.toShared r)[l]? = some t₀) (ht₀ : 0 ≤ t₀) (sh : List T) (cnt : List ℤ)
    (hsh : s.shared.length ≤ sh.length) (ht : t < sh.length) :
    Wf { s with
      cntShared := cnt
      toShared := Function.update s.toShared r ((s.toShared r).set l (t : ℤ))
      shared := sh } := by
  intro r'
  by_cases hr : r' = r
  · subst hr
    refine ⟨(h r').lenP, ?_, ?_, (h r').privRange, (h r').privInj, (h r').privOnto, ?_, (h r').seats⟩
    · simpa using (h r').lenS
    · intro k p t' hp ht'
      simp only [Function.update_self, List.getElem?_set] at ht'
      split at ht'
      · rename_i hlk
        subst hlk
        rw [if_pos (List.getElem?_eq_some_iff.mp hl).1] at ht'
        simp only [Option.some.injEq] at ht'
        rcases (h r').kind l p t₀ hp hl with h1 | h1 <;> omega
      · exact (h r').kind k p t' hp ht'
    · intro k t' ht'
      simp only [Function.update_self, List.getElem?_set] at ht'
      dsimp only
      split at ht'
      · rename_i hlk
        subst hlk
        rw [if_pos (List.getElem?_eq_some_iff.mp hl).1] at ht'
        simp only [Option.some.injEq] at ht'
        omega
      · have := (h r').sharedRange k t' ht'
        omega
  · refine (h r').congr rfl rfl ?_ rfl hsh (h r').seats
    simp [Function.update_of_ne hr]

theorem relinkTable_ok {s s' : State g T} (h : Relinked s s') (data : List (List (Obs g)))
    (draw : ℕ → ℕ) (new : ℕ → T) (r : Fin g) {l : ℕ} (hl : l < (s'.rest r).length)
    (hd : data.length = (s'.rest r).length) :
    ∃ s'', relinkTable data draw new r s' l = .ok s'' ∧ Relinked s s'' := by
  obtain ⟨t, ht, ht'⟩ := vget_ok' (v := s'.toShared r) (i := l) (by rw [(h.wf r).lenS]; exact hl)
  obtain ⟨d, hd, hd'⟩ := vget_ok' (v := data) (i := l) (by omega)
  unfold relinkTable
  rw [ht, ok_bind, hd, ok_bind]
  by_cases hc : 0 ≤ t ∧ d ≠ []
  · rw [if_pos hc]
    have htr := (h.wf r).sharedRange l t ht'
    obtain ⟨cnt, hcnt, hcl⟩ := decr_ok (u := s'.cntShared) hc.1 (by rw [h.cnt]; exact htr)
    rw [hcnt, ok_bind, if_neg (by rw [hcl, h.cnt]; omega), categorical_ok _ (by omega), ok_bind,
      vset_ok (List.getElem?_eq_some_iff.mp ht').1, ok_bind]
    have hmod := Nat.mod_lt (draw l) (y := s'.shared.length + 1) (by omega)
    generalize draw l % (s'.shared.length + 1) = m at hmod
    by_cases hm : m < s'.shared.length
    · rw [if_pos hm]
      obtain ⟨cnt', hc1, hc2, -⟩ := incr_ok (u := cnt) (a := (m : ℤ)) (by omega)
        (by rw [hcl, h.cnt]; omega)
      rw [hc1, ok_bind]
      exact ⟨_, rfl, wf_relink h.wf ht' hc.1 s'.shared cnt' le_rfl hm, h.rest, h.priv, h.nByTable,
        h.allocs, h.restAllocs, h.isUsedRest, h.toPrivate, (hc2.trans hcl).trans h.cnt⟩
    · rw [if_neg hm]
      refine ⟨_, rfl, wf_relink h.wf ht' hc.1 (s'.shared ++ [new l]) (cnt ++ [1]) (by simp) ?_,
        h.rest, h.priv, h.nByTable, h.allocs, h.restAllocs, h.isUsedRest, h.toPrivate, ?_⟩
      · rw [List.length_append, List.length_singleton]
        exact hmod
      · simp [hcl, h.cnt]
  · rw [if_neg hc]
    exact ⟨s', rfl, h⟩

theorem countM_len {s : State g T} (h : Wf s) :
    ∃ c, countM s = .ok { s with cntShared := c } ∧ c.length = s.shared.length :=
  ⟨_, countM_ok h, by simp⟩

theorem updateToShared_ok {s : State g T} (h : Wf s) (draw : Fin g → ℕ → ℕ) (new : Fin g → ℕ → T) :
    ∃ s', updateToShared draw new s = .ok s' ∧ Relinked s s' := by
  obtain ⟨c, hc, hcl⟩ := countM_len h
  unfold updateToShared
  rw [hc, ok_bind]
  refine foldlM_list_inv _ (Relinked s) ?_ _ _
    ⟨wf_counts h s.nByTable c, rfl, rfl, rfl, rfl, rfl, rfl, rfl, hcl⟩
  intro r s' h'
  rw [dataByTheta_ok (h'.wf r), ok_bind]
  obtain ⟨s'', h1, h2, -⟩ := foldlM_range_inv
    (relinkTable ((List.range (s'.rest r).length).map (tableData s' r)) (draw r) (new r) r)
    (fun _ s'' => Relinked s s'' ∧ s''.rest = s'.rest) (s'.rest r).length
    (fun l s'' hl h'' => by
      obtain ⟨s₃, h3, h4⟩ := relinkTable_ok h''.1 ((List.range (s'.rest r).length).map
        (tableData s' r)) (draw r) (new r) r (l := l) (by rw [h''.2]; exact hl)
        (by rw [h''.2]; simp)
      exact ⟨s₃, h3, h4, by rw [h4.rest, h'.rest]⟩)
    s' ⟨h', rfl⟩
  exact ⟨s'', h1, h2⟩

theorem Relinked.inv {n : Fin g → ℕ} {s s' : State g T} (h : Relinked s s') (hi : Inv n s) :
    Inv n s' where
  wf := h.wf
  number := by rw [h.allocs]; exact hi.number
  usedRest := by rw [h.isUsedRest, h.restAllocs]; exact hi.usedRest
  counts := by rw [h.nByTable, h.rest]; exact hi.counts

theorem Relinked.pLinked {s s' : State g T} (h : Relinked s s') (hp : PLinked s) : PLinked s' := by
  unfold PLinked
  rw [h.toPrivate, h.rest, h.priv]
  exact hp

/-! ### `update_table_allocs` -/

/-- The state while observations are being seated. -/
structure Seating (n : Fin g → ℕ) (s s' : State g T) : Prop where
  wf : Wf s'
  number : ∀ i, (s'.allocs i).length = n i
  restAllocs : s'.restAllocs = s.restAllocs
  isUsedRest : s'.isUsedRest = s.isUsedRest
  counts : ∀ r, (s'.rest r).length ≤ (s'.nByTable r).length
  cnt : s'.cntShared.length = s'.shared.length
  link : PLinked s'

/-- A new table, linked to a private value `p` or a shared value `t`, at which an observation sits. -/
theorem restOk_newTable {s s' : State g T} {r : Fin g} (h : RestOk s r) (o : T) (p t : ℤ)
    (hrest : s'.rest r = s.rest r ++ [o]) (hts : s'.toShared r = s.toShared r ++ [t])
    (htp : s'.toPrivate r = s.toPrivate r ++ [p])
    (hk : (p = (s.priv r).length ∧ t = -1 ∧ (s'.priv r).length = (s.priv r).length + 1) ∨
      (p = -1 ∧ 0 ≤ t ∧ t < s'.shared.length ∧ (s'.priv r).length = (s.priv r).length))
    (hsh : s.shared.length ≤ s'.shared.length)
    (hseat : ∀ i, s'.restAllocs i = r → ∀ a ∈ s'.allocs i, 0 ≤ a ∧ a < (s'.rest r).length) :
    RestOk s' r := by
  have hget : ∀ (l : ℕ) q, (s'.toPrivate r)[l]? = some q →
      (l < (s.rest r).length ∧ (s.toPrivate r)[l]? = some q) ∨ (l = (s.rest r).length ∧ q = p) := by
    intro l q hq
    rw [htp, List.getElem?_append] at hq
    split at hq
    · rename_i hl
      exact Or.inl ⟨by rw [← h.lenP]; exact hl, hq⟩
    · rename_i hl
      have := List.mem_of_getElem? hq
      simp only [List.mem_singleton] at this
      refine Or.inr ⟨?_, this⟩
      have := (List.getElem?_eq_some_iff.mp hq).1
      simp only [List.length_singleton, h.lenP] at this hl
      omega
  have hget' : ∀ (l : ℕ) q, (s'.toShared r)[l]? = some q →
      (l < (s.rest r).length ∧ (s.toShared r)[l]? = some q) ∨ (l = (s.rest r).length ∧ q = t) := by
    intro l q hq
    rw [hts, List.getElem?_append] at hq
    split at hq
    · rename_i hl
      exact Or.inl ⟨by rw [← h.lenS]; exact hl, hq⟩
    · rename_i hl
      have := List.mem_of_getElem? hq
      simp only [List.mem_singleton] at this
      refine Or.inr ⟨?_, this⟩
      have := (List.getElem?_eq_some_iff.mp hq).1
      simp only [List.length_singleton, h.lenS] at this hl
      omega
  refine ⟨?_, ?_, ?_, ?_, ?_, ?_, ?_, hseat⟩
  · rw [htp, hrest]; simp [h.lenP]
  · rw [hts, hrest]; simp [h.lenS]
  · intro l q t' hq ht'
    rcases hget l q hq with ⟨h1, h2⟩ | ⟨h1, rfl⟩ <;> rcases hget' l t' ht' with ⟨h3, h4⟩ | ⟨h3, rfl⟩
    · exact h.kind l q t' h2 h4
    · omega
    · omega
    · omega
  · intro l q hq
    rcases hget l q hq with ⟨h1, h2⟩ | ⟨h1, rfl⟩
    · have := h.privRange l q h2
      omega
    · omega
  · intro l l' q hq hq' hq0
    rcases hget l q hq with ⟨h1, h2⟩ | ⟨h1, rfl⟩ <;> rcases hget l' _ hq' with ⟨h3, h4⟩ | ⟨h3, h4⟩
    · exact h.privInj l l' q h2 h4 hq0
    · have := h.privRange l q h2
      omega
    · have := h.privRange l' _ h4
      omega
    · omega
  · intro k hk'
    by_cases hlt : k < (s.priv r).length
    · obtain ⟨l, hl⟩ := h.privOnto k hlt
      refine ⟨l, ?_⟩
      rw [htp, List.getElem?_append_left (List.getElem?_eq_some_iff.mp hl).1]
      exact hl
    · refine ⟨(s.rest r).length, ?_⟩
      rw [htp, List.getElem?_append_right (by rw [h.lenP]), h.lenP]
      simp only [Nat.sub_self, List.getElem?_cons_zero, Option.some.injEq]
      omega
  · intro l t' ht'
    rcases hget' l t' ht' with ⟨h1, h2⟩ | ⟨h1, rfl⟩
    · have := h.sharedRange l t' h2
      omega
    · omega

theorem link_newTable {s : State g T} {r : Fin g} (h : RestOk s r) (hp : PLinked s) (o : T) (p : ℤ)
    (priv : List T)
    (hk : (p = (s.priv r).length ∧ priv = s.priv r ++ [o]) ∨ (p = -1 ∧ priv = s.priv r)) :
    ∀ (l : ℕ) q, (s.toPrivate r ++ [p])[l]? = some q → 0 ≤ q →
      (s.rest r ++ [o])[l]? = priv[q.toNat]? := by
  intro l q hq hq0
  rw [List.getElem?_append] at hq
  split at hq
  · rename_i hl
    rw [List.getElem?_append_left (by rw [← h.lenP]; exact hl), hp r l q hq hq0]
    have := h.privRange l q hq
    rcases hk with ⟨_, rfl⟩ | ⟨_, rfl⟩
    · rw [List.getElem?_append_left (by omega)]
    · rfl
  · rename_i hl
    have h1 := List.mem_of_getElem? hq
    simp only [List.mem_singleton] at h1
    have h2 := (List.getElem?_eq_some_iff.mp hq).1
    simp only [List.length_singleton, h.lenP] at h2 hl
    subst h1
    rcases hk with ⟨rfl, rfl⟩ | ⟨rfl, _⟩
    · have : l = (s.rest r).length := by omega
      subst this
      simp
    · omega

theorem seatDatum_ok {n : Fin g → ℕ} {s s' : State g T} (h : Seating n s s') (d : SeatDraw T)
    (i : Fin g) {j : ℕ} (hj : j < (s'.allocs i).length) :
    ∃ s'', seatDatum d i s' j = .ok s'' ∧ Seating n s s'' := by
  obtain ⟨r, hr⟩ : ∃ r, r = s'.restAllocs i := ⟨_, rfl⟩
  obtain ⟨a, ha, ha'⟩ := vget_ok' hj
  have hseat := (h.wf r).seats i hr.symm a (List.mem_of_getElem? ha')
  obtain ⟨nn, hn, hnl⟩ := decr_ok (u := s'.nByTable r) hseat.1 (by have := h.counts r; omega)
  obtain ⟨t, ht, ht'⟩ := iget_ok' (v := s'.toShared r) hseat.1 (by rw [(h.wf r).lenS]; exact hseat.2)
  obtain ⟨cnt, hc, hcl⟩ : ∃ cnt, decrShared s'.cntShared t = .ok cnt ∧
      cnt.length = s'.cntShared.length := by
    unfold decrShared
    by_cases ht0 : 0 ≤ t
    · rw [if_pos ht0]
      exact decr_ok ht0 (by rw [h.cnt]; exact (h.wf r).sharedRange _ t ht')
    · rw [if_neg ht0]
      exact ⟨_, rfl, rfl⟩
  have hmod := Nat.mod_lt d.table (y := (s'.rest r).length + 1) (by omega)
  have hcr := h.counts r
  have hwf := h.wf r
  -- the state with the observation moved to table `m`
  have hnumber : ∀ (m : ℕ) k, (Function.update s'.allocs i ((s'.allocs i).set j (m : ℤ)) k).length
      = n k := by
    intro m k
    by_cases hk : k = i
    · subst hk
      simp [h.number]
    · rw [Function.update_of_ne hk, h.number]
  have hseats : ∀ (m : ℕ) (N : ℕ), (s'.rest r).length ≤ N → m < N → ∀ k, s'.restAllocs k = r →
      ∀ a ∈ Function.update s'.allocs i ((s'.allocs i).set j (m : ℤ)) k, 0 ≤ a ∧ a < N := by
    intro m N hN hm k hk a ha
    by_cases hki : k = i
    · subst hki
      rw [Function.update_self] at ha
      rcases List.mem_or_eq_of_mem_set ha with ha | rfl
      · have := hwf.seats k hk a ha
        omega
      · omega
    · rw [Function.update_of_ne hki] at ha
      have := hwf.seats k hk a ha
      omega
  have hothers : ∀ (m : ℕ) r', r' ≠ r → ∀ k, s'.restAllocs k = r' →
      ∀ a ∈ Function.update s'.allocs i ((s'.allocs i).set j (m : ℤ)) k,
        0 ≤ a ∧ a < (s'.rest r').length := by
    intro m r' hr' k hk a ha
    rw [Function.update_of_ne (by rintro rfl; exact hr' (hk.symm.trans hr.symm))] at ha
    exact (h.wf r').seats k hk a ha
  unfold seatDatum
  simp only [← hr]
  rw [ha, ok_bind, hn, ok_bind, ht, ok_bind, hc, ok_bind, if_neg (by rw [hnl, hcl, h.cnt]; omega),
    categorical_ok _ (by omega), ok_bind, vset_ok hj, ok_bind]
  generalize d.table % ((s'.rest r).length + 1) = m at hmod
  by_cases hm : m < (s'.rest r).length
  · rw [if_pos hm]
    simp only [Function.update_self]
    obtain ⟨n', hn1, hn2, -⟩ := incr_ok (u := nn) (a := (m : ℤ)) (by omega) (by omega)
    rw [hn1, ok_bind]
    refine ⟨_, rfl, ?_, hnumber m, h.restAllocs, h.isUsedRest, ?_, by simpa [hcl] using h.cnt,
      h.link⟩
    · intro r'
      refine (h.wf r').congr rfl rfl rfl rfl le_rfl ?_
      by_cases hr' : r' = r
      · subst hr'
        exact hseats m _ le_rfl hm
      · exact hothers m r' hr'
    · intro r'
      by_cases hr' : r' = r
      · subst hr'
        simp only [Function.update_self]
        omega
      · simp only [Function.update_of_ne hr']
        exact h.counts r'
  · rw [if_neg hm]
    have hmeq : m = (s'.rest r).length := by omega
    unfold newTable
    cases hpr : d.isPrivate with
    | true =>
      rw [if_pos rfl]
      refine ⟨_, rfl, ?_, hnumber m, h.restAllocs, h.isUsedRest, ?_, by simpa [hcl] using h.cnt, ?_⟩
      · intro r'
        by_cases hr' : r' = r
        · subst hr'
          refine restOk_newTable (h.wf r') d.obj (s'.priv r').length (-1) (by simp) (by simp)
            (by simp) (Or.inl ⟨rfl, rfl, by simp⟩) le_rfl ?_
          dsimp only
          rw [Function.update_self]
          exact hseats m _ (by simp) (by simp; omega)
        · refine (h.wf r').congr ?_ ?_ ?_ ?_ le_rfl ?_
          · simp [Function.update_of_ne hr']
          · simp [Function.update_of_ne hr']
          · simp [Function.update_of_ne hr']
          · simp [Function.update_of_ne hr']
          · dsimp only
            rw [Function.update_of_ne hr']
            exact hothers m r' hr'
      · intro r'
        by_cases hr' : r' = r
        · subst hr'
          simp only [Function.update_self, List.length_append, List.length_singleton]
          omega
        · simp only [Function.update_of_ne hr']
          exact h.counts r'
      · intro r'
        by_cases hr' : r' = r
        · subst hr'
          dsimp only
          simp only [Function.update_self]
          exact link_newTable (h.wf r') h.link d.obj _ _ (Or.inl ⟨rfl, rfl⟩)
        · dsimp only
          simp only [Function.update_of_ne hr']
          exact h.link r'
    | false =>
      rw [if_neg (by simp), categorical_ok _ (by simp), ok_bind]
      dsimp only
      have hmod' := Nat.mod_lt d.shared (y := s'.shared.length + 1) (by omega)
      generalize d.shared % (s'.shared.length + 1) = t' at hmod'
      have hlink : ∀ (o : T) r' (l : ℕ) q,
          (Function.update s'.toPrivate r (s'.toPrivate r ++ [-1]) r')[l]? = some q → 0 ≤ q →
          (Function.update s'.rest r (s'.rest r ++ [o]) r')[l]? = (s'.priv r')[q.toNat]? := by
        intro o r'
        by_cases hr' : r' = r
        · subst hr'
          simp only [Function.update_self]
          exact link_newTable (h.wf r') h.link o _ _ (Or.inr ⟨rfl, rfl⟩)
        · simp only [Function.update_of_ne hr']
          exact h.link r'
      have hcounts : ∀ (o : T) r', (Function.update s'.rest r (s'.rest r ++ [o]) r').length ≤
          (Function.update (Function.update s'.nByTable r nn) r (nn ++ [1]) r').length := by
        intro o r'
        by_cases hr' : r' = r
        · subst hr'
          simp only [Function.update_self, List.length_append, List.length_singleton]
          omega
        · simp only [Function.update_of_ne hr']
          exact h.counts r'
      by_cases ht'' : t' < s'.shared.length
      · rw [if_pos ht'']
        obtain ⟨o, ho, -⟩ := vget_ok' ht''
        obtain ⟨c', hc1, hc2, -⟩ := incr_ok (u := cnt) (a := (t' : ℤ)) (by omega)
          (by rw [hcl, h.cnt]; omega)
        rw [ho, ok_bind, hc1, ok_bind]
        refine ⟨_, rfl, ?_, hnumber m, h.restAllocs, h.isUsedRest, ?_,
          (hc2.trans hcl).trans h.cnt, hlink o⟩
        · intro r'
          by_cases hr' : r' = r
          · subst hr'
            refine restOk_newTable (h.wf r') o (-1) t' (by simp) (by simp)
              (by simp) (Or.inr ⟨rfl, by omega, by dsimp only; omega, rfl⟩) le_rfl ?_
            dsimp only
            rw [Function.update_self]
            exact hseats m _ (by simp) (by simp; omega)
          · refine (h.wf r').congr ?_ ?_ ?_ ?_ le_rfl ?_
            · simp [Function.update_of_ne hr']
            · rfl
            · simp [Function.update_of_ne hr']
            · simp [Function.update_of_ne hr']
            · dsimp only
              rw [Function.update_of_ne hr']
              exact hothers m r' hr'
        · simp only [Function.update_self]
          exact hcounts o
      · rw [if_neg ht'']
        refine ⟨_, rfl, ?_, hnumber m, h.restAllocs, h.isUsedRest, ?_, ?_, hlink d.obj⟩
        · intro r'
          by_cases hr' : r' = r
          · subst hr'
            refine restOk_newTable (h.wf r') d.obj (-1) t' (by simp) (by simp)
              (by simp) (Or.inr ⟨rfl, by omega, ?_, rfl⟩) (by simp) ?_
            · simp only [List.length_append, List.length_singleton]
              omega
            dsimp only
            rw [Function.update_self]
            exact hseats m _ (by simp) (by simp; omega)
          · refine (h.wf r').congr ?_ ?_ ?_ ?_ (by simp) ?_
            · simp [Function.update_of_ne hr']
            · rfl
            · simp [Function.update_of_ne hr']
            · simp [Function.update_of_ne hr']
            · dsimp only
              rw [Function.update_of_ne hr']
              exact hothers m r' hr'
        · simp only [Function.update_self]
          exact hcounts d.obj
        · simp [hcl, h.cnt]

theorem updateTableAllocs_ok {n : Fin g → ℕ} {s : State g T} (h : Inv n s) (hp : PLinked s)
    (d : Fin g → ℕ → SeatDraw T) :
    ∃ s', updateTableAllocs d s = .ok s' ∧ Seating n s s' := by
  obtain ⟨c, hc, hcl⟩ := countM_len h.wf
  have hwf := wf_counts h.wf s.nByTable c
  unfold updateTableAllocs
  rw [hc, ok_bind, countN_ok hwf, ok_bind]
  refine foldlM_list_inv _ (Seating n s) ?_ _ _
    ⟨wf_counts h.wf _ c, h.number, rfl, rfl, fun r => by simp, hcl, hp⟩
  intro i s' h'
  obtain ⟨s'', h1, h2⟩ := foldlM_range_inv (fun s j => seatDatum (d i j) i s j)
    (fun _ s'' => Seating n s s'') (s'.allocs i).length
    (fun j s'' hj h'' => seatDatum_ok h'' (d i j) i (by rw [h''.number, ← h'.number]; exact hj))
    s' h'
  exact ⟨s'', h1, h2⟩

end Bayesmix.SemiHdp
