import Verif.Algo.SemiHdpRelabel

/-! The steps of the semi-HDP sampler keep the state well formed. -/

namespace Bayesmix.SemiHdp

variable {g : ℕ} {T : Type}

theorem iget_ok {α : Type} {v : List α} {i : ℤ} {a : α} (h0 : 0 ≤ i) (h : v[i.toNat]? = some a) :
    iget v i = .ok a := by
  unfold iget
  rw [if_neg (by omega), vget_ok h]

theorem iset_ok {α : Type} {v : List α} {i : ℤ} {a : α} (h0 : 0 ≤ i) (h : i < v.length) :
    iset v i a = .ok (v.set i.toNat a) := by
  unfold iset
  rw [if_neg (by omega), vset_ok (by omega)]

theorem iget_ok' {α : Type} {v : List α} {i : ℤ} (h0 : 0 ≤ i) (h : i < v.length) :
    ∃ a, iget v i = .ok a ∧ v[i.toNat]? = some a :=
  ⟨v[i.toNat]'(by omega), iget_ok h0 (List.getElem?_eq_getElem (by omega)),
    List.getElem?_eq_getElem (by omega)⟩

theorem vget_ok' {α : Type} {v : List α} {i : ℕ} (h : i < v.length) :
    ∃ a, vget v i = .ok a ∧ v[i]? = some a :=
  ⟨v[i], vget_ok (List.getElem?_eq_getElem h), List.getElem?_eq_getElem h⟩

theorem decr_ok {u : List ℤ} {a : ℤ} (h0 : 0 ≤ a) (h : a < u.length) :
    ∃ u', decr u a = .ok u' ∧ u'.length = u.length := by
  obtain ⟨c, hc, -⟩ := iget_ok' h0 h
  refine ⟨u.set a.toNat (c - 1), ?_, by simp⟩
  unfold decr
  rw [hc, ok_bind, iset_ok h0 h]

/-- A restaurant stays well formed when its tables keep their numbers and links. -/
theorem RestOk.congr {s s' : State g T} {r : Fin g} (h : RestOk s r)
    (hrest : (s'.rest r).length = (s.rest r).length)
    (hpriv : (s'.priv r).length = (s.priv r).length)
    (hts : s'.toShared r = s.toShared r) (htp : s'.toPrivate r = s.toPrivate r)
    (hsh : s.shared.length ≤ s'.shared.length)
    (hseat : ∀ i, s'.restAllocs i = r → ∀ a ∈ s'.allocs i, 0 ≤ a ∧ a < (s'.rest r).length) :
    RestOk s' r where
  lenP := by rw [htp, hrest]; exact h.lenP
  lenS := by rw [hts, hrest]; exact h.lenS
  kind := by rw [hts, htp]; exact h.kind
  privRange := by rw [htp, hpriv]; exact h.privRange
  privInj := by rw [htp]; exact h.privInj
  privOnto := by rw [htp, hpriv]; exact h.privOnto
  sharedRange := by
    rw [hts]
    intro l t ht
    have := h.sharedRange l t ht
    omega
  seats := hseat

/-! ### The data of a table -/

theorem push_ok {β : Type} {u : List (List β)} {a : ℤ} {d : List β} (h0 : 0 ≤ a)
    (h : a < u.length) :
    ∃ u', push u a d = .ok u' ∧ u'.length = u.length ∧
      ∀ (k : ℕ) v, u[k]? = some v → u'[k]? = some (v ++ if (k : ℤ) = a then d else []) := by
  obtain ⟨n, rfl⟩ := Int.eq_ofNat_of_zero_le h0
  have hn : n < u.length := by omega
  refine ⟨u.set n (u[n] ++ d), ?_, by simp, ?_⟩
  · unfold push
    rw [iget_ok h0 (List.getElem?_eq_getElem (by simpa using hn)), ok_bind, iset_ok h0 h]
    simp
  · intro k v hk
    rw [List.getElem?_set]
    split
    · rename_i hnk
      subst hnk
      rw [List.getElem?_eq_getElem hn] at hk
      simp only [Option.some.injEq] at hk
      simp [hn, hk]
    · rename_i hnk
      rw [hk]
      have : ¬ ((k : ℤ) = n) := by omega
      simp [this]

theorem push_all {β α : Type} (l : List α) (key : α → ℤ) (val : α → List β)
    (f : List (List β) → α → Except Fault (List (List β)))
    (hf : ∀ u a, a ∈ l → f u a = push u (key a) (val a)) (u : List (List β))
    (h : ∀ a ∈ l, 0 ≤ key a ∧ key a < u.length) :
    ∃ u', l.foldlM f u = .ok u' ∧ u'.length = u.length ∧
      ∀ (k : ℕ) v, u[k]? = some v →
        u'[k]? = some (v ++ l.flatMap fun a => if (k : ℤ) = key a then val a else []) := by
  induction l generalizing u with
  | nil => exact ⟨u, rfl, rfl, fun k v hk => by simp [hk]⟩
  | cons a l ih =>
    obtain ⟨u₁, h1, h2, h3⟩ := push_ok (d := val a) (h a (by simp)).1 (h a (by simp)).2
    obtain ⟨u₂, h4, h5, h6⟩ := ih (fun u b hb => hf u b (by simp [hb])) u₁
      (fun b hb => by rw [h2]; exact h b (by simp [hb]))
    refine ⟨u₂, by rw [List.foldlM_cons, hf u a (by simp), h1]; exact h4, h5.trans h2, ?_⟩
    intro k v hk
    rw [h6 k _ (h3 k v hk), List.flatMap_cons, List.append_assoc]

theorem push_groups {β ι : Type} (l : List ι) (f : ι → List (List β) → Except Fault (List (List β)))
    (n : ℕ) (c : ι → ℕ → List β)
    (hf : ∀ i ∈ l, ∀ u : List (List β), u.length = n → ∃ u', f i u = .ok u' ∧ u'.length = n ∧
      ∀ (k : ℕ) v, u[k]? = some v → u'[k]? = some (v ++ c i k)) (u : List (List β))
    (hu : u.length = n) :
    ∃ u', l.foldlM (fun u i => f i u) u = .ok u' ∧ u'.length = n ∧
      ∀ (k : ℕ) v, u[k]? = some v → u'[k]? = some (v ++ l.flatMap fun i => c i k) := by
  induction l generalizing u with
  | nil => exact ⟨u, rfl, hu, fun k v hk => by simp [hk]⟩
  | cons a l ih =>
    obtain ⟨u₁, h1, h2, h3⟩ := hf a (by simp) u hu
    obtain ⟨u₂, h4, h5, h6⟩ := ih (fun i hi => hf i (by simp [hi])) u₁ h2
    refine ⟨u₂, by rw [List.foldlM_cons, h1]; exact h4, h5, ?_⟩
    intro k v hk
    rw [h6 k _ (h3 k v hk), List.flatMap_cons, List.append_assoc]

/-- The observations at table `k` of restaurant `r`, in the order in which the loops meet them. -/
def tableData (s : State g T) (r : Fin g) (k : ℕ) : List (Obs g) :=
  (groupsOf s r).flatMap fun i =>
    (s.allocs i).zipIdx.flatMap fun p => if (k : ℤ) = p.1 then [(i, p.2)] else []

theorem mem_tableData {s : State g T} {r : Fin g} {k : ℕ} {i : Fin g} {j : ℕ} :
    (i, j) ∈ tableData s r k ↔ s.restAllocs i = r ∧ (s.allocs i)[j]? = some (k : ℤ) := by
  unfold tableData
  simp only [List.mem_flatMap, mem_groupsOf, Prod.exists, List.mem_zipIdx_iff_getElem?]
  constructor
  · rintro ⟨i', hi', a, b, hab, hm⟩
    split at hm
    · rename_i hk
      simp only [List.mem_singleton, Prod.mk.injEq] at hm
      obtain ⟨rfl, rfl⟩ := hm
      exact ⟨hi', by rw [hk]; exact hab⟩
    · simp at hm
  · rintro ⟨hi, hj⟩
    exact ⟨i, hi, k, j, hj, by simp⟩

theorem dataByTheta_ok {s : State g T} {r : Fin g} (h : RestOk s r) :
    dataByTheta s r = .ok ((List.range (s.rest r).length).map (tableData s r)) := by
  obtain ⟨u, h1, h2, h3⟩ := push_groups (groupsOf s r)
    (fun i u => (s.allocs i).zipIdx.foldlM (fun u p => push u p.1 [(i, p.2)]) u)
    (s.rest r).length
    (fun i k => (s.allocs i).zipIdx.flatMap fun p => if (k : ℤ) = p.1 then [(i, p.2)] else [])
    (fun i hi u hu => by
      obtain ⟨u', h1, h2, h3⟩ := push_all (s.allocs i).zipIdx (fun p => p.1) (fun p => [(i, p.2)])
        (fun u p => push u p.1 [(i, p.2)]) (fun _ _ _ => rfl) u (fun p hp => by
          rw [hu]
          obtain ⟨a, b⟩ := p
          exact h.seats i (mem_groupsOf.mp hi) a (List.fst_mem_of_mem_zipIdx hp))
      exact ⟨u', h1, h2.trans hu, h3⟩)
    (List.replicate (s.rest r).length []) (by simp)
  unfold dataByTheta
  rw [h1]
  congr 1
  refine List.ext_getElem? fun k => ?_
  by_cases hk : k < (s.rest r).length
  · rw [h3 k [] (by simp [hk])]
    simp [hk, tableData]
  · rw [List.getElem?_eq_none (by omega), List.getElem?_eq_none (by simp; omega)]

/-! ### `update_unique_vals` -/

theorem foldlM_prefix_inv {S α : Type} (f : S → α → Except Fault S) (P : List α → S → Prop)
    (l : List α)
    (step : ∀ pre a post, l = pre ++ a :: post → ∀ s, P pre s → ∃ s', f s a = .ok s' ∧
      P (pre ++ [a]) s') (s : S) (h0 : P [] s) : ∃ s', l.foldlM f s = .ok s' ∧ P l s' := by
  suffices H : ∀ post pre s, l = pre ++ post → P pre s →
      ∃ s', post.foldlM f s = .ok s' ∧ P l s' from H l [] s rfl h0
  intro post
  induction post with
  | nil =>
    intro pre s hl hP
    rw [List.append_nil] at hl
    exact ⟨s, rfl, hl ▸ hP⟩
  | cons a post ih =>
    intro pre s hl hP
    obtain ⟨s', h1, h2⟩ := step pre a post hl s hP
    obtain ⟨s'', h3, h4⟩ := ih (pre ++ [a]) s' (by simpa using hl) h2
    exact ⟨s'', by rw [List.foldlM_cons, h1]; exact h3, h4⟩

/-- The update of the private value of table `l`, if it has one. -/
def privCall (s : State g T) (r : Fin g) (l : ℕ) : List (Fin g × ℤ × List (Obs g)) :=
  match (s.toPrivate r)[l]? with
  | some p => if 0 ≤ p then [(r, p, tableData s r l)] else []
  | none => []

/-- What table `l` adds to the data of shared value `h`. -/
def sharedPart (s : State g T) (r : Fin g) (h l : ℕ) : List (Obs g) :=
  if (s.toShared r)[l]? = some (h : ℤ) then tableData s r l else []

/-- The private tables up to `n` of restaurant `r` hold their private values. -/
def PrivLinked (s : State g T) (rest : Fin g → List T) (r : Fin g) (n : ℕ) : Prop :=
  ∀ (l : ℕ) p, l < n → (s.toPrivate r)[l]? = some p → 0 ≤ p → (rest r)[l]? = (s.priv r)[p.toNat]?

/-- The update objects after the first `l` tables of restaurant `r`, in the inner loop of
`SemiHdpSampler::update_unique_vals`, semihdp_sampler.cc. -/
structure InnerInv (s : State g T) (r : Fin g) (u₀ : Updates g T) (l : ℕ) (u : Updates g T) :
    Prop where
  len : ∀ r', (u.rest r').length = (s.rest r').length
  other : ∀ r', r' ≠ r → u.rest r' = u₀.rest r'
  link : PrivLinked s u.rest r l
  priv : u.priv = u₀.priv ++ (List.range l).flatMap (privCall s r)
  lenS : u.shared.length = s.shared.length
  shared : ∀ (k : ℕ) v, u₀.shared[k]? = some v →
    u.shared[k]? = some (v ++ (List.range l).flatMap (sharedPart s r k))

theorem updateTable_ok {s : State g T} {r : Fin g} (h : RestOk s r) (u₀ u : Updates g T) {l : ℕ}
    (hl : l < (s.rest r).length) (hu : InnerInv s r u₀ l u) :
    ∃ u', updateTable s r ((List.range (s.rest r).length).map (tableData s r)) u l = .ok u' ∧
      InnerInv s r u₀ (l + 1) u' := by
  obtain ⟨p, hp, hp'⟩ := vget_ok' (v := s.toPrivate r) (i := l) (by rw [h.lenP]; exact hl)
  obtain ⟨t, ht, ht'⟩ := vget_ok' (v := s.toShared r) (i := l) (by rw [h.lenS]; exact hl)
  have hd : vget ((List.range (s.rest r).length).map (tableData s r)) l
      = .ok (tableData s r l) := vget_ok (by simp [hl])
  unfold updateTable
  rw [hp, ok_bind]
  by_cases hp0 : 0 ≤ p
  · rw [if_pos hp0, hd, ok_bind]
    obtain ⟨o, ho, ho'⟩ := iget_ok' hp0 (h.privRange l p hp')
    rw [ho, ok_bind, vset_ok (by rw [hu.len]; exact hl), ok_bind]
    refine ⟨_, rfl, ?_, ?_, ?_, ?_, hu.lenS, ?_⟩
    · intro r'
      by_cases hr : r' = r
      · subst hr
        simp [hu.len]
      · simp [Function.update_of_ne hr, hu.len]
    · intro r' hr
      simp only [Function.update_of_ne hr]
      exact hu.other r' hr
    · intro k q hk hq hq0
      simp only [Function.update_self]
      rw [List.getElem?_set]
      by_cases hkl : l = k
      · subst hkl
        rw [hp'] at hq
        simp only [Option.some.injEq] at hq
        subst hq
        simp [hu.len, hl, ho']
      · rw [if_neg hkl]
        exact hu.link k q (by omega) hq hq0
    · rw [List.range_succ, List.flatMap_append, ← List.append_assoc, ← hu.priv]
      simp [privCall, hp', hp0]
    · intro k v hk
      rw [hu.shared k v hk, List.range_succ, List.flatMap_append]
      have : (s.toShared r)[l]? ≠ some (k : ℤ) := by
        rw [ht']
        rcases h.kind l p t hp' ht' with h1 | h1
        · simp only [ne_eq, Option.some.injEq]; omega
        · omega
      simp [sharedPart, this]
  · rw [if_neg hp0, ht, ok_bind, hd, ok_bind]
    have ht0 : 0 ≤ t := by
      rcases h.kind l p t hp' ht' with h1 | h1 <;> omega
    obtain ⟨sh, h1, h2, h3⟩ := push_ok (u := u.shared) (d := tableData s r l) ht0
      (by rw [hu.lenS]; exact h.sharedRange l t ht')
    rw [h1, ok_bind]
    refine ⟨_, rfl, hu.len, hu.other, ?_, ?_, h2.trans hu.lenS, ?_⟩
    · intro k q hk hq hq0
      refine hu.link k q ?_ hq hq0
      have : k ≠ l := by
        rintro rfl
        rw [hp'] at hq
        simp only [Option.some.injEq] at hq
        omega
      omega
    · simp only [List.range_succ, List.flatMap_append]
      simp [privCall, hp', hp0, hu.priv]
    · intro k v hk
      rw [h3 k _ (hu.shared k v hk), List.range_succ, List.flatMap_append, List.append_assoc]
      congr 3
      simp [sharedPart, ht', eq_comm]

theorem updateUniqueVals_ok {s : State g T} (h : Wf s) :
    ∃ rest' u, updateUniqueVals s = .ok ({ s with rest := rest' }, u) ∧
      (∀ r, (rest' r).length = (s.rest r).length) ∧
      (∀ r (l : ℕ) p, (s.toPrivate r)[l]? = some p → 0 ≤ p →
        (rest' r)[l]? = (s.priv r)[p.toNat]?) ∧
      (∀ r (l : ℕ) t, (s.toShared r)[l]? = some t → 0 ≤ t →
        (rest' r)[l]? = s.shared[t.toNat]?) ∧
      u.priv = (List.finRange g).flatMap (fun r =>
        (List.range (s.rest r).length).flatMap (privCall s r)) ∧
      u.shared = (List.range s.shared.length).map (fun k => (List.finRange g).flatMap (fun r =>
        (List.range (s.rest r).length).flatMap (sharedPart s r k))) := by
  -- first loop
  obtain ⟨u, hu1, hu2, hu3, hu4, hu5, hu6⟩ := foldlM_prefix_inv
    (fun u r => do
      let data ← dataByTheta s r
      (List.range (s.rest r).length).foldlM (updateTable s r data) u)
    (fun (pre : List (Fin g)) (u : Updates g T) =>
      (∀ r', (u.rest r').length = (s.rest r').length) ∧
      (∀ r ∈ pre, PrivLinked s u.rest r (s.rest r).length) ∧
      u.priv = pre.flatMap (fun r => (List.range (s.rest r).length).flatMap (privCall s r)) ∧
      u.shared.length = s.shared.length ∧
      ∀ k : ℕ, k < s.shared.length → u.shared[k]? = some (pre.flatMap fun r =>
        (List.range (s.rest r).length).flatMap (sharedPart s r k)))
    (List.finRange g)
    (fun pre r post hl u hP => by
      obtain ⟨h1, h2, h3, h4, h5⟩ := hP
      have hr : r ∉ pre := by
        have := List.nodup_finRange g
        rw [hl] at this
        intro hm
        exact List.disjoint_of_nodup_append this hm (by simp)
      rw [dataByTheta_ok (h r), ok_bind]
      obtain ⟨u', hu', hI⟩ := foldlM_range_inv
        (updateTable s r ((List.range (s.rest r).length).map (tableData s r)))
        (InnerInv s r u) (s.rest r).length (fun l u' hl hI => updateTable_ok (h r) u u' hl hI) u
        ⟨h1, fun _ _ => rfl, fun l p hl => absurd hl (by omega), by simp, h4,
          fun k v hk => by simpa using hk⟩
      refine ⟨u', hu', hI.len, ?_, ?_, hI.lenS, ?_⟩
      · intro r' hr'
        simp only [List.mem_append, List.mem_singleton] at hr'
        by_cases hrr : r' = r
        · subst hrr
          exact hI.link
        · have : r' ∈ pre := hr'.resolve_right hrr
          intro l p hl hp hp0
          rw [hI.other r' hrr]
          exact h2 r' this l p hl hp hp0
      · rw [hI.priv, h3]
        simp
      · intro k hk
        rw [hI.shared k _ (h5 k hk)]
        simp)
    ⟨s.rest, [], List.replicate s.shared.length []⟩
    ⟨fun _ => rfl, by simp, rfl, by simp, fun k hk => by simp [hk]⟩
  -- last loop
  obtain ⟨rest', hr1, hr2, hr3, hr4⟩ := foldlM_prefix_inv
    (fun (rest : Fin g → List T) r =>
      (List.range (s.rest r).length).foldlM (refreshShared s r) rest)
    (fun (pre : List (Fin g)) (rest : Fin g → List T) =>
      (∀ r', (rest r').length = (s.rest r').length) ∧
      (∀ r, PrivLinked s rest r (s.rest r).length) ∧
      ∀ r ∈ pre, ∀ (l : ℕ) t, (s.toShared r)[l]? = some t → 0 ≤ t →
        (rest r)[l]? = s.shared[t.toNat]?)
    (List.finRange g)
    (fun pre r post hl rest hP => by
      obtain ⟨h1, h2, h3⟩ := hP
      have hr : r ∉ pre := by
        have := List.nodup_finRange g
        rw [hl] at this
        intro hm
        exact List.disjoint_of_nodup_append this hm (by simp)
      obtain ⟨rest', hr', i1, i2, i3, i4⟩ := foldlM_range_inv (refreshShared s r)
        (fun l (rest' : Fin g → List T) =>
          (∀ r', (rest' r').length = (s.rest r').length) ∧
          (∀ r', r' ≠ r → rest' r' = rest r') ∧
          (∀ r', PrivLinked s rest' r' (s.rest r').length) ∧
          ∀ (k : ℕ) t, k < l → (s.toShared r)[k]? = some t → 0 ≤ t →
            (rest' r)[k]? = s.shared[t.toNat]?)
        (s.rest r).length
        (fun l rest' hl hI => by
          obtain ⟨i1, i2, i3, i4⟩ := hI
          obtain ⟨t, ht, ht'⟩ := vget_ok' (v := s.toShared r) (i := l) (by rw [(h r).lenS]; exact hl)
          unfold refreshShared
          rw [ht, ok_bind]
          by_cases ht0 : 0 ≤ t
          · rw [if_pos ht0]
            obtain ⟨o, ho, ho'⟩ := iget_ok' ht0 ((h r).sharedRange l t ht')
            rw [ho, ok_bind, vset_ok (by rw [i1]; exact hl), ok_bind]
            refine ⟨_, rfl, ?_, ?_, ?_, ?_⟩
            · intro r'
              by_cases hr : r' = r
              · subst hr
                simp [i1]
              · simp [Function.update_of_ne hr, i1]
            · intro r' hr
              rw [Function.update_of_ne hr]
              exact i2 r' hr
            · intro r' k p hk hp hp0
              by_cases hr : r' = r
              · subst hr
                rw [Function.update_self, List.getElem?_set]
                by_cases hkl : l = k
                · subst hkl
                  rcases (h r').kind l p t hp ht' with h1 | h1 <;> omega
                · rw [if_neg hkl]
                  exact i3 r' k p hk hp hp0
              · rw [Function.update_of_ne hr]
                exact i3 r' k p hk hp hp0
            · intro k t' hk hk' ht0'
              rw [Function.update_self, List.getElem?_set]
              by_cases hkl : l = k
              · subst hkl
                rw [ht'] at hk'
                simp only [Option.some.injEq] at hk'
                subst hk'
                simp [i1, hl, ho']
              · rw [if_neg hkl]
                exact i4 k t' (by omega) hk' ht0'
          · rw [if_neg ht0]
            refine ⟨_, rfl, i1, i2, i3, ?_⟩
            intro k t' hk hk' ht0'
            refine i4 k t' ?_ hk' ht0'
            have : k ≠ l := by
              rintro rfl
              rw [ht'] at hk'
              simp only [Option.some.injEq] at hk'
              omega
            omega)
        rest ⟨h1, fun _ _ => rfl, h2, fun k t hk => absurd hk (by omega)⟩
      refine ⟨rest', hr', i1, i3, ?_⟩
      intro r' hr'
      simp only [List.mem_append, List.mem_singleton] at hr'
      by_cases hrr : r' = r
      · subst hrr
        intro l t ht ht0
        refine i4 l t ?_ ht ht0
        rw [← (h r').lenS]
        exact (List.getElem?_eq_some_iff.mp ht).1
      · rw [i2 r' hrr]
        exact h3 r' (hr'.resolve_right hrr))
    u.rest ⟨hu2, fun r => hu3 r (List.mem_finRange r), by simp⟩
  refine ⟨rest', u, ?_, hr2, ?_, fun r => hr4 r (List.mem_finRange r), hu4, ?_⟩
  · unfold updateUniqueVals
    rw [hu1, ok_bind, hr1, ok_bind]
  · intro r l p hp hp0
    refine hr3 r l p ?_ hp hp0
    rw [← (h r).lenP]
    exact (List.getElem?_eq_some_iff.mp hp).1
  · refine List.ext_getElem? fun k => ?_
    by_cases hk : k < s.shared.length
    · rw [hu6 k hk]
      simp [hk]
    · rw [List.getElem?_eq_none (by omega), List.getElem?_eq_none (by simp; omega)]

end Bayesmix.SemiHdp
