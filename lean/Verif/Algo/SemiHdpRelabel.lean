import Verif.Algo.SemiHdpLemmas

/-! Relabeling of the semi-HDP sampler. -/

namespace Bayesmix.SemiHdp

variable {g : ℕ} {T : Type}

/-- Restaurants other than `r`, and the groups in them, are untouched. -/
structure Elsewhere (s s' : State g T) (r : Fin g) : Prop where
  rest : ∀ r', r' ≠ r → s'.rest r' = s.rest r'
  priv : ∀ r', r' ≠ r → s'.priv r' = s.priv r'
  toPrivate : ∀ r', r' ≠ r → s'.toPrivate r' = s.toPrivate r'
  toShared : ∀ r', r' ≠ r → s'.toShared r' = s.toShared r'
  shared : s'.shared = s.shared
  allocs : ∀ i, s.restAllocs i ≠ r → s'.allocs i = s.allocs i
  restAllocs : s'.restAllocs = s.restAllocs

theorem Elsewhere.restOk {s s' : State g T} {r r' : Fin g} (h : Elsewhere s s' r) (hr : r' ≠ r)
    (h' : RestOk s r') : RestOk s' r' := by
  obtain ⟨h1, h2, h3, h4, h5, h6, h7, h8⟩ := h'
  refine ⟨?_, ?_, ?_, ?_, ?_, ?_, ?_, ?_⟩
  · rw [h.toPrivate _ hr, h.rest _ hr]; exact h1
  · rw [h.toShared _ hr, h.rest _ hr]; exact h2
  · rw [h.toPrivate _ hr, h.toShared _ hr]; exact h3
  · rw [h.toPrivate _ hr, h.priv _ hr]; exact h4
  · rw [h.toPrivate _ hr]; exact h5
  · rw [h.toPrivate _ hr, h.priv _ hr]; exact h6
  · rw [h.toShared _ hr, h.shared]; exact h7
  · rw [h.restAllocs, h.rest _ hr]
    intro i hi
    rw [h.allocs i (by rw [hi]; exact hr)]
    exact h8 i hi

theorem Elsewhere.used {s s' : State g T} {r r' : Fin g} (h : Elsewhere s s' r) (hr : r' ≠ r)
    (k : ℕ) : Used s' r' k ↔ Used s r' k := by
  unfold Used
  rw [h.restAllocs]
  constructor
  · rintro ⟨i, hi, hk⟩
    rw [h.allocs i (by rw [hi]; exact hr)] at hk
    exact ⟨i, hi, hk⟩
  · rintro ⟨i, hi, hk⟩
    exact ⟨i, hi, by rw [h.allocs i (by rw [hi]; exact hr)]; exact hk⟩

theorem Elsewhere.trans {s s' s'' : State g T} {r : Fin g} (h : Elsewhere s s' r)
    (h' : Elsewhere s' s'' r) : Elsewhere s s'' r :=
  ⟨fun r' hr => (h'.rest r' hr).trans (h.rest r' hr),
    fun r' hr => (h'.priv r' hr).trans (h.priv r' hr),
    fun r' hr => (h'.toPrivate r' hr).trans (h.toPrivate r' hr),
    fun r' hr => (h'.toShared r' hr).trans (h.toShared r' hr), h'.shared.trans h.shared,
    fun i hi => (h'.allocs i (by rw [h.restAllocs]; exact hi)).trans (h.allocs i hi),
    h'.restAllocs.trans h.restAllocs⟩

theorem Erased.elsewhere {s s' : State g T} {r : Fin g} {l : ℕ} (h : Erased s s' r l) :
    Elsewhere s s' r :=
  ⟨h.rest, h.priv, h.toPrivate, h.toShared, h.shared, h.allocsOther, h.same.restAllocs⟩

theorem Erased.used_lt {s s' : State g T} {r : Fin g} {l k : ℕ} (h : Erased s s' r l)
    (hk : k < l) (hu : ¬ Used s r l) : Used s' r k ↔ Used s r k := by
  unfold Used
  rw [h.same.restAllocs]
  constructor
  · rintro ⟨i, hi, hm⟩
    rw [h.allocs i hi] at hm
    obtain ⟨a, ha, he⟩ := List.mem_map.mp hm
    have hal : a ≠ l := by rintro rfl; exact hu ⟨i, hi, ha⟩
    have : a = k := by unfold shift at he; split at he <;> omega
    exact ⟨i, hi, this ▸ ha⟩
  · rintro ⟨i, hi, hm⟩
    refine ⟨i, hi, ?_⟩
    rw [h.allocs i hi]
    exact List.mem_map.mpr ⟨k, hm, by unfold shift; split <;> omega⟩

theorem Erased.used_ge {s s' : State g T} {r : Fin g} {l k : ℕ} (h : Erased s s' r l)
    (hk : l ≤ k) (hu : Used s r (k + 1)) : Used s' r k := by
  obtain ⟨i, hi, hm⟩ := hu
  refine ⟨i, by rw [h.same.restAllocs]; exact hi, ?_⟩
  rw [h.allocs i hi]
  exact List.mem_map.mpr ⟨_, hm, by unfold shift; split <;> omega⟩

theorem SameSeats.nonempty {s s' : State g T} (h : SameSeats s s') {i : Fin g}
    (hi : s.allocs i ≠ []) : s'.allocs i ≠ [] := by
  rw [← List.length_pos_iff] at hi ⊢
  rw [h.number]; exact hi

theorem relabelRest_ok {s : State g T} {r : Fin g} (h : RestOk s r)
    (hne : ∀ i, s.restAllocs i = r → s.allocs i ≠ []) :
    ∃ s', relabelRest s r = .ok s' ∧ RestOk s' r ∧ SameSeats s s' ∧ Elsewhere s s' r ∧
      ∀ k, k < (s'.rest r).length → Used s' r k := by
  obtain ⟨used, h1, h2, h3⟩ := mark_groups (groupsOf s r) (fun i u => markUsed (s.allocs i) u)
    s.allocs (List.replicate (s.rest r).length false) (by
      intro i hi u' hu'
      rw [mem_groupsOf] at hi
      apply mark_all
      · intro u a ha
        rw [if_pos (h.seats i hi a ha).1]
      · intro a ha
        rw [hu', List.length_replicate]
        exact (h.seats i hi a ha).2)
  rw [List.length_replicate] at h2
  have hused : ∀ k, k < (s.rest r).length → ∃ b, used[k]? = some b ∧ (b = true ↔ Used s r k) := by
    intro k hk
    obtain ⟨b, hb, hiff⟩ := h3 k false (by simp [hk])
    refine ⟨b, hb, hiff.trans ?_⟩
    simp [Used, mem_groupsOf]
  unfold relabelRest
  simp only
  rw [h1, ok_bind, h2]
  refine Exists.elim (foldlM_down_inv (fun (s' : State g T) l => do
      let b ← vget used l
      if b then .ok s' else eraseTable r (groupsOf s r) s' l)
    (fun l s' => RestOk s' r ∧ SameSeats s s' ∧ Elsewhere s s' r ∧ l ≤ (s'.rest r).length ∧
      (∀ k, l ≤ k → k < (s'.rest r).length → Used s' r k) ∧
      ∀ k, k < l → (Used s' r k ↔ Used s r k)) (s.rest r).length ?_ s
    ⟨h, SameSeats.refl s, ⟨fun _ _ => rfl, fun _ _ => rfl, fun _ _ => rfl, fun _ _ => rfl, rfl,
      fun _ _ => rfl, rfl⟩, le_rfl, fun k hk hk' => by omega, fun _ _ => Iff.rfl⟩) ?_
  rotate_left
  · rintro s' ⟨e, h4⟩
    exact ⟨s', e, h4.1, h4.2.1, h4.2.2.1, fun k hk => h4.2.2.2.2.1 k (Nat.zero_le _) hk⟩
  · rintro l s' hl ⟨a1, a2, a3, a4, a5, a6⟩
    obtain ⟨b, hb, hiff⟩ := hused l hl
    simp only [vget_ok hb, ok_bind]
    by_cases hbt : b = true
    · rw [if_pos hbt]
      refine ⟨s', rfl, a1, a2, a3, by omega, ?_, fun k hk => a6 k (by omega)⟩
      intro k hk hk'
      rcases Nat.eq_or_lt_of_le hk with rfl | hk
      · exact (a6 l (by omega)).mpr (hiff.mp hbt)
      · exact a5 k hk hk'
    · rw [if_neg hbt]
      have hu : ¬ Used s' r l := fun hu => hbt (hiff.mpr ((a6 l (by omega)).mp hu))
      have hgr : groupsOf s r = groupsOf s' r := by
        unfold groupsOf; rw [a2.restAllocs]
      rw [hgr]
      obtain ⟨s'', e', h5⟩ := eraseTable_ok a1 (fun i hi => a2.nonempty (hne i (by
        rw [a2.restAllocs] at hi; exact hi))) (show l < (s'.rest r).length by omega) hu
      have hlen : (s''.rest r).length = (s'.rest r).length - 1 := by
        rw [h5.restHere, List.length_eraseIdx_of_lt (by omega)]
      refine ⟨s'', e', h5.ok, a2.trans h5.same, a3.trans h5.elsewhere, by omega, ?_, ?_⟩
      · intro k hk hk'
        exact h5.used_ge hk (a5 (k + 1) (by omega) (by omega))
      · intro k hk
        rw [h5.used_lt hk hu]
        exact a6 k (by omega)

theorem relabelRests_ok (l : List (Fin g)) {s : State g T} (h : Wf s)
    (hne : ∀ i, s.allocs i ≠ []) :
    ∃ s', l.foldlM relabelRest s = .ok s' ∧ Wf s' ∧ SameSeats s s' ∧ s'.shared = s.shared ∧
      (∀ r, (∀ k, k < (s.rest r).length → Used s r k) →
        ∀ k, k < (s'.rest r).length → Used s' r k) ∧
      ∀ r ∈ l, ∀ k, k < (s'.rest r).length → Used s' r k := by
  induction l generalizing s with
  | nil => exact ⟨s, rfl, h, .refl s, rfl, fun _ h => h, by simp⟩
  | cons r l ih =>
    obtain ⟨s₁, e1, o1, a1, b1, c1⟩ := relabelRest_ok (h r) (fun i _ => hne i)
    have hwf : Wf s₁ := by
      intro r'
      by_cases hr : r' = r
      · subst hr; exact o1
      · exact b1.restOk hr (h r')
    obtain ⟨s₂, e2, h2, a2, b2, c2, d2⟩ := ih hwf (fun i => a1.nonempty (hne i))
    refine ⟨s₂, by rw [List.foldlM_cons, e1]; exact e2, h2, a1.trans a2, b2.trans b1.shared,
      ?_, ?_⟩
    · intro r' hr'
      apply c2
      by_cases hr : r' = r
      · subst hr; exact c1
      · intro k hk
        rw [b1.used hr]
        rw [b1.rest _ hr] at hk
        exact hr' k hk
    · intro r' hr'
      rcases List.mem_cons.mp hr' with rfl | hr'
      · exact c2 _ c1
      · exact d2 r' hr'

/-! ### Shared tables -/

theorem eraseShared_ok {s : State g T} (h : Wf s) {l : ℕ} (hl : l < s.shared.length)
    (hu : ¬ SharedUsed s l) :
    ∃ s', eraseShared s l = .ok s' ∧ Wf s' ∧ SameSeats s s' ∧
      s'.shared.length = s.shared.length - 1 ∧ s'.rest = s.rest ∧ s'.allocs = s.allocs ∧
      (∀ k, k < l → (SharedUsed s' k ↔ SharedUsed s k)) ∧
      ∀ k, l ≤ k → SharedUsed s (k + 1) → SharedUsed s' k := by
  have hne : ∀ r, ∀ t ∈ s.toShared r, t ≠ l := by
    rintro r t ht rfl
    exact hu ⟨r, ht⟩
  have hlen : (s.shared.eraseIdx l).length = s.shared.length - 1 := by
    rw [List.length_eraseIdx_of_lt hl]
  refine ⟨⟨s.rest, s.priv, s.shared.eraseIdx l, s.nByTable, s.allocs, s.restAllocs, s.isUsedRest,
    fun i => (s.toShared i).map (shift l), s.toPrivate, s.cntShared⟩, ?_, ?_, ?_, hlen, rfl, rfl,
    ?_, ?_⟩
  · unfold eraseShared
    rw [verase_ok hl, ok_bind]
    rfl
  · intro r
    obtain ⟨h1, h2, h3, h4, h5, h6, h7, h8⟩ := h r
    refine ⟨h1, by simpa using h2, ?_, h4, h5, h6, ?_, h8⟩
    · intro k p t hp ht
      simp only [List.getElem?_map] at ht
      obtain ⟨t', ht', rfl⟩ := Option.map_eq_some_iff.mp ht
      have hm := hne r t' (List.mem_of_getElem? ht')
      rcases h3 k p t' hp ht' with ⟨a, b⟩ | ⟨a, b⟩
      · left; refine ⟨a, ?_⟩; rw [b]; unfold shift; split <;> omega
      · right; exact ⟨a, shift_nonneg b hm⟩
    · intro k t ht
      simp only [List.getElem?_map] at ht
      obtain ⟨t', ht', rfl⟩ := Option.map_eq_some_iff.mp ht
      simp only [hlen]
      exact shift_lt hl (h7 k t' ht')
  · refine ⟨rfl, rfl, fun _ => rfl, fun _ _ => rfl, fun _ _ => rfl, ?_⟩
    intro i j
    unfold sharedOf
    cases ha : (s.allocs i)[j]? with
    | none => simp
    | some a =>
      simp only [Option.bind_some, List.getElem?_map]
      cases ht : (s.toShared (s.restAllocs i))[a.toNat]? with
      | none => rfl
      | some t =>
        simp only [Option.map_some, Option.bind_some]
        have hm := hne _ t (List.mem_of_getElem? ht)
        by_cases h0 : 0 ≤ t
        · rw [if_pos h0, if_pos (shift_nonneg h0 hm), getElem?_erase, up_shift h0 hm]
        · rw [if_neg h0, if_neg (by unfold shift; split <;> omega)]
  · intro k hk
    unfold SharedUsed
    constructor
    · rintro ⟨r, hr⟩
      obtain ⟨t, ht, he⟩ := List.mem_map.mp hr
      have hm := hne r t ht
      have : t = k := by unfold shift at he; split at he <;> omega
      exact ⟨r, this ▸ ht⟩
    · rintro ⟨r, hr⟩
      exact ⟨r, List.mem_map.mpr ⟨k, hr, by unfold shift; split <;> omega⟩⟩
  · rintro k hk ⟨r, hr⟩
    exact ⟨r, List.mem_map.mpr ⟨_, hr, by unfold shift; split <;> omega⟩⟩

theorem markShared_ok {s : State g T} (h : Wf s) :
    ∃ used, markShared s = .ok used ∧ used.length = s.shared.length ∧
      ∀ k, k < s.shared.length → ∃ b, used[k]? = some b ∧ (b = true ↔ SharedUsed s k) := by
  obtain ⟨used, h1, h2, h3⟩ := mark_groups (List.finRange g)
    (fun i u => (s.toShared i).foldlM (fun u t => if 0 ≤ t then iset u t true else .ok u) u)
    s.toShared (List.replicate s.shared.length false) (by
      intro i _ u' hu'
      apply mark_all
      · intro u a _; rfl
      · intro a ha
        obtain ⟨k, hk⟩ := List.getElem?_of_mem ha
        rw [hu', List.length_replicate]
        exact (h i).sharedRange k a hk)
  rw [List.length_replicate] at h2
  refine ⟨used, h1, h2, ?_⟩
  intro k hk
  obtain ⟨b, hb, hiff⟩ := h3 k false (by simp [hk])
  refine ⟨b, hb, hiff.trans ?_⟩
  simp [SharedUsed]

theorem relabelShared_ok {s : State g T} (h : Wf s) :
    ∃ used s', markShared s = .ok used ∧
      (List.range used.length).reverse.foldlM (fun s l => do
        let b ← vget used l
        if b then .ok s else eraseShared s l) s = .ok s' ∧
      Wf s' ∧ SameSeats s s' ∧ s'.rest = s.rest ∧ s'.allocs = s.allocs ∧
      ∀ k, k < s'.shared.length → SharedUsed s' k := by
  obtain ⟨used, h1, h2, h3⟩ := markShared_ok h
  refine Exists.elim (foldlM_down_inv (fun (s' : State g T) l => do
      let b ← vget used l
      if b then .ok s' else eraseShared s' l)
    (fun l s' => Wf s' ∧ SameSeats s s' ∧ s'.rest = s.rest ∧ s'.allocs = s.allocs ∧
      l ≤ s'.shared.length ∧ (∀ k, l ≤ k → k < s'.shared.length → SharedUsed s' k) ∧
      ∀ k, k < l → (SharedUsed s' k ↔ SharedUsed s k)) s.shared.length ?_ s
    ⟨h, SameSeats.refl s, rfl, rfl, le_rfl, fun k hk hk' => by omega, fun _ _ => Iff.rfl⟩) ?_
  rotate_left
  · rintro s' ⟨e, h4⟩
    exact ⟨used, s', h1, by rw [h2]; exact e, h4.1, h4.2.1, h4.2.2.1, h4.2.2.2.1,
      fun k hk => h4.2.2.2.2.2.1 k (Nat.zero_le _) hk⟩
  · rintro l s' hl ⟨a1, a2, ar, aa, a4, a5, a6⟩
    obtain ⟨b, hb, hiff⟩ := h3 l hl
    simp only [vget_ok hb, ok_bind]
    by_cases hbt : b = true
    · rw [if_pos hbt]
      refine ⟨s', rfl, a1, a2, ar, aa, by omega, ?_, fun k hk => a6 k (by omega)⟩
      intro k hk hk'
      rcases Nat.eq_or_lt_of_le hk with rfl | hk
      · exact (a6 l (by omega)).mpr (hiff.mp hbt)
      · exact a5 k hk hk'
    · rw [if_neg hbt]
      have hu : ¬ SharedUsed s' l := fun hu => hbt (hiff.mpr ((a6 l (by omega)).mp hu))
      obtain ⟨s'', e', b1, b2, b3, br, ba, b4, b5⟩ :=
        eraseShared_ok a1 (show l < s'.shared.length by omega) hu
      refine ⟨s'', e', b1, a2.trans b2, br.trans ar, ba.trans aa, by omega, ?_, ?_⟩
      · intro k hk hk'
        exact b5 k hk (a5 (k + 1) (by omega) (by omega))
      · intro k hk
        rw [b4 k hk]
        exact a6 k (by omega)

/-! ### Counts -/

theorem countRest_ok {s : State g T} {r : Fin g} (h : RestOk s r) :
    countRest s r = .ok ((List.range (s.rest r).length).map fun k : ℕ =>
      ((groupsOf s r).map fun i => ((s.allocs i).count (k : ℤ) : ℤ)).sum) := by
  obtain ⟨u, h1, h2, h3⟩ := incr_groups (groupsOf s r) (fun i u => (s.allocs i).foldlM incr u)
    s.allocs (List.replicate (s.rest r).length 0) (by
      intro i hi u' hu'
      rw [mem_groupsOf] at hi
      apply incr_all
      · intro u a ha
        rw [if_pos (h.seats i hi a ha).1]
      · intro a ha
        rw [hu', List.length_replicate]
        exact (h.seats i hi a ha).2)
  unfold countRest
  rw [h1]
  congr 1
  rw [List.length_replicate] at h2
  apply List.ext_getElem?
  intro k
  rcases Nat.lt_or_ge k (s.rest r).length with hk | hk
  · rw [h3 k 0 (by simp [hk]), List.getElem?_map, List.getElem?_range hk]
    simp
  · rw [List.getElem?_eq_none (by omega), List.getElem?_eq_none (by simpa using hk)]

theorem countN_ok {s : State g T} (h : Wf s) :
    countN s = .ok { s with nByTable := fun r => (List.range (s.rest r).length).map fun k : ℕ =>
      ((groupsOf s r).map fun i => ((s.allocs i).count (k : ℤ) : ℤ)).sum } := by
  have key : ∀ (l : List (Fin g)) (n : Fin g → List ℤ),
      l.foldlM (fun (n : Fin g → List ℤ) r => do
        let c ← countRest s r
        .ok (Function.update n r c)) n = .ok fun r => if r ∈ l then
          (List.range (s.rest r).length).map fun k : ℕ =>
            ((groupsOf s r).map fun i => ((s.allocs i).count (k : ℤ) : ℤ)).sum else n r := by
    intro l
    induction l with
    | nil => intro n; simp
    | cons r l ih =>
      intro n
      rw [List.foldlM_cons, countRest_ok (h r)]
      simp only [ok_bind]
      rw [ih]
      congr 1
      funext r'
      by_cases h1 : r' ∈ l
      · simp [h1]
      · by_cases h2 : r' = r
        · subst h2; simp
        · simp [h1, h2]
  unfold countN
  rw [key, ok_bind]
  simp

theorem countM_ok {s : State g T} (h : Wf s) :
    countM s = .ok { s with cntShared := (List.range s.shared.length).map fun k : ℕ =>
      ∑ r, ((s.toShared r).count (k : ℤ) : ℤ) } := by
  obtain ⟨u, h1, h2, h3⟩ := incr_groups (List.finRange g)
    (fun i u => (s.toShared i).foldlM (fun u t => if 0 ≤ t then incr u t else .ok u) u)
    s.toShared (List.replicate s.shared.length 0) (by
      intro i _ u' hu'
      apply incr_all
      · intro u a _; rfl
      · intro a ha
        obtain ⟨k, hk⟩ := List.getElem?_of_mem ha
        rw [hu', List.length_replicate]
        exact (h i).sharedRange k a hk)
  unfold countM
  rw [h1, ok_bind]
  congr 2
  rw [List.length_replicate] at h2
  apply List.ext_getElem?
  intro k
  rcases Nat.lt_or_ge k s.shared.length with hk | hk
  · rw [h3 k 0 (by simp [hk]), List.getElem?_map, List.getElem?_range hk]
    simp only [Option.map_some, zero_add]
    rw [← List.sum_ofFn, List.ofFn_eq_map]
  · rw [List.getElem?_eq_none (by omega), List.getElem?_eq_none (by simpa using hk)]

theorem wf_counts {s : State g T} (h : Wf s) (n : Fin g → List ℤ) (c : List ℤ) :
    Wf { s with nByTable := n, cntShared := c } := by
  intro r
  obtain ⟨h1, h2, h3, h4, h5, h6, h7, h8⟩ := h r
  exact ⟨h1, h2, h3, h4, h5, h6, h7, h8⟩

theorem sum_groupsOf (s : State g T) (r : Fin g) (f : Fin g → ℤ) :
    ((groupsOf s r).map f).sum = ∑ i, if s.restAllocs i = r then f i else 0 := by
  rw [← List.sum_ofFn, List.ofFn_eq_map]
  unfold groupsOf
  induction List.finRange g with
  | nil => rfl
  | cons a l ih =>
    rw [List.filter_cons]
    by_cases ha : s.restAllocs a = r
    · simp [ha, ih]
    · simp [ha, ih]

end Bayesmix.SemiHdp
