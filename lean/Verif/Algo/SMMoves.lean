import Verif.Algo.SMLaunch

/-! Closed form of one split-merge update. -/

namespace Bayesmix.SplitMerge

variable {G H Θ : Type} [AddCommGroup G]

/-- Rows of `0..n-1` with the label of row `i`. -/
def clusterOf (n : ℕ) (al : List ℕ) (i : ℕ) : Finset ℕ :=
  (Finset.range n).filter fun x => al[x]? = al[i]?

theorem mem_clusterOf {n : ℕ} {al : List ℕ} {i x : ℕ} :
    x ∈ clusterOf n al i ↔ x < n ∧ al[x]? = al[i]? := by simp [clusterOf]

theorem clusterOf_eq {n : ℕ} {al : List ℕ} {i a : ℕ} (h : al[i]? = some a) :
    clusterOf n al i = membersIn (Finset.range n) al a := by
  simp [clusterOf, membersIn, h]

theorem self_mem_clusterOf {n : ℕ} {al : List ℕ} {i : ℕ} (h : i < n) :
    i ∈ clusterOf n al i := mem_clusterOf.mpr ⟨h, rfl⟩

/-- The rows of the two clusters other than the two selected ones, in increasing order. -/
def scanRows (n : ℕ) (al : List ℕ) (i j : ℕ) : List ℕ :=
  (((clusterOf n al i ∪ clusterOf n al j).erase i).erase j).sort (· ≤ ·)

theorem scanRows_ok {n : ℕ} {al : List ℕ} {i j : ℕ} (hne : i ≠ j) :
    RowsOk i j (scanRows n al i j) :=
  ⟨Finset.sort_nodup _ _, by simp [scanRows], by simp [scanRows], hne⟩

theorem mem_scanRows {n : ℕ} {al : List ℕ} {i j x : ℕ} : x ∈ scanRows n al i j ↔
    x ≠ j ∧ x ≠ i ∧ (x ∈ clusterOf n al i ∨ x ∈ clusterOf n al j) := by
  simp [scanRows]

theorem scanRows_union {n : ℕ} {al : List ℕ} {i j : ℕ} (hi : i < n) (hj : j < n) :
    insert i (insert j (scanRows n al i j).toFinset) = clusterOf n al i ∪ clusterOf n al j := by
  ext x
  simp only [Finset.mem_insert, List.mem_toFinset, mem_scanRows, Finset.mem_union]
  by_cases h1 : x = i
  · subst h1; simp [self_mem_clusterOf hi]
  · by_cases h2 : x = j
    · subst h2; simp [self_mem_clusterOf hj]
    · simp [h1, h2]

theorem launchRows_ok {f : ℕ → G} {n : ℕ} {s : Alg G H Θ} (hc : Consistent f n s) {i j : ℕ}
    (hi : i < n) (hj : j < n) : launchRows s i j = .ok (scanRows n s.alloc i j) := by
  obtain ⟨a, ha, hal⟩ := hc.on.labelled i (Finset.mem_range.mpr hi)
  obtain ⟨b, hb, hbl⟩ := hc.on.labelled j (Finset.mem_range.mpr hj)
  have hoa := List.getElem?_eq_getElem hal
  have hob := List.getElem?_eq_getElem hbl
  simp only [launchRows, vget_ok ha, vget_ok hb, vget_ok hoa, ok_bind]
  by_cases hab : a = b
  · rw [if_pos hab, hc.on.members a _ hoa, ← clusterOf_eq ha, scanRows,
      show clusterOf n s.alloc j = clusterOf n s.alloc i by
        rw [clusterOf_eq ha, clusterOf_eq hb, hab], Finset.union_self]
  · rw [if_neg hab, vget_ok hob, ok_bind, hc.on.members a _ hoa, hc.on.members b _ hob,
      ← clusterOf_eq ha, ← clusterOf_eq hb, scanRows]

/-- Labels of the launch state after the restricted scans. -/
def launchLab (nRestr : ℕ) (z : MHNoise) (k : ℕ) : Bool :=
  match nRestr with
  | 0 => decide (z.launch k % 2 = 1)
  | t + 1 => decide (z.scan t k % 2 = 1)

/-- State of the first cluster object. -/
theorem first_obj {f : ℕ → G} {n : ℕ} {s : Alg G H Θ} (hc : Consistent f n s) (hn : 0 < n) :
    ∃ o, s.clus[0]? = some o :=
  ⟨_, List.getElem?_eq_getElem (clus_pos hc hn)⟩

theorem launch_ok {E : Env G H Θ} (S : Scores H) (hk : E.kind ≠ .other) {n : ℕ}
    {s : Alg G H Θ} (hc : Consistent E.contrib n s) {i j : ℕ} (hi : i < n) (hj : j < n)
    (hne : i ≠ j) {o : Hier G H Θ} (ho : s.clus[0]? = some o) (nRestr : ℕ) (z : MHNoise) :
    launch E S nRestr s i j z =
      .ok (launchOf E s.hyp o.state i j (scanRows n s.alloc i j) (launchLab nRestr z)) := by
  have hr := scanRows_ok (n := n) (al := s.alloc) hne
  simp only [launch, launchRows_ok hc hi hj, ok_bind, launchValues_ok hk hr ho]
  induction nRestr with
  | zero => rfl
  | succ t ih =>
    rw [List.range_succ, List.foldlM_append, ih, ok_bind]
    simp only [List.foldlM_cons, List.foldlM_nil]
    rw [restrictedGs_ok S hk hr _ (by simp)]
    rfl

/-- Labels that send each row back to its own cluster. -/
def backLab (al : List ℕ) (i j n : ℕ) (k : ℕ) : Bool :=
  origLab al i ((scanRows n al i j).getD k 0)

theorem origLab_iff {n : ℕ} {al : List ℕ} (hl : al.length = n) {i x : ℕ} (hi : i < n)
    (hx : x < n) : origLab al i x = false ↔ al[x]? = al[i]? := by
  subst hl
  rw [origLab, List.getD_eq_getElem _ _ hi, List.getD_eq_getElem _ _ hx,
    List.getElem?_eq_getElem hi, List.getElem?_eq_getElem hx]
  simp

/-- Forcing the rows back gives the two original clusters. -/
theorem side_back {n : ℕ} {al : List ℕ} (hl : al.length = n) {i j : ℕ} (hi : i < n) (hj : j < n)
    (hne : al[i]? ≠ al[j]?) :
    side i j (scanRows n al i j) (backLab al i j n) false = clusterOf n al i ∧
    side i j (scanRows n al i j) (backLab al i j n) true = clusterOf n al j := by
  have hij : i ≠ j := by rintro rfl; exact hne rfl
  have key : ∀ x b, x ∈ side i j (scanRows n al i j) (backLab al i j n) b ↔
      x = (if b then j else i) ∨ (x ∈ scanRows n al i j ∧ origLab al i x = b) := by
    intro x b
    rw [mem_side_iff, mem_rows_iff]
    constructor
    · rintro (h | ⟨t, ht, hc, rfl⟩)
      · exact .inl h
      · exact .inr ⟨⟨t, ht, rfl⟩, hc⟩
    · rintro (h | ⟨⟨t, ht, rfl⟩, hc⟩)
      · exact .inl h
      · exact .inr ⟨t, ht, hc, rfl⟩
  constructor
  · ext x
    rw [key]
    simp only [Bool.false_eq_true, if_false, mem_scanRows, mem_clusterOf]
    constructor
    · rintro (rfl | ⟨⟨-, -, h⟩, ho⟩)
      · exact ⟨hi, rfl⟩
      · have hx : x < n := by rcases h with h | h <;> exact h.1
        exact ⟨hx, (origLab_iff hl hi hx).mp ho⟩
    · rintro ⟨hx, he⟩
      by_cases h : x = i
      · exact .inl h
      · refine .inr ⟨⟨?_, h, .inl ⟨hx, he⟩⟩, (origLab_iff hl hi hx).mpr he⟩
        rintro rfl; exact hne he.symm
  · ext x
    rw [key]
    simp only [if_true, mem_scanRows, mem_clusterOf]
    constructor
    · rintro (rfl | ⟨⟨-, -, h⟩, ho⟩)
      · exact ⟨hj, rfl⟩
      · have hx : x < n := by rcases h with h | h <;> exact h.1
        rcases h with h | h
        · rw [(origLab_iff hl hi hx).mpr h.2] at ho; cases ho
        · exact ⟨hx, h.2⟩
    · rintro ⟨hx, he⟩
      by_cases h : x = j
      · exact .inl h
      · refine .inr ⟨⟨h, ?_, .inr ⟨hx, he⟩⟩, ?_⟩
        · rintro rfl; exact hne he
        · cases ho : origLab al i x
          · exact absurd ((origLab_iff hl hi hx).mp ho ▸ he) hne
          · rfl

theorem clusterOf_disjoint {n : ℕ} {al : List ℕ} {i j : ℕ} (hne : al[i]? ≠ al[j]?) :
    Disjoint (clusterOf n al i) (clusterOf n al j) := by
  rw [Finset.disjoint_left]
  intro x hx hy
  exact hne ((mem_clusterOf.mp hx).2.symm.trans (mem_clusterOf.mp hy).2)

/-- Log acceptance rate of a split with final labels `c1`. -/
noncomputable def splitRate (E : Env G H Θ) (S : Scores H) (h : H) (n i j : ℕ) (rows : List ℕ)
    (c0 c1 : ℕ → Bool) : ℝ :=
  -transLog E S h i j rows c0 c1 rows.length +
    priorRatio S n (side i j rows c1 false) (side i j rows c1 true) +
    likRatio E S h i j (side i j rows c1 false) (side i j rows c1 true)

theorem logArate_split {E : Env G H Θ} (S : Scores H) (hk : E.kind ≠ .other) {n : ℕ}
    {s : Alg G H Θ} (hc : Consistent E.contrib n s) {i j : ℕ} (hi : i < n)
    (hne : i ≠ j) (ht : s.alloc[i]? = s.alloc[j]?) {o : Hier G H Θ} (ho : s.clus[0]? = some o)
    (c0 : ℕ → Bool) (r : ℕ → ℕ) :
    logArate E S s (launchOf E s.hyp o.state i j (scanRows n s.alloc i j) c0) i j r =
      .ok (true, launchOf E s.hyp o.state i j (scanRows n s.alloc i j)
          (fun k => decide (r k % 2 = 1)),
        splitRate E S s.hyp n i j (scanRows n s.alloc i j) c0 (fun k => decide (r k % 2 = 1))) := by
  have hr := scanRows_ok (n := n) (al := s.alloc) hne
  obtain ⟨a, ha, -⟩ := hc.on.labelled i (Finset.mem_range.mpr hi)
  have hb : s.alloc[j]? = some a := ht ▸ ha
  have hnl : newLab s.alloc i (scanRows n s.alloc i j) false r =
      fun k => decide (r k % 2 = 1) := by funext k; simp [newLab]
  obtain ⟨c1, hc1⟩ : ∃ c1 : ℕ → Bool, c1 = fun k => decide (r k % 2 = 1) := ⟨_, rfl⟩
  simp only [logArate, vget_ok ha, vget_ok hb, ok_bind, decide_true, Bool.not_true]
  rw [restrictedGs_ok S hk hr c0 (by simp), ok_bind, hnl]
  rw [← hc1]
  rw [logRatios_ok S hk ho (i := i) (j := j) (D0 := side i j (scanRows n s.alloc i j) c1 false)
    (D1 := side i j (scanRows n s.alloc i j) c1 true)
    (root_mem i j _ c1 false) (root_mem i j _ c1 true) (side_disjoint hr c1) (fun _ => ⟨rfl, rfl⟩) (by simp), ok_bind]
  simp [splitRate, hc.len]

theorem logArate_merge {E : Env G H Θ} (S : Scores H) (hk : E.kind ≠ .other) {n : ℕ}
    {s : Alg G H Θ} (hc : Consistent E.contrib n s) {i j : ℕ} (hi : i < n) (hj : j < n)
    (ht : s.alloc[i]? ≠ s.alloc[j]?) {o : Hier G H Θ} (ho : s.clus[0]? = some o)
    (c0 : ℕ → Bool) (r : ℕ → ℕ) :
    logArate E S s (launchOf E s.hyp o.state i j (scanRows n s.alloc i j) c0) i j r =
      .ok (false, launchOf E s.hyp o.state i j (scanRows n s.alloc i j) (backLab s.alloc i j n),
        -splitRate E S s.hyp n i j (scanRows n s.alloc i j) c0 (backLab s.alloc i j n)) := by
  have hne : i ≠ j := by rintro rfl; exact ht rfl
  have hr := scanRows_ok (n := n) (al := s.alloc) hne
  obtain ⟨a, ha, hal⟩ := hc.on.labelled i (Finset.mem_range.mpr hi)
  obtain ⟨b, hb, hbl⟩ := hc.on.labelled j (Finset.mem_range.mpr hj)
  have hab : a ≠ b := by rintro rfl; exact ht (ha.trans hb.symm)
  have hoa := List.getElem?_eq_getElem hal
  have hob := List.getElem?_eq_getElem hbl
  have hnl : newLab s.alloc i (scanRows n s.alloc i j) true r = backLab s.alloc i j n := by
    funext k; simp [newLab, backLab]
  simp only [logArate, vget_ok ha, vget_ok hb, ok_bind, decide_eq_false hab, Bool.not_false]
  rw [restrictedGs_ok S hk hr c0 (fun _ => ⟨by rw [hc.len]; exact hi, fun x hx => by
    rw [hc.len]
    rcases (mem_scanRows.mp hx).2.2 with h | h <;> exact (mem_clusterOf.mp h).1⟩), ok_bind, hnl]
  rw [logRatios_ok S hk ho (self_mem_clusterOf hi) (self_mem_clusterOf hj)
    (clusterOf_disjoint (n := n) ht) (by simp)
    (fun _ => ⟨a, b, _, _, ha, hb, hoa, hob, by rw [hc.on.members a _ hoa, clusterOf_eq ha],
      by rw [hc.on.members b _ hob, clusterOf_eq hb]⟩), ok_bind]
  obtain ⟨e1, e2⟩ := side_back hc.len hi hj ht
  simp [splitRate, e1, e2, hc.len]
  ring

/-! ### The proposals -/

/-- The object that row `x` sits in. -/
def objAt (s : Alg G H Θ) (x : ℕ) : Option (Hier G H Θ) := s.alloc[x]? >>= fun k => s.clus[k]?

omit [AddCommGroup G] in
theorem objAt_eq {s : Alg G H Θ} {x k : ℕ} (h : s.alloc[x]? = some k) :
    objAt s x = s.clus[k]? := by simp [objAt, h]

/-- Everything that an accepted split guarantees; `D` is the set of rows moved. -/
structure SplitDone (E : Env G H Θ) (n i j : ℕ) (D : Finset ℕ) (s s' : Alg G H Θ) : Prop where
  cons : Consistent E.contrib n s'
  noEmpty : NoEmptyOn (Finset.range n) s → NoEmptyOn (Finset.range n) s'
  caches : CachesOk s → CachesOk s'
  hyp : s'.hyp = s.hyp
  len : s'.clus.length = s.clus.length + 1
  alloc : ∀ x, s'.alloc[x]? = if x ∈ D then some s.clus.length else s.alloc[x]?
  others : ∀ x < n, s.alloc[x]? ≠ s.alloc[i]? → objAt s' x = objAt s x
  fresh : ∀ x < n, s.alloc[x]? = s.alloc[i]? → ∃ o, objAt s' x = some o ∧ o.Fresh E s.hyp

theorem proposal_split {E : Env G H Θ} (hk : E.kind ≠ .other) {n : ℕ} {s : Alg G H Θ}
    (hc : Consistent E.contrib n s) {i j : ℕ} (hi : i < n) (hj : j < n)
    (ht : s.alloc[i]? = s.alloc[j]?) {L : Launch G H Θ} {D : Finset ℕ}
    (hL : (L.vals false).idx = D) (hiD : i ∈ D) (hjD : j ∉ D) (hD : D ⊆ clusterOf n s.alloc i) :
    ∃ s', proposalUpdate E s L i j true = .ok s' ∧ SplitDone E n i j D s s' := by
  obtain ⟨a, ha, hal⟩ := hc.on.labelled i (Finset.mem_range.mpr hi)
  obtain ⟨o, ho⟩ := first_obj hc (by omega)
  obtain ⟨s1, hs1⟩ : ∃ s1 : Alg G H Θ, s1 = { s with clus := s.clus ++ [o.clone] } := ⟨_, rfl⟩
  have hlab : ∀ x < n, ∃ c, s.alloc[x]? = some c ∧ c < s.clus.length := fun x hx =>
    hc.on.labelled x (Finset.mem_range.mpr hx)
  have hempty : membersIn (Finset.range n) s.alloc s.clus.length = ∅ := by
    ext x
    simp only [mem_membersIn, Finset.mem_range, Finset.notMem_empty, iff_false, not_and]
    intro hx e
    obtain ⟨c, h1, h2⟩ := hlab x hx
    rw [h1] at e; have := Option.some.inj e; omega
  have hget : ∀ (k : ℕ) p, s1.clus[k]? = some p →
      (k < s.clus.length ∧ s.clus[k]? = some p) ∨ (k = s.clus.length ∧ p = o.clone) := by
    intro k p hp
    rw [hs1] at hp
    by_cases h : k < s.clus.length
    · left; refine ⟨h, ?_⟩; rwa [List.getElem?_append_left h] at hp
    · right
      rw [List.getElem?_append_right (by omega)] at hp
      have h1 := (List.getElem?_eq_some_iff.mp hp).1
      simp at h1
      have h2 : k = s.clus.length := by omega
      subst h2; simp at hp; exact ⟨rfl, hp.symm⟩
  have hc1 : Consistent E.contrib n s1 := by
    refine ⟨by rw [hs1]; exact hc.len, ?_, ?_, ?_, ?_⟩
    · intro x hx
      obtain ⟨c, h1, h2⟩ := hc.on.labelled x hx
      exact ⟨c, by rw [hs1]; exact h1, by rw [hs1]; simp; omega⟩
    all_goals
      intro k p hp
      have he : s1.alloc = s.alloc := by rw [hs1]
      rw [he]
      rcases hget k p hp with ⟨-, h⟩ | ⟨rfl, rfl⟩
    · exact hc.on.members k p h
    · rw [hempty]; rfl
    · exact hc.on.cards k p h
    · rw [hempty]; rfl
    · exact hc.on.stats k p h
    · rw [hempty]; rfl
  have hane : a ≠ s.clus.length := by omega
  obtain ⟨s', he, hm⟩ := moveRows_split hk j (n := n) hane (D.sort (· ≤ ·))
    (by intro h; have : i ∈ D.sort (· ≤ ·) := by simpa using hiD
        rw [h] at this; simp at this) (Finset.sort_nodup _ _) s1 hc1
    (by
      intro x hx
      have := mem_clusterOf.mp (hD (by simpa using hx))
      exact ⟨this.1, by rw [hs1]; exact this.2.trans ha⟩)
    (by rw [hs1]; simp)
  have hal' : ∀ x, s'.alloc[x]? = if x ∈ D then some s.clus.length else s.alloc[x]? := by
    intro x; rw [hm.alloc]; simp [hs1]
  have hlen : s'.clus.length = s.clus.length + 1 := by rw [hm.len, hs1]; simp
  refine ⟨s', ?_, hm.cons, ?_, ?_, by rw [hm.hyp, hs1], hlen, hal', ?_, ?_⟩
  · simp only [proposalUpdate, vget_ok ha, vget_ok ho, ok_bind, if_true, hL]
    rw [← hs1]; exact he
  · intro hne k hk'
    by_cases h1 : k = s.clus.length
    · exact ⟨i, Finset.mem_range.mpr hi, by rw [hal', if_pos hiD, h1]⟩
    · by_cases h2 : k = a
      · exact ⟨j, Finset.mem_range.mpr hj, by rw [hal', if_neg hjD, ← ht, ha, h2]⟩
      · obtain ⟨x, hx, e⟩ := hne k (by omega)
        refine ⟨x, hx, ?_⟩
        rw [hal', if_neg, e]
        intro hxD
        have := (mem_clusterOf.mp (hD hxD)).2
        rw [e, ha] at this; exact h2 (Option.some.inj this)
  · intro hca
    apply hm.caches
    intro q hq
    rw [hs1] at hq
    rcases List.mem_append.mp hq with h | h
    · exact hca q h
    · rw [List.mem_singleton.mp h]; exact Hier.cacheOk_clone o
  · intro x hx hne
    obtain ⟨k, h1, h2⟩ := hlab x hx
    have hka : k ≠ a := by rintro rfl; exact hne (h1.trans ha.symm)
    have hxD : x ∉ D := fun h => hne (mem_clusterOf.mp (hD h)).2
    rw [objAt_eq h1, objAt_eq (by rw [hal', if_neg hxD, h1]), hm.others k hka (by omega), hs1]
    exact List.getElem?_append_left h2
  · intro x hx he'
    have hx' : ∃ k, (k = a ∨ k = s.clus.length) ∧ s'.alloc[x]? = some k := by
      by_cases hxD : x ∈ D
      · exact ⟨_, .inr rfl, by rw [hal', if_pos hxD]⟩
      · exact ⟨_, .inl rfl, by rw [hal', if_neg hxD, he', ha]⟩
    obtain ⟨k, hk1, hk2⟩ := hx'
    have hkl : k < s'.clus.length := by rcases hk1 with h | h <;> omega
    refine ⟨_, (objAt_eq hk2).trans (List.getElem?_eq_getElem hkl), ?_⟩
    have := hm.fresh k _ hk1 (List.getElem?_eq_getElem hkl)
    rw [hs1] at this; exact this

/-- Everything that an accepted merge guarantees. -/
structure MergeDone (E : Env G H Θ) (n i j : ℕ) (s s' : Alg G H Θ) : Prop where
  cons : Consistent E.contrib n s'
  noEmpty : NoEmptyOn (Finset.range n) s → NoEmptyOn (Finset.range n) s'
  caches : CachesOk s → CachesOk s'
  hyp : s'.hyp = s.hyp
  len : s'.clus.length + 1 = s.clus.length
  alloc : ∃ a b : ℕ, s.alloc[i]? = some a ∧ s.alloc[j]? = some b ∧ ∀ x < n, s'.alloc[x]? =
    if s.alloc[x]? = s.alloc[i]? then some (shiftDown a b) else (s.alloc[x]?).map (shiftDown a)
  others : ∀ x < n, s.alloc[x]? ≠ s.alloc[i]? → s.alloc[x]? ≠ s.alloc[j]? →
    objAt s' x = objAt s x
  fresh : ∀ x < n, s.alloc[x]? = s.alloc[i]? ∨ s.alloc[x]? = s.alloc[j]? →
    ∃ o, objAt s' x = some o ∧ o.Fresh E s.hyp

theorem proposal_merge {E : Env G H Θ} (hk : E.kind ≠ .other) {n : ℕ} {s : Alg G H Θ}
    (hc : Consistent E.contrib n s) {i j : ℕ} (hi : i < n) (hj : j < n)
    (ht : s.alloc[i]? ≠ s.alloc[j]?) (L : Launch G H Θ) :
    ∃ s', proposalUpdate E s L i j false = .ok s' ∧ MergeDone E n i j s s' := by
  obtain ⟨a, ha, hal⟩ := hc.on.labelled i (Finset.mem_range.mpr hi)
  obtain ⟨b, hb, hbl⟩ := hc.on.labelled j (Finset.mem_range.mpr hj)
  have hab : a ≠ b := by rintro rfl; exact ht (ha.trans hb.symm)
  have hoa := List.getElem?_eq_getElem hal
  have hmem := hc.on.members a _ hoa
  obtain ⟨s', he, hm⟩ := moveRows_merge hk (n := n) (second := j) hab
    (s.clus[a].idx.sort (· ≤ ·))
    (by intro h
        have : i ∈ s.clus[a].idx.sort (· ≤ ·) := by
          simp [hmem, mem_membersIn, hi, ha]
        rw [h] at this; simp at this) (Finset.sort_nodup _ _) s hc
    (by intro x; simp [hmem, mem_membersIn]) hj hb
  have hall : ∀ x < n, s'.alloc[x]? = if s.alloc[x]? = s.alloc[i]? then some (shiftDown a b)
      else (s.alloc[x]?).map (shiftDown a) := by
    intro x hx
    rw [hm.alloc x hx]
    have : x ∈ s.clus[a].idx.sort (· ≤ ·) ↔ s.alloc[x]? = s.alloc[i]? := by
      simp [hmem, mem_membersIn, hx, ha]
    simp only [this]
  have hlt : shiftDown a b < s'.clus.length := by
    have := hm.len; unfold shiftDown; split <;> omega
  refine ⟨s', ?_, hm.cons, ?_, hm.caches, hm.hyp, hm.len, ⟨a, b, ha, hb, hall⟩, ?_, ?_⟩
  · simp only [proposalUpdate, vget_ok ha, ok_bind, Bool.false_eq_true, if_false, vget_ok hb,
      vget_ok hoa]
    exact he
  · intro hne k hk'
    have hlen := hm.len
    -- the old label that becomes `k`
    obtain ⟨k0, hk0, hk0a, e0⟩ : ∃ k0, k0 < s.clus.length ∧ k0 ≠ a ∧ shiftDown a k0 = k := by
      by_cases h : k < a
      · exact ⟨k, by omega, by omega, by simp [shiftDown]; omega⟩
      · exact ⟨k + 1, by omega, by omega, by simp [shiftDown]; omega⟩
    obtain ⟨x, hx, e⟩ := hne k0 hk0
    refine ⟨x, hx, ?_⟩
    rw [hall x (Finset.mem_range.mp hx), if_neg, e, Option.map_some, e0]
    rw [e, ha]; exact fun h => hk0a (Option.some.inj h)
  · intro x hx h1 h2
    obtain ⟨k, hk1, hk2⟩ := hc.on.labelled x (Finset.mem_range.mpr hx)
    have hka : k ≠ a := by rintro rfl; exact h1 (hk1.trans ha.symm)
    have hkb : k ≠ b := by rintro rfl; exact h2 (hk1.trans hb.symm)
    rw [objAt_eq hk1, objAt_eq (by rw [hall x hx, if_neg h1, hk1, Option.map_some]),
      hm.others k hka hkb]
  · intro x hx h
    have hx' : s'.alloc[x]? = some (shiftDown a b) := by
      rw [hall x hx]
      split
      · rfl
      · rename_i h'
        rcases h with h | h
        · exact absurd h h'
        · rw [h, hb, Option.map_some]
    exact ⟨_, (objAt_eq hx').trans (List.getElem?_eq_getElem hlt),
      hm.fresh _ (List.getElem?_eq_getElem hlt)⟩

/-- The accept/reject decision. -/
def Accept (u rate : ℝ) : Prop := u = 0 ∨ Real.log u < rate

/-- One Metropolis-Hastings update, once the two rows are selected. -/
theorem update_split {E : Env G H Θ} (S : Scores H) (hk : E.kind ≠ .other) {n : ℕ}
    {s : Alg G H Θ} (hc : Consistent E.contrib n s) {i j : ℕ} (hi : i < n) (hj : j < n)
    (hne : i ≠ j) (ht : s.alloc[i]? = s.alloc[j]?) {o : Hier G H Θ} (ho : s.clus[0]? = some o)
    (c0 : ℕ → Bool) (r : ℕ → ℕ) (u : ℝ) :
    ∃ s', splitOrMerge E S s (launchOf E s.hyp o.state i j (scanRows n s.alloc i j) c0) i j r u =
        .ok s' ∧
      (¬ Accept u (splitRate E S s.hyp n i j (scanRows n s.alloc i j) c0
        (fun k => decide (r k % 2 = 1))) → s' = s) ∧
      (Accept u (splitRate E S s.hyp n i j (scanRows n s.alloc i j) c0
        (fun k => decide (r k % 2 = 1))) → SplitDone E n i j
          (side i j (scanRows n s.alloc i j) (fun k => decide (r k % 2 = 1)) false) s s') := by
  obtain ⟨c1, hc1⟩ : ∃ c1 : ℕ → Bool, c1 = fun k => decide (r k % 2 = 1) := ⟨_, rfl⟩
  have hr := scanRows_ok (n := n) (al := s.alloc) hne
  unfold splitOrMerge
  rw [logArate_split S hk hc hi hne ht ho c0 r, ok_bind, ← hc1]
  by_cases hu : Accept u (splitRate E S s.hyp n i j (scanRows n s.alloc i j) c0 c1)
  · have hsub : side i j (scanRows n s.alloc i j) c1 false ⊆ clusterOf n s.alloc i := by
      have h1 : side i j (scanRows n s.alloc i j) c1 false ⊆
          clusterOf n s.alloc i ∪ clusterOf n s.alloc j := by
        rw [← scanRows_union hi hj, ← side_union i j _ c1]; exact Finset.subset_union_left
      have h2 : clusterOf n s.alloc j = clusterOf n s.alloc i := by simp [clusterOf, ht]
      rwa [h2, Finset.union_self] at h1
    have hjD : j ∉ side i j (scanRows n s.alloc i j) c1 false := fun h =>
      Finset.disjoint_left.mp (side_disjoint hr c1) h (root_mem i j _ c1 true)
    obtain ⟨s', he, hd⟩ := proposal_split hk hc hi hj ht
      (L := launchOf E s.hyp o.state i j (scanRows n s.alloc i j) c1) rfl
      (root_mem i j _ c1 false) hjD hsub
    exact ⟨s', (if_pos hu).trans he, fun h => absurd hu h, fun _ => hd⟩
  · exact ⟨s, if_neg hu, fun _ => rfl, fun h => absurd h hu⟩

theorem update_merge {E : Env G H Θ} (S : Scores H) (hk : E.kind ≠ .other) {n : ℕ}
    {s : Alg G H Θ} (hc : Consistent E.contrib n s) {i j : ℕ} (hi : i < n) (hj : j < n)
    (ht : s.alloc[i]? ≠ s.alloc[j]?) {o : Hier G H Θ} (ho : s.clus[0]? = some o)
    (c0 : ℕ → Bool) (r : ℕ → ℕ) (u : ℝ) :
    ∃ s', splitOrMerge E S s (launchOf E s.hyp o.state i j (scanRows n s.alloc i j) c0) i j r u =
        .ok s' ∧
      (¬ Accept u (-splitRate E S s.hyp n i j (scanRows n s.alloc i j) c0
        (backLab s.alloc i j n)) → s' = s) ∧
      (Accept u (-splitRate E S s.hyp n i j (scanRows n s.alloc i j) c0
        (backLab s.alloc i j n)) → MergeDone E n i j s s') := by
  unfold splitOrMerge
  rw [logArate_merge S hk hc hi hj ht ho c0 r, ok_bind]
  by_cases hu : Accept u (-splitRate E S s.hyp n i j (scanRows n s.alloc i j) c0
      (backLab s.alloc i j n))
  · obtain ⟨s', he, hd⟩ := proposal_merge hk hc hi hj ht
      (launchOf E s.hyp o.state i j (scanRows n s.alloc i j) (backLab s.alloc i j n))
    exact ⟨s', (if_pos hu).trans he, fun h => absurd hu h, fun _ => hd⟩
  · exact ⟨s, if_neg hu, fun _ => rfl, fun h => absurd h hu⟩

theorem pickPair_ok {n : ℕ} (hn : 2 ≤ n) (r1 r2 : ℕ) :
    ∃ i j, pickPair n r1 r2 = .ok (i, j) ∧ i < n ∧ j < n ∧ i ≠ j := by
  have h1 : r1 % n < n := Nat.mod_lt _ (by omega)
  have h2 : r2 % (n - 1) < n - 1 := Nat.mod_lt _ (by omega)
  simp only [pickPair, categorical_ok r1 (show 0 < n by omega),
    categorical_ok r2 (show 0 < n - 1 by omega), ok_bind]
  obtain ⟨i, hi⟩ : ∃ i, i = r1 % n := ⟨_, rfl⟩
  obtain ⟨j, hj⟩ : ∃ j, j = r2 % (n - 1) := ⟨_, rfl⟩
  rw [← hi, ← hj]
  rw [← hi] at h1; rw [← hj] at h2
  refine ⟨i, _, rfl, h1, ?_, ?_⟩ <;> split <;> omega

end Bayesmix.SplitMerge
