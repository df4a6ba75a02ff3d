import Verif.Alloc.Run

/-!
# Properties C01-C07, C12, C13: allocation bookkeeping of the Gibbs samplers
-/

namespace Bayesmix

variable {G H Θ : Type} [AddCommGroup G]

/-! ### A concrete hierarchy used for examples and counterexamples

Statistics are sums of the row index plus one, hypers are integers, the posterior
adds the statistics to the prior, and a draw returns the hypers it was given. -/

/-- Toy conjugate hierarchy. -/
def toyEnv (kind : UpdaterKind) (hyperUpdate : ℤ → List (ℤ × ℤ) → ℕ → ℤ) : Env ℤ ℤ ℤ where
  kind := kind
  contrib := fun i => (i : ℤ) + 1
  post := fun h _ ss => h + ss
  sample := fun h _ => h
  otherDraw := fun θ _ _ _ _ _ => θ
  hyperUpdate := hyperUpdate

/-- Toy setup: `n` rows, `k` initial clusters, prior hypers `100`. -/
def toySetup (upd : Bool) (n k : ℕ) : Setup ℤ ℤ where
  algConditional := false
  algRequiresConjugate := true
  algUpdatesParams := upd
  rows := n
  cols := 1
  hierMultivariate := false
  hierDependent := false
  hierCovRows := 0
  hierCovCols := 0
  hasMixing := true
  mixConditional := false
  mixDependent := false
  mixCovRows := 0
  mixCovCols := 0
  initClusters := k
  mixInit := some
  hierInit := some (100, 0)

/-- A hierarchy object as constructed by the user. -/
def toyObj : Hier ℤ ℤ ℤ := { state := 0, card := 0, idx := ∅, ss := 0, saved := false, ph := none }

/-- Deterministic noise. -/
def zeroNoise : Noise := { cat := fun _ => (0, 0), uv := fun _ => 0, hyp := 0, aux := fun _ _ => 0 }

/-- Noise that keeps each row in the cluster given by `f`. -/
def catNoise (f : ℕ → ℕ) : Noise := { zeroNoise with cat := fun i => (f i, 0) }

/-! ### C12, C13: initialization -/

/-- **C12.** A successful initialization from a freshly supplied hierarchy object, when
the number of components is at most the number of rows, gives a consistent allocation
of all rows in exactly that many non-empty clusters. -/
theorem c12_initialize_consistent (E : Env G H Θ) (c : Setup H Θ) (z : InitNoise)
    (o : Hier G H Θ) (hfresh : o.saved = false)
    (hupd : c.algUpdatesParams = true → c.algRequiresConjugate = true)
    (K : ℕ) (hK : (numComponents c) = .ok K) (hKn : K ≤ c.rows)
    (hchk : ∃ c', checkSetup E.kind 1 c = .ok c') (hinit : c.hierInit ≠ none) :
    ∃ c' s, initAlgorithm E c z [o] = .ok (c', s) ∧ Consistent E.contrib c.rows s ∧
      NoEmptyOn (Finset.range c.rows) s ∧ s.clus.length = K ∧
      (c.mixInit c.initClusters = some 0 → K = c.rows) := by
  obtain ⟨c', hc'⟩ := hchk
  obtain ⟨h1, -, h3, -, -, h6, h7, h8, h9, h10⟩ := checkSetup_rows hc'
  have hnc : numComponents c' = .ok K := by
    rw [← hK]; unfold numComponents; rw [h7, h8, h3]
  have hpos := numComponents_pos h1 hK
  have hcs : CanSave E c'.algUpdatesParams := by
    intro hu
    rw [h9] at hu
    rcases h10 with h | h
    · rw [h]; decide
    · rw [hupd hu] at h; exact absurd h (by decide)
  obtain ⟨⟨h0, θ0⟩, hh⟩ := Option.ne_none_iff_exists'.mp hinit
  obtain ⟨s, e, hm, hl, -, -⟩ := initAlloc_ok (n := c.rows) (h0 := h0) (θ0 := θ0) z
    (o := o) hcs hpos hKn (by simp [Hier.CacheOk, hfresh])
  refine ⟨c', s, ?_, hm.cons, hm.noEmpty, hl, ?_⟩
  · simp only [initAlgorithm, List.length_singleton, hc', ok_bind, hnc, h6, hh]
    rw [h3, e]; rfl
  · intro h0
    unfold numComponents at hK
    rw [h0] at hK
    simpa using hK.symm

/-- The hypotheses of `c12_initialize_consistent` are met by 5 rows and 2 clusters. -/
example : ∃ c' s, initAlgorithm (toyEnv .conjugate fun h _ _ => h) (toySetup true 5 2)
    ⟨fun _ => 0, fun _ => 1⟩ [toyObj] = .ok (c', s) ∧ s.alloc = [0, 1, 1, 1, 1] ∧
    s.clus.map (·.ss) = [1, 14] := ⟨_, _, rfl, rfl, rfl⟩

/-- **C12, violation 1.** Asking for more initial clusters than there are rows, in an
otherwise accepted setup, reads a row that does not exist. -/
theorem c12_too_many_clusters_is_ub (E : Env G H Θ) (upd : Bool) (K n : ℕ) (h0 : H) (θ0 : Θ)
    (z : InitNoise) (o : Hier G H Θ) (hca : o.saved = false) (hKn : n < K) :
    initAlloc E upd K n h0 θ0 z [o] = .error .ub := by
  have hblank : (initObject E h0 θ0 o).Blank := by
    refine ⟨rfl, rfl, rfl, ?_⟩
    by_cases h : E.kind = .conjugate <;> simp [Hier.CacheOk, initObject, h, hca]
  obtain ⟨cl, e1, hlen, hb⟩ := grow_ok E h0 z.prior (K - 1) (initObject E h0 θ0 o) hblank
  have hlen' : cl.length = K := by omega
  have hm : ∀ k, membersIn (Finset.range 0) ([] : List ℕ) k = ∅ := by
    intro k; simp [membersIn]
  have hseat0 : Seated E.contrib K 0 ({ alloc := [], clus := cl, hyp := h0 } : Alg G H Θ) := by
    refine ⟨rfl, ⟨by simp, ?_, ?_, ?_⟩, hlen', by simp, fun p hp => (hb p hp).cache⟩
    · intro k p hp; rw [hm]; exact (hb p (List.mem_of_getElem? hp)).idx
    · intro k p hp; rw [hm]; exact (hb p (List.mem_of_getElem? hp)).card
    · intro k p hp; rw [hm]; exact (hb p (List.mem_of_getElem? hp)).ss
  obtain ⟨s1, e2, -⟩ := foldlM_range_inv (fun s i => seat E n s i i)
    (fun i s => Seated E.contrib K i s) n (by
      rintro i s hi hs
      obtain ⟨s', e, a, -⟩ := seated_step (n := n) hi hs (show i < K by omega) (fun _ => rfl)
      exact ⟨s', e, a⟩) _ hseat0
  have hrange : List.range K = List.range n ++ (n :: (List.range (K - n - 1)).map (n + 1 + ·)) := by
    have hK : K = n + (1 + (K - n - 1)) := by omega
    conv_lhs => rw [hK]
    rw [List.range_add, List.range_add]
    simp [Function.comp_def, Nat.add_assoc]
  have hseats : (List.range K).foldlM (fun s i => seat E n s i i)
      ({ alloc := [], clus := cl, hyp := h0 } : Alg G H Θ) = .error .ub := by
    rw [hrange, List.foldlM_append, e2]
    simp [seat]
  simp only [initAlloc, vget, List.getElem?_cons_zero, ok_bind, List.set_cons_zero, e1, hseats,
    error_bind]

/-- **C12, violation 2.** Initializing twice the same algorithm object, without setting
covariates again, throws whenever the hierarchy or the mixing is not dependent: the
first initialization has replaced the missing covariates by matrices with as many rows
as the data, which the second one takes for supplied covariates. -/
theorem c12_second_initialize_throws (E : Env G H Θ) (c c' : Setup H Θ) (z z' : InitNoise)
    (objs objs' : List (Hier G H Θ)) (s : Alg G H Θ)
    (h : initAlgorithm E c z objs = .ok (c', s))
    (hdep : c.hierDependent = false ∨ c.mixDependent = false) :
    initAlgorithm E c' z' objs' = .error .throw := by
  unfold initAlgorithm at h
  cases hc : checkSetup E.kind objs.length c with
  | error e => rw [hc] at h; simp at h
  | ok d =>
    rw [hc, ok_bind] at h
    have hd : d = c' := by
      cases hn : numComponents d with
      | error e => rw [hn] at h; simp at h
      | ok K =>
        rw [hn, ok_bind] at h
        split at h
        · cases h
        · rename_i h0 θ0 _
          cases hi : initAlloc E d.algUpdatesParams K d.rows h0 θ0 z objs with
          | error e => rw [hi] at h; simp at h
          | ok t => rw [hi, ok_bind] at h; cases h; rfl
    subst hd
    obtain ⟨h1, -, k, l, rfl⟩ := checkSetup_ok hc
    have hr : 0 < c.rows := Nat.pos_of_ne_zero fun e => h1 (.inl e)
    have hthrow := checkSetup_bad (kind := E.kind) (m := objs'.length)
      (c := { c with hierCovRows := c.rows, hierCovCols := k, mixCovRows := c.rows,
                     mixCovCols := l }) (by
        rcases hdep with hd | hd
        · exact .inl (.inr (.inr (.inr (.inr ⟨hr, .inl hd⟩))))
        · exact .inr (.inr (.inr ⟨hr, .inl hd⟩)))
    simp [initAlgorithm, hthrow]

/-- Non-vacuity: the second initialization of a concrete algorithm. -/
example : ∃ c' s, initAlgorithm (toyEnv .conjugate fun h _ _ => h) (toySetup true 5 2)
    ⟨fun _ => 0, fun _ => 1⟩ [toyObj] = .ok (c', s) ∧
    initAlgorithm (toyEnv .conjugate fun h _ _ => h) c' ⟨fun _ => 0, fun _ => 1⟩ s.clus =
      .error .throw := ⟨_, _, rfl, rfl⟩

/-- The conditions under which initialization must be refused, in the words of C13. -/
def MustRefuse (kind : UpdaterKind) (nHier : ℕ) (c : Setup H Θ) : Prop :=
  -- no data, or no hierarchy
  c.rows = 0 ∨ nHier = 0 ∨
  -- conjugate-only algorithm with a non-conjugate hierarchy
  (c.algRequiresConjugate = true ∧ kind ≠ .conjugate) ∨
  -- multivariate data for a univariate hierarchy
  (c.hierMultivariate = false ∧ 1 < c.cols) ∨
  -- hierarchy covariates: supplied to a non-dependent hierarchy, or with a wrong size
  (0 < c.hierCovRows ∧ (c.hierDependent = false ∨ c.hierCovRows ≠ c.rows)) ∨
  -- no mixing, or marginal with conditional
  c.hasMixing = false ∨ c.algConditional ≠ c.mixConditional ∨
  -- mixing covariates
  (0 < c.mixCovRows ∧ (c.mixDependent = false ∨ c.mixCovRows ≠ c.rows)) ∨
  -- the mixing or the hierarchy prior is rejected
  c.mixInit c.initClusters = none ∨ c.hierInit = none

theorem mustRefuse_iff (kind : UpdaterKind) (m : ℕ) (c : Setup H Θ) : MustRefuse kind m c ↔
    ((HierBad kind m c ∨ MixBad c) ∨ c.mixInit c.initClusters = none ∨ c.hierInit = none) := by
  simp only [MustRefuse, HierBad, MixBad, or_assoc]

/-- **C13.** For a freshly supplied hierarchy and at most as many components as rows
(otherwise see `c12_too_many_clusters_is_ub`), initialization throws exactly on the
configurations listed in `MustRefuse`, and succeeds on all others, leaving one row of
covariates per datum for both the hierarchy and the mixing. -/
theorem c13_decision_table (E : Env G H Θ) (c : Setup H Θ) (z : InitNoise)
    (objs : List (Hier G H Θ)) (hone : objs.length ≤ 1) (hfresh : ∀ o ∈ objs, o.saved = false)
    (hupd : c.algUpdatesParams = true → c.algRequiresConjugate = true)
    (hK : ∀ K, numComponents c = .ok K → K ≤ c.rows) :
    (MustRefuse E.kind objs.length c → initAlgorithm E c z objs = .error .throw) ∧
    (¬ MustRefuse E.kind objs.length c → ∃ c' s, initAlgorithm E c z objs = .ok (c', s) ∧
      c'.hierCovRows = c.rows ∧ c'.mixCovRows = c.rows) := by
  rw [mustRefuse_iff]
  by_cases hb : HierBad E.kind objs.length c ∨ MixBad c
  · exact ⟨fun _ => by simp [initAlgorithm, checkSetup_bad hb], fun h => absurd (.inl hb) h⟩
  · obtain ⟨hb1, hb2⟩ := not_or.mp hb
    obtain ⟨k, l, hchk⟩ := checkSetup_good hb1 hb2
    obtain ⟨c', hc'⟩ : ∃ c', c' = { c with hierCovRows := c.rows, hierCovCols := k, mixCovRows := c.rows, mixCovCols := l } := ⟨_, rfl⟩
    rw [← hc'] at hchk
    obtain ⟨h1, h2, h3, h4, h5, h6, h7, h8, h9, h10⟩ := checkSetup_rows hchk
    constructor
    · intro hm
      have hm := hm.resolve_left hb
      simp only [initAlgorithm, hchk, ok_bind]
      cases hn : numComponents c' with
      | error e =>
        have : e = .throw := by
          unfold numComponents at hn
          split at hn <;> cases hn
          rfl
        rw [this]; rfl
      | ok K =>
        rw [ok_bind, h6]
        have hmi : c.mixInit c.initClusters ≠ none := by
          intro h
          unfold numComponents at hn
          rw [h7, h8, h] at hn
          cases hn
        rw [hm.resolve_left hmi]
    · intro hm
      have hmi : c.mixInit c.initClusters ≠ none := fun h => hm (.inr (.inl h))
      have hhi : c.hierInit ≠ none := fun h => hm (.inr (.inr h))
      obtain ⟨K, hKe⟩ : ∃ K, numComponents c = .ok K := by
        unfold numComponents
        split
        · rename_i h; exact absurd h hmi
        · exact ⟨_, rfl⟩
        · exact ⟨_, rfl⟩
      obtain ⟨o, rfl⟩ : ∃ o, objs = [o] := List.length_eq_one_iff.mp (by omega)
      obtain ⟨c'', s, e, -⟩ := c12_initialize_consistent E c z o (hfresh o (by simp)) hupd K hKe
        (hK K hKe) ⟨c', hchk⟩ hhi
      refine ⟨c'', s, e, ?_⟩
      have : c'' = c' := by
        unfold initAlgorithm at e
        rw [hchk, ok_bind] at e
        cases hn : numComponents c' with
        | error x => rw [hn] at e; simp at e
        | ok K' =>
          rw [hn, ok_bind] at e
          split at e
          · cases e
          · rename_i h0 θ0 _
            cases hi : initAlloc E c'.algUpdatesParams K' c'.rows h0 θ0 z [o] with
            | error x => rw [hi] at e; simp at e
            | ok t => rw [hi, ok_bind] at e; cases e; rfl
      rw [this]; exact ⟨h4, h5⟩

/-! ### C01, C03: Neal2 and Neal3 -/

/-- Number of clusters = number of distinct labels, in a consistent state without empty
clusters. -/
theorem clusters_eq_labels {f : ℕ → G} {n : ℕ} {s : Alg G H Θ} (hc : Consistent f n s)
    (hne : NoEmptyOn (Finset.range n) s) : s.clus.length = s.alloc.toFinset.card := by
  have : s.alloc.toFinset = Finset.range s.clus.length := by
    ext k
    simp only [List.mem_toFinset, Finset.mem_range]
    constructor
    · intro hk
      obtain ⟨i, hi⟩ := List.getElem?_of_mem hk
      obtain ⟨c, h1, h2⟩ := hc.on.labelled i (by
        have := (List.getElem?_eq_some_iff.mp hi).1
        rw [Finset.mem_range, ← hc.len]; exact this)
      rw [hi] at h1; rw [Option.some.inj h1]; exact h2
    · intro hk
      obtain ⟨i, -, hi⟩ := hne k hk
      exact List.mem_of_getElem? hi
  rw [this, Finset.card_range]

/-- **C01 and C03.** From any consistent state on at least two rows, any number of
iterations of Neal2 (`upd = false`) or Neal3 (`upd = true`), with any random draws, never
faults and ends in a consistent state: one label per row, each naming an existing
non-empty cluster which holds exactly the rows with that label, and as many clusters as
distinct labels. -/
theorem c01_neal2_neal3_consistent (E : Env G H Θ) (upd : Bool) (n : ℕ) (hn : 2 ≤ n)
    (hcs : upd = true → E.kind ≠ .other) (s : Alg G H Θ) (hs : Consistent E.contrib n s)
    (hne : NoEmptyOn (Finset.range n) s) (hca : ∀ o ∈ s.clus, o.saved = true → o.ph.isSome)
    (zs : List Noise) :
    ∃ s', iterate (neal2Step E upd n) s zs = .ok s' ∧ Consistent E.contrib n s' ∧
      NoEmptyOn (Finset.range n) s' ∧ s'.clus.length = s'.alloc.toFinset.card := by
  obtain ⟨s', e, h⟩ := iterate_neal2_ok zs hn hcs ⟨hs, hne, hca⟩
  exact ⟨s', e, h.cons, h.noEmpty, clusters_eq_labels h.cons h.noEmpty⟩

/-- **C01, whole run.** The same from a successful initialization: no hypothesis on
internal state is left. -/
theorem c01_neal2_neal3_run (E : Env G H Θ) (c c' : Setup H Θ) (z : InitNoise)
    (o : Hier G H Θ) (hfresh : o.saved = false) (hreq : c.algRequiresConjugate = true)
    (K : ℕ) (hK : (numComponents c) = .ok K) (hKn : K ≤ c.rows) (hn : 2 ≤ c.rows)
    (s : Alg G H Θ) (hinit : initAlgorithm E c z [o] = .ok (c', s)) (zs : List Noise) :
    ∃ s', iterate (neal2Step E c.algUpdatesParams c.rows) s zs = .ok s' ∧
      Consistent E.contrib c.rows s' ∧ NoEmptyOn (Finset.range c.rows) s' ∧
      s'.clus.length = s'.alloc.toFinset.card := by
  have hinit' := hinit
  unfold initAlgorithm at hinit
  cases hc : checkSetup E.kind [o].length c with
  | error e => rw [hc] at hinit; simp at hinit
  | ok d =>
    rw [hc, ok_bind] at hinit
    obtain ⟨h1, -, h3, -, -, h6, h7, h8, h9, h10⟩ := checkSetup_rows hc
    have hconj : E.kind = .conjugate := by
      rcases h10 with h | h
      · exact h
      · rw [hreq] at h; cases h
    have hcs : CanSave E c.algUpdatesParams := by intro _; rw [hconj]; decide
    have hnc : numComponents d = .ok K := by
      rw [← hK]; unfold numComponents; rw [h7, h8, h3]
    rw [hnc, ok_bind] at hinit
    split at hinit
    · cases hinit
    · rename_i h0 θ0 _
      obtain ⟨t, e, hm, -⟩ := initAlloc_ok (E := E) (upd := d.algUpdatesParams) (K := K)
        (n := d.rows) (h0 := h0) (θ0 := θ0) z (o := o) (by rw [h9]; exact hcs)
        (numComponents_pos h1 hK) (by rw [h3]; exact hKn) (by simp [Hier.CacheOk, hfresh])
      rw [e, ok_bind] at hinit
      cases hinit
      rw [h3] at hm
      exact c01_neal2_neal3_consistent E _ c.rows hn hcs _ hm.cons hm.noEmpty hm.caches zs

/-- Non-vacuity and a look at a concrete run: 4 rows, 2 initial clusters, two sweeps in
which row 1 opens a new cluster and row 0 leaves (and thereby deletes) its own. -/
example : ∃ c' s s', initAlgorithm (toyEnv .conjugate fun h _ _ => h) (toySetup false 4 2)
      ⟨fun _ => 0, fun _ => 1⟩ [toyObj] = .ok (c', s) ∧
    iterate (neal2Step (toyEnv .conjugate fun h _ _ => h) false 4) s
      [catNoise (fun i => if i = 1 then 1 else 0), catNoise (fun _ => 2)] = .ok s' ∧
    s.alloc = [0, 1, 1, 1] ∧ s'.clus.length = s'.alloc.toFinset.card :=
  ⟨_, _, _, rfl, rfl, rfl, rfl⟩

/-- **C03, violation.** With a single row, every sweep of Neal2/Neal3 from a consistent
state reads the first element of an empty vector. -/
theorem c03_single_row_is_ub (E : Env G H Θ) (upd : Bool) (hcs : upd = true → E.kind ≠ .other)
    (s : Alg G H Θ) (hs : Consistent E.contrib 1 s) (hne : NoEmptyOn (Finset.range 1) s)
    (z : Noise) : neal2Step E upd 1 s z = .error .ub := by
  obtain ⟨s1, c, o, hdet, hd, hl, ho, hsing, hrem⟩ :=
    detach_ok (i := 0) hcs hs.on (by simp)
  have h0 : s1.clus = [] := by
    by_contra h
    obtain ⟨k, hk⟩ := List.exists_mem_of_ne_nil _ h
    have hpos : 0 < s1.clus.length := List.length_pos_iff.mpr h
    obtain ⟨j, hj, -⟩ := hd.noEmpty hne 0 hpos
    simp at hj
  have h1 : neal2Datum E upd s 0 (z.cat 0).1 (z.cat 0).2 = .error .ub := by
    simp [neal2Datum, hdet, h0, vget]
  simp [neal2Step, neal2Allocations, List.range_succ, h1]

/-- Non-vacuity: one row in one cluster. -/
example : ∃ c' s, initAlgorithm (toyEnv .conjugate fun h _ _ => h) (toySetup false 1 0)
      ⟨fun _ => 0, fun _ => 1⟩ [toyObj] = .ok (c', s) ∧
    neal2Step (toyEnv .conjugate fun h _ _ => h) false 1 s zeroNoise = .error .ub :=
  ⟨_, _, rfl, rfl⟩

/-! ### C02: Neal8 -/

/-- **C02.** With at least one auxiliary block and at least one row, any number of
Neal8 iterations from a consistent state never faults and stays consistent; this holds
also for non-conjugate hierarchies. -/
theorem c02_neal8_consistent (E : Env G H Θ) (n : ℕ) (hn : 0 < n) (s : Alg8 G H Θ)
    (haux : 0 < s.aux.length) (hs : Consistent E.contrib n s.base)
    (hne : NoEmptyOn (Finset.range n) s.base)
    (hca : ∀ o ∈ s.base.clus, o.saved = true → o.ph.isSome) (zs : List Noise) :
    ∃ s', iterate (neal8Step E n) s zs = .ok s' ∧ Consistent E.contrib n s'.base ∧
      NoEmptyOn (Finset.range n) s'.base ∧ s'.base.clus.length = s'.base.alloc.toFinset.card ∧
      s'.aux.length = s.aux.length := by
  obtain ⟨s', e, h1, h2⟩ := foldlM_list_inv (neal8Step E n)
    (fun t => MarginalOk E.contrib n t.base ∧ t.aux.length = s.aux.length)
    (fun z t ht => by
      obtain ⟨t', e, a, b⟩ := neal8Step_ok z hn (by omega) ht.1
      exact ⟨t', e, a, by omega⟩) zs s ⟨⟨hs, hne, hca⟩, rfl⟩
  exact ⟨s', e, h1.cons, h1.noEmpty, clusters_eq_labels h1.cons h1.noEmpty, h2⟩

/-- Non-vacuity: Neal8 with one auxiliary block and one row, where the singleton is
copied to the auxiliary block and back. -/
example : ∃ c' s s', initAlgorithm8 (toyEnv .other fun h _ _ => h)
      { toySetup false 1 0 with algRequiresConjugate := false } 1
      ⟨fun _ => 0, fun _ => 1⟩ [toyObj] = .ok (c', s) ∧
    iterate (neal8Step (toyEnv .other fun h _ _ => h) 1) s [zeroNoise, catNoise (fun _ => 7)]
      = .ok s' ∧ s'.base.alloc = [0] := ⟨_, _, _, rfl, rfl, rfl⟩

/-- **C02, violation.** With no auxiliary block (a value that
`read_params_from_proto` accepts) a sweep that starts with a singleton row is undefined
behaviour. -/
theorem c02_no_aux_is_ub (E : Env G H Θ) (n : ℕ) (hn : 0 < n) (s : Alg8 G H Θ)
    (haux : s.aux = []) (hs : Consistent E.contrib n s.base)
    (halone : ∀ j, 0 < j → j < n → ¬ together s.base.alloc 0 j) (z : Noise) :
    neal8Step E n s z = .error .ub := by
  obtain ⟨s1, c, o, hdet, hd, hl, ho, hsing, hrem⟩ :=
    detach_ok (i := 0) (canSave_false E) hs.on (Finset.mem_range.mpr hn)
  have hcard : o.card ≤ 1 := by
    rw [hs.on.cards c o ho]
    have : (membersIn (Finset.range n) s.base.alloc c).card ≤ 1 := by
      have hz : ∀ x ∈ membersIn (Finset.range n) s.base.alloc c, x = 0 := by
        intro x hx
        obtain ⟨hx1, hx2⟩ := mem_membersIn.mp hx
        by_contra h
        exact halone x (Nat.pos_of_ne_zero h) (Finset.mem_range.mp hx1) (by
          unfold together; rw [hx2, hl])
      exact Finset.card_le_one.mpr fun a ha b hb => by rw [hz a ha, hz b hb]
    exact_mod_cast this
  have h1 : neal8Datum E s 0 (z.cat 0).1 (z.aux 0) = .error .ub := by
    simp [neal8Datum, hdet, storeSingleton, hcard, haux, vget]
  obtain ⟨m, rfl⟩ : ∃ m, n = m + 1 := ⟨n - 1, by omega⟩
  have : List.range (m + 1) = 0 :: (List.range m).map Nat.succ := List.range_succ_eq_map
  simp [neal8Step, neal8Allocations, this, h1]

/-- Non-vacuity. -/
example : ∃ c' s, initAlgorithm8 (toyEnv .other fun h _ _ => h)
      { toySetup false 3 0 with algRequiresConjugate := false } 0
      ⟨fun _ => 0, fun _ => 1⟩ [toyObj] = .ok (c', s) ∧
    neal8Step (toyEnv .other fun h _ _ => h) 3 s zeroNoise = .error .ub := ⟨_, _, rfl, rfl⟩

/-! ### C04: one observation moves, the others keep company -/

/-- **C04 (Neal2/Neal3).** -/
theorem c04_neal2_others_unmoved (E : Env G H Θ) (upd : Bool) (n : ℕ) (hn : 2 ≤ n)
    (hcs : upd = true → E.kind ≠ .other) (s s' : Alg G H Θ) (hs : Consistent E.contrib n s)
    (hne : NoEmptyOn (Finset.range n) s) (hca : ∀ o ∈ s.clus, o.saved = true → o.ph.isSome)
    (i rc rd : ℕ) (hi : i < n) (e : neal2Datum E upd s i rc rd = .ok s')
    (j k : ℕ) (hj : j < n) (hk : k < n) (hji : j ≠ i) (hki : k ≠ i) :
    s'.alloc[j]? = s'.alloc[k]? ↔ s.alloc[j]? = s.alloc[k]? := by
  obtain ⟨t, e', hr, -⟩ := neal2Datum_ok rc rd hn hcs hs hne hca hi
  rw [e] at e'; cases e'
  exact hr.co j hj k hk hji hki

/-- **C04 (Neal8).** -/
theorem c04_neal8_others_unmoved (E : Env G H Θ) (n : ℕ) (s s' : Alg8 G H Θ)
    (haux : 0 < s.aux.length) (hs : Consistent E.contrib n s.base)
    (hne : NoEmptyOn (Finset.range n) s.base)
    (hca : ∀ o ∈ s.base.clus, o.saved = true → o.ph.isSome) (i rc : ℕ) (ra : ℕ → ℕ) (hi : i < n)
    (e : neal8Datum E s i rc ra = .ok s')
    (j k : ℕ) (hj : j < n) (hk : k < n) (hji : j ≠ i) (hki : k ≠ i) :
    s'.base.alloc[j]? = s'.base.alloc[k]? ↔ s.base.alloc[j]? = s.base.alloc[k]? := by
  obtain ⟨t, e', hr, -⟩ := neal8Datum_ok rc ra haux ⟨hs, hne, hca⟩ hi
  rw [e] at e'; cases e'
  exact hr.co j hj k hk hji hki

/-- Non-vacuity: row 0 leaves its singleton cluster; rows 1,2 stay together, 3 apart. -/
example : ∃ c' s s', initAlgorithm (toyEnv .conjugate fun h _ _ => h) (toySetup false 4 3)
      ⟨fun _ => 0, fun _ => 1⟩ [toyObj] = .ok (c', s) ∧
    neal2Datum (toyEnv .conjugate fun h _ _ => h) false s 0 1 0 = .ok s' ∧
    s.alloc = [0, 1, 2, 1] ∧ s'.alloc = [1, 0, 1, 0] := ⟨_, _, _, rfl, rfl, rfl, rfl⟩

/-! ### C05: unique values come from the posterior of their own data -/

/-- **C05 (Neal3, and any sampler that refreshes on insertion/removal).** At the end of
each iteration, each cluster's parameters have been drawn with the posterior hypers given
the rows that carry its label — whatever was cached before the iteration. -/
theorem c05_neal3_draws_from_posterior (E : Env G H Θ) (n : ℕ) (hn : 2 ≤ n)
    (hk : E.kind ≠ .other) (s s' : Alg G H Θ) (hs : Consistent E.contrib n s)
    (hne : NoEmptyOn (Finset.range n) s) (hca : ∀ o ∈ s.clus, o.saved = true → o.ph.isSome)
    (z : Noise) (e : neal2Step E true n s z = .ok s') (k : ℕ) (o : Hier G H Θ)
    (ho : s'.clus[k]? = some o) :
    o.state = E.sample (E.post s.hyp ((membersIn (Finset.range n) s'.alloc k).card : ℤ)
      (∑ i ∈ membersIn (Finset.range n) s'.alloc k, E.contrib i)) (z.uv k) := by
  obtain ⟨s1, e1, h1, hh, hf⟩ := neal3Allocations_fresh z.cat hn hk ⟨hs, hne, hca⟩
  obtain ⟨s2, s3, e2, e3, -⟩ := marginal_tail_ok (upd := true) z (by omega) h1
  have : neal2Step E true n s z = .ok s3 := by simp [neal2Step, e1, e2, e3]
  rw [e] at this; cases this
  rw [← hh]
  refine step_drawn hk (by omega) h1 e2 e3 k o ho ?_
  intro p hp
  rw [hh]
  exact .inl (hf p (List.mem_of_getElem? hp))

/-- **C05, partial (Neal2).** In a Neal2 run from initialization, at the end of each
iteration all clusters but at most one have been drawn from the posterior given their
rows.  Missing: the cluster whose object is the one handed in by the user, see
`c05_neal2_violated`. -/
theorem c05_neal2_draws_from_posterior_partial (E : Env G H Θ) (K n : ℕ) (hn : 2 ≤ n)
    (hk : E.kind ≠ .other) (h0 : H) (θ0 : Θ) (zi : InitNoise) (u : Hier G H Θ)
    (hu : u.saved = false) (hK : 0 < K) (hKn : K ≤ n) (s0 s s' : Alg G H Θ)
    (hinit : initAlloc E false K n h0 θ0 zi [u] = .ok s0) (zs : List Noise)
    (hrun : iterate (neal2Step E false n) s0 zs = .ok s) (z : Noise)
    (e : neal2Step E false n s z = .ok s') :
    ∃ k0, ∀ (k : ℕ) (o : Hier G H Θ), k ≠ k0 → s'.clus[k]? = some o →
      o.state = E.sample (E.post s.hyp ((membersIn (Finset.range n) s'.alloc k).card : ℤ)
        (∑ i ∈ membersIn (Finset.range n) s'.alloc k, E.contrib i)) (z.uv k) := by
  have hsv0 := initAlloc_saved hK hKn (by simp [Hier.CacheOk, hu]) hinit
  obtain ⟨t0, e0, hm0, -⟩ := initAlloc_ok (E := E) (upd := false) (h0 := h0) (θ0 := θ0) zi (o := u)
    (canSave_false E) hK hKn (by simp [Hier.CacheOk, hu])
  rw [hinit] at e0; cases e0
  obtain ⟨t, et, hm, hsv⟩ := foldlM_list_inv (neal2Step E false n)
    (fun t => MarginalOk E.contrib n t ∧ savedCount t ≤ 1) (fun z t ht => by
      obtain ⟨t', e, h⟩ := neal2Step_ok z hn (canSave_false E) ht.1
      exact ⟨t', e, h, le_trans (neal2Step_saved hn ht.1 e) ht.2⟩) zs s0 ⟨hm0, hsv0⟩
  have : iterate (neal2Step E false n) s0 zs = .ok t := et
  rw [hrun] at this; cases this
  obtain ⟨s1, e1, h1, hh⟩ := neal2Allocations_ok z.cat hn (canSave_false E) hm
  obtain ⟨s2, s3, e2, e3, -⟩ := marginal_tail_ok (upd := false) z (by omega) h1
  have : neal2Step E false n s z = .ok s3 := by simp [neal2Step, e1, e2, e3]
  rw [e] at this; cases this
  obtain ⟨k0, hk0⟩ := saved_unique (le_trans (neal2Allocations_saved hn hm e1) hsv)
  refine ⟨k0, fun k o hkk ho => ?_⟩
  rw [← hh]
  exact step_drawn hk (by omega) h1 e2 e3 k o ho (fun p hp => .inr (hk0 k p hkk hp))

/-- **C05, violation (Neal2).** One cluster with rows 0, 1 (statistics 1 + 2), prior
hypers 100: the parameters are drawn with the prior hypers 100, not with the posterior
hypers 103. -/
theorem c05_neal2_violated :
    ∃ (c' : Setup ℤ ℤ) (s s' : Alg ℤ ℤ ℤ) (o : Hier ℤ ℤ ℤ),
      initAlgorithm (toyEnv .conjugate fun h _ _ => h) (toySetup false 2 1)
        ⟨fun _ => 0, fun _ => 0⟩ [toyObj] = .ok (c', s) ∧
      neal2Step (toyEnv .conjugate fun h _ _ => h) false 2 s zeroNoise = .ok s' ∧
      s'.clus = [o] ∧ s'.alloc = [0, 0] ∧ o.state = 100 ∧
      (∀ x r, (toyEnv .conjugate fun h _ _ => h).sample x r = x) ∧
      (toyEnv .conjugate fun h _ _ => h).post s.hyp
          ((membersIn (Finset.range 2) s'.alloc 0).card : ℤ)
          (∑ i ∈ membersIn (Finset.range 2) s'.alloc 0,
            (toyEnv .conjugate fun h _ _ => h).contrib i) = 103 := by
  refine ⟨_, _, _, _, rfl, rfl, rfl, rfl, rfl, fun _ _ => rfl, ?_⟩
  decide

/-- **C05, violation (general form).** Whatever the conjugate hierarchy: an object that
`initialize` has just prepared with prior hypers `h0`, and that is not refreshed on
insertion, draws its parameters with the prior hypers `h0`, no matter which rows were
added to it. -/
theorem c05_initialized_object_ignores_data (E : Env G H Θ) (hk : E.kind = .conjugate)
    (h0 h : H) (θ0 : Θ) (u : Hier G H Θ) (rows : List ℕ) (o o' : Hier G H Θ) (upd : Bool) (r : ℕ)
    (hadd : rows.foldlM (fun o i => o.addDatum E h false i) (initObject E h0 θ0 u) = .ok o)
    (hne : o.card ≠ 0) (e : o.sampleFullCond E h upd r = .ok o') :
    o'.state = E.sample h0 r := by
  have key : ∀ (rows : List ℕ) (p q : Hier G H Θ), p.saved = true → p.ph = some h0 →
      rows.foldlM (fun o i => o.addDatum E h false i) p = .ok q →
      q.saved = true ∧ q.ph = some h0 := by
    intro rows
    induction rows with
    | nil => intro p q h1 h2 e; simp at e; subst e; exact ⟨h1, h2⟩
    | cons i rows ih =>
      intro p q h1 h2 e
      rw [List.foldlM_cons] at e
      by_cases hi : i ∈ p.idx
      · simp [Hier.addDatum, hi] at e
      · rw [Hier.addDatum_eq hi (canSave_false E), ok_bind] at e
        exact ih _ q (by simp [Hier.added, h1]) (by simp [Hier.added, h2]) e
  obtain ⟨h1, h2⟩ := key rows _ o (by simp [initObject, hk]) (by simp [initObject, hk]) hadd
  have hk' : E.kind ≠ .other := by rw [hk]; decide
  simp [Hier.sampleFullCond, hk', hne, Hier.getPosterior, h1, h2] at e
  rw [← e]

/-- Non-vacuity. -/
example : ∃ o o', [4, 7].foldlM (fun o i => o.addDatum (toyEnv .conjugate fun h _ _ => h) 0 false i)
      (initObject (toyEnv .conjugate fun h _ _ => h) 100 0 toyObj) = .ok o ∧ o.card ≠ 0 ∧
    o.sampleFullCond (toyEnv .conjugate fun h _ _ => h) 0 true 3 = .ok o' ∧ o'.state = 100 :=
  ⟨_, _, rfl, by decide, rfl, rfl⟩

/-! ### C06: predictive weights of Neal3 -/

/-- Hyperparameters used by `conditional_pred_lpdf` of cluster `k`
(`src/algorithms/neal3_algorithm.cc` 18-32, `base_hierarchy.h` 190-195). -/
def neal3PredHypers (E : Env G H Θ) (s : Alg G H Θ) (k : ℕ) : Except Fault H := do
  let o ← vget s.clus k
  let (p, _) ← o.getPosterior E s.hyp false
  .ok p

/-- **C06 (fixed hyperparameters).** In a Neal3 run from initialization with
hyperparameters that are not updated, after any number of iterations and any part of the
next sweep, when row `i` is re-allocated the predictive density of each cluster `k` is
evaluated with the posterior hypers given exactly the other rows carrying label `k`. -/
theorem c06_neal3_predictive_hypers_partial (E : Env G H Θ) (hfix : ∀ h l r, E.hyperUpdate h l r = h)
    (K n : ℕ) (hn : 2 ≤ n) (hk : E.kind ≠ .other) (h0 : H) (θ0 : Θ) (zi : InitNoise)
    (u : Hier G H Θ) (hu : u.saved = false) (hK : 0 < K) (hKn : K ≤ n)
    (s0 s t : Alg G H Θ) (hinit : initAlloc E true K n h0 θ0 zi [u] = .ok s0)
    (zs : List Noise) (hrun : iterate (neal2Step E true n) s0 zs = .ok s)
    (i : ℕ) (hi : i < n) (ω : ℕ → ℕ × ℕ) (hpre : neal2Allocations E true i ω s = .ok t)
    (s1 : Alg G H Θ) (x : Hier G H Θ × Bool) (hd : detach E true t i = .ok (s1, x))
    (k : ℕ) (hkl : k < s1.clus.length) :
    neal3PredHypers E s1 k = .ok (E.post h0
      ((membersIn ((Finset.range n).erase i) s1.alloc k).card : ℤ)
      (∑ j ∈ membersIn ((Finset.range n).erase i) s1.alloc k, E.contrib j)) := by
  -- caches are fresh after initialization
  obtain ⟨t0, e0, hm0, -, hh0, hf0⟩ := initAlloc_ok (E := E) (upd := true) (h0 := h0) (θ0 := θ0)
    zi (o := u) (fun _ => hk) hK hKn (by simp [Hier.CacheOk, hu])
  rw [hinit] at e0; cases e0
  have hfresh0 : ∀ o ∈ s0.clus, o.Fresh E s0.hyp := by
    intro o ho
    obtain ⟨j, hj⟩ := List.getElem?_of_mem ho
    rw [hh0]; exact hf0 rfl j o hj
  -- and stay so
  obtain ⟨t', et, hm, hh, hf⟩ := foldlM_list_inv (neal2Step E true n)
    (fun t => MarginalOk E.contrib n t ∧ t.hyp = h0 ∧ ∀ o ∈ t.clus, o.Fresh E h0) (fun z t ht => by
      obtain ⟨h1, h2, h3⟩ := ht
      obtain ⟨a1, ea, ha, hah, haf⟩ := neal3Allocations_fresh z.cat hn hk h1
      obtain ⟨a2, a3, e2, e3, hm3⟩ := marginal_tail_ok (upd := true) z (by omega) ha
      refine ⟨a3, by simp [neal2Step, ea, e2, e3], hm3, ?_⟩
      obtain ⟨b, e2', hc2, -, -, -, hb, hobj⟩ :=
        sampleUniqueValues_ok (E := E) (upd := true) (r := z.uv) ha.cons ha.caches
      rw [e2] at e2'; cases e2'
      have h3e : a3 = a2 := by
        unfold updateHypers at e3
        rw [vget_ok (List.getElem?_eq_getElem (clus_pos hc2 (by omega))), ok_bind] at e3
        cases e3
        rw [hfix]
      rw [h3e]
      refine ⟨by rw [hb, hah, h2], ?_⟩
      intro o ho
      obtain ⟨j, hj⟩ := List.getElem?_of_mem ho
      obtain ⟨p, hp, hdr, -⟩ := hobj j o hj
      have := haf p (List.mem_of_getElem? hp)
      rw [h2] at this
      exact Hier.fresh_draw this hdr) zs s0 ⟨hm0, hh0, by rw [← hh0]; exact hfresh0⟩
  have : iterate (neal2Step E true n) s0 zs = .ok t' := et
  rw [hrun] at this; cases this
  obtain ⟨t'', et'', hmt, hht, hft⟩ := neal3Prefix_fresh ω i (by omega) hn hk hm
    (by rw [hh]; exact hf)
  rw [hpre] at et''; cases et''
  rw [hh] at hht hft
  obtain ⟨r1, c, o, hdet, hdd, hl, ho, hsing, hrem⟩ :=
    detach_ok (i := i) (fun _ => hk) hmt.cons.on (Finset.mem_range.mpr hi)
  rw [hd] at hdet
  have hs1 : s1 = r1 := by cases hdet; rfl
  subst hs1
  have hok := List.getElem?_eq_getElem hkl
  have hfr : (s1.clus[k]).Fresh E h0 := by
    obtain ⟨q, hq⟩ : ∃ q, q = s1.clus[k] := ⟨_, rfl⟩
    have hmem : q ∈ s1.clus := hq ▸ List.getElem_mem _
    rw [← hq]
    by_cases h : o.card ≤ 1
    · rw [hsing h] at hmem
      exact hft _ (List.mem_of_mem_eraseIdx hmem)
    · rw [hrem h] at hmem
      rcases List.mem_or_eq_of_mem_set hmem with hm' | heq
      · exact hft _ hm'
      · rw [heq, ← hht]; exact Hier.fresh_removed E t.hyp i o
  simp [neal3PredHypers, vget_ok hok, Hier.getPosterior, hfr.1, hfr.2]
  rw [hdd.cons.cards k _ hok, hdd.cons.stats k _ hok]

/-- C06: four rows in two clusters, row 0 detached. -/
example : ∃ s0 s s1 x, initAlloc (toyEnv .conjugate fun h _ _ => h) true 2 4 100 0
      ⟨fun _ => 0, fun j => j⟩ [toyObj] = .ok s0 ∧
    iterate (neal2Step (toyEnv .conjugate fun h _ _ => h) true 4) s0 [catNoise fun i => i / 2] = .ok s ∧
    detach (toyEnv .conjugate fun h _ _ => h) true s 0 = .ok (s1, x) ∧
    s1.clus.length = 2 ∧ neal3PredHypers (toyEnv .conjugate fun h _ _ => h) s1 1 = .ok 107 :=
  ⟨_, _, _, _, rfl, rfl, rfl, rfl, rfl⟩

/-- **C06, violation with a hyperprior.** Four rows in clusters {0,1} and {2,3}; after
one iteration the hyperparameters move from 100 to 101. In the next sweep, when row 0 is
re-allocated, the predictive density of the cluster {2,3} (statistics 3 + 4) is evaluated
with hypers 107, the posterior under the *old* hyperparameters, instead of 108. -/
theorem c06_violated_with_hyperprior :
    ∃ (c' : Setup ℤ ℤ) (s0 s s1 : Alg ℤ ℤ ℤ) (x : Hier ℤ ℤ ℤ × Bool),
      initAlgorithm (toyEnv .conjugate fun h _ _ => h + 1) (toySetup true 4 2)
        ⟨fun _ => 0, fun j => j⟩ [toyObj] = .ok (c', s0) ∧
      neal2Step (toyEnv .conjugate fun h _ _ => h + 1) true 4 s0
        (catNoise fun i => i / 2) = .ok s ∧
      s.hyp = 101 ∧ s.alloc = [0, 0, 1, 1] ∧
      detach (toyEnv .conjugate fun h _ _ => h + 1) true s 0 = .ok (s1, x) ∧
      neal3PredHypers (toyEnv .conjugate fun h _ _ => h + 1) s1 1 = .ok 107 ∧
      (toyEnv .conjugate fun h _ _ => h + 1).post s1.hyp
        ((membersIn ((Finset.range 4).erase 0) s1.alloc 1).card : ℤ)
        (∑ j ∈ membersIn ((Finset.range 4).erase 0) s1.alloc 1,
          (toyEnv .conjugate fun h _ _ => h + 1).contrib j) = 108 := by
  refine ⟨_, _, _, _, _, rfl, rfl, rfl, rfl, rfl, rfl, ?_⟩
  decide

/-! ### C07: blocked Gibbs -/

/-- **C07.** Any number of blocked Gibbs iterations keeps the number of components and
the consistency of labels and components (which may be empty). -/
theorem c07_blocked_gibbs_consistent (E : Env G H Θ) (K n : ℕ) (hn : 0 < n) (s : Alg G H Θ)
    (hK : s.clus.length = K) (hs : Consistent E.contrib n s)
    (hca : ∀ o ∈ s.clus, o.saved = true → o.ph.isSome) (zs : List Noise) :
    ∃ s', iterate (blockedStep E K n) s zs = .ok s' ∧ Consistent E.contrib n s' ∧
      s'.clus.length = K := by
  obtain ⟨s', e, h1, -, h3⟩ := foldlM_list_inv (blockedStep E K n)
    (fun t => Consistent E.contrib n t ∧ CachesOk t ∧ t.clus.length = K)
    (fun z t ht => by
      obtain ⟨t', e, a, b, c⟩ := blockedStep_ok z hn ht.2.2 ht.1 ht.2.1
      exact ⟨t', e, a, b, c⟩) zs s ⟨hs, hca, hK⟩
  exact ⟨s', e, h1, h3⟩

/-- Each row is moved to the drawn component and the others are untouched. -/
theorem c07_blocked_gibbs_moves_one (E : Env G H Θ) (K n : ℕ) (s s' : Alg G H Θ)
    (hK : s.clus.length = K) (hs : Consistent E.contrib n s)
    (hca : ∀ o ∈ s.clus, o.saved = true → o.ph.isSome) (i rc : ℕ) (hi : i < n)
    (e : blockedDatum E K s i rc = .ok s') : s'.alloc = s.alloc.set i (rc % K) := by
  obtain ⟨t, e', -, -, -, -, h⟩ := blockedDatum_ok rc hK hs hca hi
  rw [e] at e'; cases e'; exact h

/-- Non-vacuity: three components, one of which becomes empty. -/
example : ∃ c' s s', initAlgorithm (toyEnv .semiConjugate fun h _ _ => h)
      { toySetup false 4 3 with algRequiresConjugate := false }
      ⟨fun _ => 0, fun _ => 1⟩ [toyObj] = .ok (c', s) ∧
    iterate (blockedStep (toyEnv .semiConjugate fun h _ _ => h) 3 4) s
      [catNoise (fun i => i % 2)] = .ok s' ∧ s.alloc = [0, 1, 2, 1] ∧ s'.alloc = [0, 1, 0, 1] ∧
    s'.clus.map (·.card) = [2, 2, 0] := ⟨_, _, _, rfl, rfl, rfl, rfl, rfl⟩

end Bayesmix
