import Verif.Algo.SemiHdpRun
import Mathlib.Tactic.FinCases

/-!
# Properties of the semi-HDP sampler

C56 (relabelling), C57 (thinning), C58 (the saved state), C85 (no out-of-range access), C86 (the data
that unique values are updated with), C87 (saved tables hold the values they are linked to).
-/

namespace Bayesmix.SemiHdp

variable {g : ℕ} {T V : Type}

/-! ## C56 -/

/-- **C56.** On a well-formed state in which every group has an observation, `relabel` ends normally;
all indexes are in range afterwards; every observation keeps its restaurant, its table object and the
private or shared value behind the table; no table is left without observations, no private value
without a table and no shared value without a table; and the counts are those of the new tables. -/
theorem c56_relabel (s : State g T) (h : Wf s) (hne : ∀ i, s.allocs i ≠ []) :
    ∃ s', relabel s = .ok s' ∧ Wf s' ∧ SameSeats s s' ∧
      (∀ r, ∀ k : ℕ, k < (s'.rest r).length → ∃ i, s'.restAllocs i = r ∧ (k : ℤ) ∈ s'.allocs i) ∧
      (∀ r, ∀ k : ℕ, k < (s'.priv r).length → (k : ℤ) ∈ s'.toPrivate r) ∧
      (∀ k : ℕ, k < s'.shared.length → ∃ r, (k : ℤ) ∈ s'.toShared r) ∧
      (∀ r, s'.nByTable r = (List.range (s'.rest r).length).map fun k : ℕ =>
        ∑ i, if s'.restAllocs i = r then ((s'.allocs i).count (k : ℤ) : ℤ) else 0) ∧
      s'.cntShared = (List.range s'.shared.length).map fun k : ℕ =>
        ∑ r, ((s'.toShared r).count (k : ℤ) : ℤ) := by
  obtain ⟨s', h1, h2, h3, h4⟩ := relabel_ok h hne
  refine ⟨s', h1, h2, h3, h4.used, ?_, h4.sharedUsed, h4.nByTable, h4.cntShared⟩
  intro r k hk
  obtain ⟨l, hl⟩ := (h2 r).privOnto k hk
  exact List.mem_of_getElem? hl

/-- **C56.** Every collected state of every run is well formed and without unused tables or values. -/
theorem c56_run (rows cols : Fin g → ℕ) (hrows : ∀ i, 5 ≤ rows i) (hcols : ∀ i, cols i = 1)
    (sh : ℕ → T) (pr : Fin g → ℕ → T) (draw : Fin g → ℕ → ℕ) (draws : ℕ → StepDraws g T)
    (adaptIter burnin iter thin : ℕ) (hthin : thin ≠ 0)
    (hps : ∀ k, adaptIter ≤ k → ∀ r, (draws k).pseudo.tables r ≠ [] ∧
      ((draws k).pseudo.counts r).length = ((draws k).pseudo.tables r).length) :
    ∃ last collected,
      run rows cols sh pr draw draws adaptIter burnin iter thin = .ok (last, collected) ∧
      ∀ s ∈ collected, Wf s ∧ (∀ i, (s.allocs i).length = rows i) ∧
        (∀ r, ∀ k : ℕ, k < (s.rest r).length → ∃ i, s.restAllocs i = r ∧ (k : ℤ) ∈ s.allocs i) ∧
        (∀ k : ℕ, k < s.shared.length → ∃ r, (k : ℤ) ∈ s.toShared r) ∧
        ∀ r, (s.nByTable r).sum = ∑ i, if s.restAllocs i = r then (rows i : ℤ) else 0 := by
  obtain ⟨traj, h1, h2, h3⟩ := run_ok rows cols hrows hcols sh pr draw draws adaptIter burnin iter
    thin hthin hps
  refine ⟨_, _, h3, ?_⟩
  intro s hs
  obtain ⟨k, rfl⟩ : ∃ k, s = traj (k + 1) := by
    split at hs
    · simp only [List.mem_map] at hs
      obtain ⟨k, -, rfl⟩ := hs
      exact ⟨k, rfl⟩
    · simp at hs
  obtain ⟨hi, ht, -⟩ := h2 k
  refine ⟨hi.wf, hi.number, ht.used, ht.sharedUsed, ?_⟩
  intro r
  obtain ⟨s, hs⟩ : ∃ s, s = traj (k + 1) := ⟨_, rfl⟩
  rw [← hs] at hi ht ⊢
  rw [ht.nByTable r]
  rw [sum_counts (hi.wf r)]
  exact Finset.sum_congr rfl fun i _ => by rw [hi.number]

/-- **C56, violated** for groups without observations: with an unused table in the restaurant of an
empty group, `relabel` takes the maximum of an empty range. -/
theorem c56_empty_group_violated (s : State 1 T) (h0 : s.allocs 0 = []) (hr : s.restAllocs 0 = 0)
    (t : T) (hrest : s.rest 0 = [t]) (hp : s.priv 0 = [t]) (htp : s.toPrivate 0 = [0])
    (hts : s.toShared 0 = [-1]) : relabel s = .error .ub := by
  have hg : groupsOf s 0 = [0] := by
    unfold groupsOf
    rw [show List.finRange 1 = [0] from rfl]
    simp [hr]
  have : relabelRest s 0 = .error .ub := by
    unfold relabelRest
    rw [hg]
    simp only [List.foldlM_cons, List.foldlM_nil, h0, hrest, markUsed, pure_eq_ok, ok_bind]
    simp [vget, eraseTable, verase, hrest, erasePrivate, htp, hp, hts, shiftGroup, h0, checkMax]
  unfold relabel
  rw [show List.finRange 1 = [0] from rfl, List.foldlM_cons, this]
  rfl

/-- Two groups in restaurant 0; unused are table 1 (private) and table 3 (shared) of restaurant 0, all
tables of restaurant 1, and shared value 1. -/
def exState : State 2 ℕ where
  rest := fun r => if r = 0 then [10, 11, 20, 21] else [12]
  priv := fun r => if r = 0 then [11, 10] else [12]
  shared := [20, 21]
  nByTable := fun _ => []
  allocs := fun i => if i = 0 then [0, 2, 2] else [2]
  restAllocs := fun _ => 0
  isUsedRest := fun r => r = 0
  toShared := fun r => if r = 0 then [-1, -1, 0, 1] else [-1]
  toPrivate := fun r => if r = 0 then [1, 0, -1, -1] else [0]
  cntShared := []

theorem exState_wf : Wf exState := by
  intro r
  fin_cases r
  · refine ⟨rfl, rfl, ?_, ?_, ?_, ?_, ?_, ?_⟩
    · intro l p t hp ht
      have hl := (List.getElem?_eq_some_iff.mp hp).1
      simp [exState] at hl
      interval_cases l <;> simp [exState] at hp ht <;> omega
    · intro l p hp
      have hl := (List.getElem?_eq_some_iff.mp hp).1
      simp [exState] at hl
      interval_cases l <;> simp [exState] at hp ⊢ <;> omega
    · intro l l' p hp hp' h0
      have hl := (List.getElem?_eq_some_iff.mp hp).1
      have hl' := (List.getElem?_eq_some_iff.mp hp').1
      simp [exState] at hl hl'
      interval_cases l <;> interval_cases l' <;> simp [exState] at hp hp' ⊢ <;> omega
    · intro k hk
      simp [exState] at hk
      interval_cases k
      · exact ⟨1, rfl⟩
      · exact ⟨0, rfl⟩
    · intro l t ht
      have hl := (List.getElem?_eq_some_iff.mp ht).1
      simp [exState] at hl
      interval_cases l <;> simp [exState] at ht ⊢ <;> omega
    · intro i _ a ha
      fin_cases i <;> simp [exState] at ha ⊢ <;> omega
  · refine ⟨rfl, rfl, ?_, ?_, ?_, ?_, ?_, ?_⟩
    · intro l p t hp ht
      have hl := (List.getElem?_eq_some_iff.mp hp).1
      simp [exState] at hl
      subst hl
      simp [exState] at hp ht
      omega
    · intro l p hp
      have hl := (List.getElem?_eq_some_iff.mp hp).1
      simp [exState] at hl
      subst hl
      simp [exState] at hp ⊢
      omega
    · intro l l' p hp hp' h0
      have hl := (List.getElem?_eq_some_iff.mp hp).1
      have hl' := (List.getElem?_eq_some_iff.mp hp').1
      simp [exState] at hl hl'
      omega
    · intro k hk
      simp [exState] at hk
      subst hk
      exact ⟨0, rfl⟩
    · intro l t ht
      have hl := (List.getElem?_eq_some_iff.mp ht).1
      simp [exState] at hl
      subst hl
      simp [exState] at ht ⊢
      omega
    · intro i hi
      simp [exState] at hi

/-- The example meets the hypotheses of `c56_relabel`; this is what becomes of it. -/
example : ∃ s', relabel exState = .ok s' ∧ s'.rest 0 = [10, 20] ∧ s'.rest 1 = [] ∧
    s'.priv 0 = [10] ∧ s'.shared = [20] ∧ s'.allocs 0 = [0, 1, 1] ∧ s'.allocs 1 = [1] ∧
    s'.toPrivate 0 = [0, -1] ∧ s'.toShared 0 = [-1, 0] ∧ s'.nByTable 0 = [1, 3] ∧
    s'.cntShared = [1] :=
  ⟨_, rfl, rfl, rfl, rfl, rfl, rfl, rfl, rfl, rfl, rfl, rfl⟩

example : Wf exState ∧ ∀ i, exState.allocs i ≠ [] :=
  ⟨exState_wf, fun i => by fin_cases i <;> simp [exState]⟩

/-! ## C57 -/

/-- **C57, violated.** Whatever the steps do, with thinning `thin ≥ 2` and at least `thin` iterations
the collected states are not those of the iterations with a given remainder modulo `thin`: all states
are collected if `thin` divides the number of iterations, and none otherwise. (`traj k` is the state
after `k` steps.) -/
theorem c57_violated {S : Type} (step : ℕ → S → Except Fault S) (iter thin : ℕ) (h2 : 2 ≤ thin)
    (hi : thin ≤ iter) (traj : ℕ → S) (h : ∀ k, k < iter → step k (traj k) = .ok (traj (k + 1))) :
    ∃ last collected, collectLoop step iter thin (traj 0) = .ok (last, collected) ∧
      collected.length = (if thin ∣ iter then iter else 0) ∧
      ∀ off, off < thin →
        collected ≠ ((List.range iter).filter (fun k => k % thin = off)).map fun k => traj (k + 1) := by
  refine ⟨_, _, collectLoop_ok step iter thin (by omega) traj h, ?_, ?_⟩
  · split <;> simp
  intro off hoff heq
  have hlen := congrArg List.length heq
  split at hlen
  · simp only [List.length_map, List.length_range] at hlen
    have hall := List.length_filter_eq_length_iff.mp (hlen.symm.trans (List.length_range (n := iter)).symm)
    have h0 := hall 0 (by simp; omega)
    have h1 := hall 1 (by simp; omega)
    have h0' : 0 % thin = off := of_decide_eq_true h0
    have h1' : 1 % thin = off := of_decide_eq_true h1
    rw [Nat.zero_mod] at h0'
    rw [Nat.mod_eq_of_lt (by omega : 1 < thin)] at h1'
    omega
  · simp only [List.length_nil, List.length_map] at hlen
    have := List.length_eq_zero_iff.mp hlen.symm
    rw [List.filter_eq_nil_iff] at this
    have := this off (by simp; omega)
    simp [Nat.mod_eq_of_lt hoff] at this

/-- **C57** for thinning 1: all states are collected, in order. -/
theorem c57_partial {S : Type} (step : ℕ → S → Except Fault S) (iter : ℕ) (traj : ℕ → S)
    (h : ∀ k, k < iter → step k (traj k) = .ok (traj (k + 1))) :
    collectLoop step iter 1 (traj 0) =
      .ok (traj iter, (List.range iter).map fun k => traj (k + 1)) := by
  rw [collectLoop_ok step iter 1 (by omega) traj h, if_pos (one_dvd _)]

/-- **C57, violated** for the sampler: no run with thinning `thin ≥ 2` and at least `thin` iterations
collects one state in every `thin` iterations. -/
theorem c57_run_violated (rows cols : Fin g → ℕ) (hrows : ∀ i, 5 ≤ rows i) (hcols : ∀ i, cols i = 1)
    (sh : ℕ → T) (pr : Fin g → ℕ → T) (draw : Fin g → ℕ → ℕ) (draws : ℕ → StepDraws g T)
    (adaptIter burnin iter thin : ℕ) (h2 : 2 ≤ thin) (hi : thin ≤ iter)
    (hps : ∀ k, adaptIter ≤ k → ∀ r, (draws k).pseudo.tables r ≠ [] ∧
      ((draws k).pseudo.counts r).length = ((draws k).pseudo.tables r).length) :
    ∃ (traj : ℕ → State g T) (last : State g T) (collected : List (State g T)),
      (∀ k, step false (draws (adaptIter + burnin + k)) (traj k) = .ok (traj (k + 1))) ∧
      run rows cols sh pr draw draws adaptIter burnin iter thin = .ok (last, collected) ∧
      last = traj iter ∧ collected.length = (if thin ∣ iter then iter else 0) ∧
      ∀ off, off < thin →
        collected ≠ ((List.range iter).filter (fun k => k % thin = off)).map fun k => traj (k + 1) := by
  obtain ⟨traj, h1, -, h3⟩ := run_ok rows cols hrows hcols sh pr draw draws adaptIter burnin iter
    thin (by omega) hps
  obtain ⟨last, collected, h4, h5, h6⟩ := c57_violated
    (fun k s => step false (draws (adaptIter + burnin + k)) s) iter thin h2 hi traj (fun k _ => h1 k)
  rw [collectLoop_ok _ iter thin (by omega) traj (fun k _ => h1 k)] at h4
  rw [h4] at h3
  refine ⟨traj, last, collected, h1, h3, ?_, h5, h6⟩
  exact (Prod.mk.inj (Except.ok.inj h4)).1.symm

/-- Four steps of a counter, thinning 2: all four states are collected; with thinning 3: none. -/
example : collectLoop (fun _ n => .ok (n + 1)) 4 2 0 = .ok (4, [1, 2, 3, 4]) ∧
    collectLoop (fun _ n => .ok (n + 1)) 4 3 0 = .ok (4, []) := ⟨rfl, rfl⟩

/-! ## C58 -/

theorem stateAsProto_spec (val : T → V) (s : State g T) :
    (stateAsProto val s).restaurants = (List.finRange g).map (fun i =>
      ⟨(s.rest i).map val, s.nByTable i, s.toShared i, s.toPrivate i⟩) ∧
    (stateAsProto val s).groups = (List.finRange g).map s.allocs ∧
    (stateAsProto val s).taus = (List.replicate g (s.shared.map val)).flatten ∧
    (0 < g → (stateAsProto val s).c = (List.finRange g).map fun i => (s.restAllocs i : ℕ)) := by
  have key : ∀ (l : List (Fin g)) (m : Msg V), ∃ c,
      l.foldl (writeGroup val s) m =
      ⟨m.restaurants ++ l.map (fun i =>
        ⟨(s.rest i).map val, s.nByTable i, s.toShared i, s.toPrivate i⟩),
        m.groups ++ l.map s.allocs, m.taus ++ (List.replicate l.length (s.shared.map val)).flatten,
        c⟩ ∧ (l ≠ [] → c = (List.finRange g).map fun i => (s.restAllocs i : ℕ)) := by
    intro l
    induction l with
    | nil => intro m; exact ⟨m.c, by simp, by simp⟩
    | cons a l ih =>
      intro m
      obtain ⟨c, h1, h2⟩ := ih (writeGroup val s m a)
      by_cases hl : l = []
      · subst hl
        exact ⟨_, by simp [writeGroup], fun _ => rfl⟩
      · refine ⟨c, ?_, fun _ => h2 hl⟩
        rw [List.foldl_cons, h1]
        simp [writeGroup, List.replicate_succ]
  obtain ⟨c, h1, h2⟩ := key (List.finRange g) ⟨[], [], [], []⟩
  unfold stateAsProto
  rw [h1]
  refine ⟨by simp, by simp, by simp, fun hg => h2 ?_⟩
  intro h
  have := congrArg List.length h
  simp at this
  omega

/-- **C58, violated** with two or more groups: the shared values are listed once per group. -/
theorem c58_violated (val : T → V) (s : State g T) (hg : 2 ≤ g) (hs : s.shared ≠ []) :
    (stateAsProto val s).taus = (List.replicate g (s.shared.map val)).flatten ∧
      (stateAsProto val s).taus.length = g * s.shared.length ∧
      (stateAsProto val s).taus ≠ s.shared.map val := by
  obtain ⟨-, -, h, -⟩ := stateAsProto_spec val s
  have hl : (stateAsProto val s).taus.length = g * s.shared.length := by
    rw [h]
    simp
  refine ⟨h, hl, fun he => ?_⟩
  rw [he, List.length_map] at hl
  have : 0 < s.shared.length := List.length_pos_of_ne_nil hs
  have : 2 * s.shared.length ≤ g * s.shared.length := Nat.mul_le_mul_right _ hg
  omega

/-- **C58, the rest.** The other parts of the message are right: per restaurant the tables, counts
and links, per group the allocations, and the restaurant of each group. With one group each shared
value is listed once, and in any case the first ones are right: `taus[h]` is shared value `h`. -/
theorem c58_partial (val : T → V) (s : State g T) (hg : 0 < g) :
    (stateAsProto val s).restaurants = (List.finRange g).map (fun i =>
      ⟨(s.rest i).map val, s.nByTable i, s.toShared i, s.toPrivate i⟩) ∧
    (stateAsProto val s).groups = (List.finRange g).map s.allocs ∧
    (stateAsProto val s).c = (List.finRange g).map (fun i => (s.restAllocs i : ℕ)) ∧
    (g = 1 → (stateAsProto val s).taus = s.shared.map val) ∧
    ∀ h : ℕ, h < s.shared.length → (stateAsProto val s).taus[h]? = s.shared[h]?.map val := by
  obtain ⟨h1, h2, h3, h4⟩ := stateAsProto_spec val s
  refine ⟨h1, h2, h4 hg, ?_, ?_⟩
  · rintro rfl
    rw [h3]
    simp
  · intro h hh
    obtain ⟨m, rfl⟩ : ∃ m, g = m + 1 := ⟨g - 1, by omega⟩
    rw [h3, List.replicate_succ, List.flatten_cons, List.getElem?_append_left (by simpa using hh),
      List.getElem?_map]

example : (stateAsProto id exState).taus = [20, 21, 20, 21] := rfl

/-! ## C85 -/

/-- **C85, the part that holds.** For univariate data with at least five observations in each group
and a pseudo-prior with at least one table per restaurant, a run ends normally whatever is drawn: no
index is out of range, no exception is thrown. (Conversions of logarithms to `int` are not part of
this; see C88.) -/
theorem c85_run_partial (rows cols : Fin g → ℕ) (hrows : ∀ i, 5 ≤ rows i) (hcols : ∀ i, cols i = 1)
    (sh : ℕ → T) (pr : Fin g → ℕ → T) (draw : Fin g → ℕ → ℕ) (draws : ℕ → StepDraws g T)
    (adaptIter burnin iter thin : ℕ) (hthin : thin ≠ 0)
    (hps : ∀ k, adaptIter ≤ k → ∀ r, (draws k).pseudo.tables r ≠ [] ∧
      ((draws k).pseudo.counts r).length = ((draws k).pseudo.tables r).length) :
    ∃ p, run rows cols sh pr draw draws adaptIter burnin iter thin = .ok p := by
  obtain ⟨traj, -, -, h3⟩ := run_ok rows cols hrows hcols sh pr draw draws adaptIter burnin iter
    thin hthin hps
  exact ⟨_, h3⟩

/-- **C85, violated** for a group with fewer than five entries: `initialize` writes five allocations
into a shorter vector. -/
theorem c85_small_group_violated (rows cols : Fin g → ℕ) (i : Fin g) (hi : rows i * cols i < 5)
    (sh : ℕ → T) (pr : Fin g → ℕ → T) (draw : Fin g → ℕ → ℕ) (draws : ℕ → StepDraws g T)
    (adaptIter burnin iter thin : ℕ) :
    run rows cols sh pr draw draws adaptIter burnin iter thin = .error .ub := by
  unfold run initState
  rw [if_pos ⟨i, hi⟩]
  rfl

/-- **C85, violated** for multivariate data: the number of observations of a group is taken to be the
number of entries of its matrix, and rows are read that do not exist. -/
theorem c85_multivariate_violated (rows cols : Fin g → ℕ) (hrows : ∀ i, 5 ≤ rows i)
    (hcols : ∀ i, 1 ≤ cols i) (i : Fin g) (hi : 2 ≤ cols i)
    (sh : ℕ → T) (pr : Fin g → ℕ → T) (draw : Fin g → ℕ → ℕ) (draws : ℕ → StepDraws g T)
    (adaptIter burnin iter thin : ℕ) :
    run rows cols sh pr draw draws adaptIter burnin iter thin = .error .assertFail := by
  obtain ⟨s, hs, -⟩ := initState_ok (fun i => rows i * cols i)
    (fun i => (hrows i).trans (Nat.le_mul_of_pos_right _ (hcols i))) sh pr draw
  unfold run
  rw [hs, ok_bind, forM_error (List.finRange g) _ .assertFail (fun k _ => ?_) (List.mem_finRange i)
    (readRows_error (by have := hrows i; omega) hi)]
  · rfl
  · by_cases hk : 2 ≤ cols k
    · exact Or.inr (readRows_error (by have := hrows k; omega) hk)
    · have : cols k = 1 := by have := hcols k; omega
      rw [this]
      exact Or.inl (readRows_ok _)

/-- **C85, violated** for thinning zero: the first collection divides by zero. -/
theorem c85_thin_violated (rows cols : Fin g → ℕ) (hrows : ∀ i, 5 ≤ rows i)
    (hcols : ∀ i, cols i = 1)
    (sh : ℕ → T) (pr : Fin g → ℕ → T) (draw : Fin g → ℕ → ℕ) (draws : ℕ → StepDraws g T)
    (adaptIter burnin iter : ℕ) (hiter : 0 < iter)
    (hps : ∀ k, adaptIter ≤ k → ∀ r, (draws k).pseudo.tables r ≠ [] ∧
      ((draws k).pseudo.counts r).length = ((draws k).pseudo.tables r).length) :
    run rows cols sh pr draw draws adaptIter burnin iter 0 = .error .ub := by
  obtain ⟨m, rfl⟩ : ∃ m, iter = m + 1 := ⟨iter - 1, by omega⟩
  -- the run with thinning 1 gets to the first collection
  have hloop : ∀ (s s' : State g T) (f : ℕ → State g T → Except Fault (State g T)),
      f 0 s = .ok s' → collectLoop f (m + 1) 0 s = .error .ub := by
    intro s s' f hf
    unfold collectLoop
    rw [List.range_succ_eq_map, List.foldlM_cons]
    simp only [hf, ok_bind, if_true]
    rfl
  have hn : (fun i => rows i * cols i) = rows := by
    funext i
    rw [hcols, Nat.mul_one]
  have hpos : ∀ i, 0 < rows i := fun i => by have := hrows i; omega
  obtain ⟨s₀, h0, hi0⟩ := initState_ok rows hrows sh pr draw
  obtain ⟨rest, u, h1, hlen, -⟩ := updateUniqueVals_ok hi0.wf
  have hi1 : Inv rows { s₀ with rest := rest } :=
    ⟨fun r => (hi0.wf r).congr (hlen r) rfl rfl rfl le_rfl (by
        intro i hi a ha
        dsimp only
        rw [hlen]
        exact (hi0.wf r).seats i hi a ha), hi0.number, hi0.usedRest,
      fun r => by dsimp only; rw [hlen]; exact hi0.counts r⟩
  obtain ⟨s₂, h2, hi2⟩ := foldlM_range_inv (fun s k => step true (draws k) s)
    (fun _ s => Inv rows s) adaptIter (fun k s _ hs => by
      obtain ⟨s', e, hi, -⟩ := step_ok hs hpos true (draws k) (by simp)
      exact ⟨s', e, hi⟩) { s₀ with rest := rest } hi1
  obtain ⟨s₃, h3, hi3⟩ := foldlM_range_inv (fun s k => step false (draws (adaptIter + k)) s)
    (fun _ s => Inv rows s) burnin (fun k s _ hs => by
      obtain ⟨s', e, hi, -⟩ := step_ok hs hpos false (draws (adaptIter + k))
        (fun _ => hps _ (by omega))
      exact ⟨s', e, hi⟩) s₂ hi2
  obtain ⟨s₄, h4, -⟩ := step_ok hi3 hpos false (draws (adaptIter + burnin + 0))
        (fun _ => hps _ (by omega))
  unfold run
  rw [hn, h0, ok_bind, forM_ok _ _ (fun i _ => by rw [hcols]; exact readRows_ok _), ok_bind, h1,
    ok_bind, h2, ok_bind, h3, ok_bind]
  exact hloop s₃ s₄ _ h4

/-- Draws for the examples of C85: the pseudo-prior has one table per restaurant, with one
observation. -/
def exStepDraws (g : ℕ) : StepDraws g ℕ :=
  ⟨⟨fun _ => [7], fun _ => [1]⟩, id, fun _ _ => 0, fun _ _ => 0, fun _ k => k, fun _ k => ⟨k, true, k, k⟩⟩

/-- C85: two groups of five and six observations. -/
example : (∃ p, run (g := 2) ![5, 6] (fun _ => 1) id (fun _ k => k) (fun _ k => k)
      (fun _ => exStepDraws 2) 3 2 4 2 = .ok p) ∧
    run (g := 2) ![5, 6] (fun _ => 1) id (fun _ k => k) (fun _ k => k)
      (fun _ => exStepDraws 2) 3 2 4 0 = .error .ub :=
  ⟨c85_run_partial _ _ (fun i => by fin_cases i <;> simp) (fun _ => rfl) _ _ _ _ _ _ _ _ (by omega)
    fun _ _ _ => ⟨by simp [exStepDraws], rfl⟩,
    c85_thin_violated _ _ (fun i => by fin_cases i <;> simp) (fun _ => rfl) _ _ _ _ _ _ _ (by omega)
    fun _ _ _ => ⟨by simp [exStepDraws], rfl⟩⟩

/-- C85: a group of four observations; bivariate data. -/
example : run (g := 2) ![5, 4] (fun _ => 1) id (fun _ k => k) (fun _ k => k)
      (fun _ => exStepDraws 2) 3 2 4 2 = .error .ub ∧
    run (g := 2) ![5, 6] (fun _ => 2) id (fun _ k => k) (fun _ k => k)
      (fun _ => exStepDraws 2) 3 2 4 2 = .error .assertFail :=
  ⟨c85_small_group_violated _ _ 1 (by simp) _ _ _ _ _ _ _ _,
    c85_multivariate_violated _ _ (fun i => by fin_cases i <;> simp) (fun _ => by omega) 0 le_rfl _ _ _ _
      _ _ _ _⟩

/-! ## C86 -/

/-- Observation `(i, j)` sits at a table of restaurant `r` that is linked to private value `p`. -/
def HasPrivate (s : State g T) (r : Fin g) (p : ℤ) (x : Obs g) : Prop :=
  s.restAllocs x.1 = r ∧ ∃ l : ℕ, (s.allocs x.1)[x.2]? = some (l : ℤ) ∧
    (s.toPrivate r)[l]? = some p

/-- Observation `(i, j)` sits at a table that is linked to shared value `h`. -/
def HasShared (s : State g T) (h : ℕ) (x : Obs g) : Prop :=
  ∃ l : ℕ, (s.allocs x.1)[x.2]? = some (l : ℤ) ∧
    (s.toShared (s.restAllocs x.1))[l]? = some (h : ℤ)

theorem nodup_tableData (s : State g T) (r : Fin g) (k : ℕ) : (tableData s r k).Nodup := by
  have hi : ∀ i, ((s.allocs i).zipIdx.flatMap fun p =>
      if (k : ℤ) = p.1 then [(i, p.2)] else ([] : List (Obs g))).Nodup := by
    intro i
    rw [List.nodup_flatMap]
    refine ⟨fun p _ => by split <;> simp, ?_⟩
    have : ((s.allocs i).zipIdx).Pairwise (fun p q => p.2 ≠ q.2) := by
      rw [← List.pairwise_map (f := Prod.snd) (R := (· ≠ ·)), List.zipIdx_map_snd]
      exact List.nodup_range'
    refine this.imp ?_
    intro p q hpq x hx hy
    dsimp only at hx hy
    split at hx
    · split at hy
      · simp only [List.mem_singleton] at hx hy
        rw [hx] at hy
        exact hpq (Prod.mk.inj hy).2
      · simp at hy
    · simp at hx
  unfold tableData
  rw [List.nodup_flatMap]
  refine ⟨fun i _ => hi i, ?_⟩
  have hmem : ∀ i x, x ∈ ((s.allocs i).zipIdx.flatMap fun p =>
      if (k : ℤ) = p.1 then [(i, p.2)] else ([] : List (Obs g))) → x.1 = i := by
    intro i x hx
    rw [List.mem_flatMap] at hx
    obtain ⟨p, -, hx⟩ := hx
    split at hx
    · simp only [List.mem_singleton] at hx
      rw [hx]
    · simp at hx
  refine (nodup_groupsOf s r).imp ?_
  intro i i' hne x hx hy
  exact hne ((hmem i x hx).symm.trans (hmem i' x hy))

/-- **C86.** In `update_unique_vals`, each private value of each restaurant is updated exactly once,
with the observations that sit at its table and no others, each once; and each shared value is updated
with the observations that sit at the tables linked to it, each once. (With no such observation the
value is drawn from the prior.) -/
theorem c86_unique_vals (s : State g T) (h : Wf s) :
    ∃ s' u, updateUniqueVals s = .ok (s', u) ∧
      (∀ r, ∀ p : ℕ, p < (s.priv r).length → ∃ data, (r, (p : ℤ), data) ∈ u.priv) ∧
      (u.priv.map fun c => (c.1, c.2.1)).Nodup ∧
      (∀ r p data, (r, p, data) ∈ u.priv → 0 ≤ p ∧ p < (s.priv r).length ∧ data.Nodup ∧
        ∀ x, x ∈ data ↔ HasPrivate s r p x) ∧
      u.shared.length = s.shared.length ∧
      ∀ (k : ℕ) data, u.shared[k]? = some data → data.Nodup ∧ ∀ x, x ∈ data ↔ HasShared s k x := by
  obtain ⟨rest, u, h1, -, -, -, h2, h3⟩ := updateUniqueVals_ok h
  have hcall : ∀ r p data, (r, p, data) ∈ u.priv ↔
      ∃ l : ℕ, (s.toPrivate r)[l]? = some p ∧ 0 ≤ p ∧ data = tableData s r l := by
    intro r p data
    rw [h2]
    simp only [List.mem_flatMap, List.mem_finRange, true_and, List.mem_range]
    constructor
    · rintro ⟨r', l, hl, hm⟩
      unfold privCall at hm
      split at hm
      · rename_i p' hp'
        split at hm
        · simp only [List.mem_singleton, Prod.mk.injEq] at hm
          obtain ⟨rfl, rfl, rfl⟩ := hm
          exact ⟨l, hp', by assumption, rfl⟩
        · simp at hm
      · simp at hm
    · rintro ⟨l, hl, h0, rfl⟩
      refine ⟨r, l, ?_, ?_⟩
      · rw [← (h r).lenP]
        exact (List.getElem?_eq_some_iff.mp hl).1
      · simp [privCall, hl, h0]
  refine ⟨_, u, h1, ?_, ?_, ?_, by simp [h3], ?_⟩
  · intro r p hp
    obtain ⟨l, hl⟩ := (h r).privOnto p hp
    exact ⟨_, (hcall r p _).mpr ⟨l, hl, by omega, rfl⟩⟩
  · rw [h2, List.map_flatMap, List.nodup_flatMap]
    constructor
    · intro r _
      rw [List.map_flatMap, List.nodup_flatMap]
      constructor
      · intro l _
        unfold privCall
        split
        · split <;> simp
        · simp
      · refine List.nodup_range.imp ?_
        intro l l' hne x hx hx'
        simp only [privCall, List.mem_map] at hx hx'
        obtain ⟨c, hc, rfl⟩ := hx
        obtain ⟨c', hc', hcc⟩ := hx'
        split at hc
        · rename_i p hp
          split at hc
          · split at hc'
            · rename_i p' hp'
              split at hc'
              · simp only [List.mem_singleton] at hc hc'
                subst hc hc'
                simp only [Prod.mk.injEq, true_and] at hcc
                subst hcc
                exact hne ((h r).privInj l l' _ hp hp' (by assumption))
              · simp at hc'
            · simp at hc'
          · simp at hc
        · simp at hc
    · refine (List.nodup_finRange g).imp ?_
      intro r r' hne x hx hx'
      have hfst : ∀ r, x ∈ ((List.range (s.rest r).length).flatMap (privCall s r)).map
          (fun c => (c.1, c.2.1)) → x.1 = r := by
        intro r hx
        simp only [List.mem_map, List.mem_flatMap, privCall] at hx
        obtain ⟨c, ⟨l, -, hc⟩, rfl⟩ := hx
        split at hc
        · split at hc
          · simp only [List.mem_singleton] at hc
            rw [hc]
          · simp at hc
        · simp at hc
      exact hne ((hfst r hx).symm.trans (hfst r' hx'))
  · intro r p data hm
    obtain ⟨l, hl, h0, rfl⟩ := (hcall r p data).mp hm
    refine ⟨h0, (h r).privRange l p hl, nodup_tableData s r l, ?_⟩
    rintro ⟨i, j⟩
    rw [mem_tableData]
    constructor
    · rintro ⟨hi, hj⟩
      exact ⟨hi, l, hj, hl⟩
    · rintro ⟨hi, l', hj, hl'⟩
      obtain rfl := (h r).privInj l l' p hl hl' h0
      exact ⟨hi, hj⟩
  · intro k data hk
    have hkl : k < s.shared.length := by
      have := (List.getElem?_eq_some_iff.mp hk).1
      simpa [h3] using this
    rw [h3] at hk
    simp only [List.getElem?_map, List.getElem?_range hkl, Option.map_some, Option.some.injEq] at hk
    subst hk
    have hmem : ∀ x r l, x ∈ sharedPart s r k l ↔
        (s.toShared r)[l]? = some (k : ℤ) ∧ x ∈ tableData s r l := by
      intro x r l
      unfold sharedPart
      split
      · rename_i hc
        simp [hc]
      · rename_i hc
        simp [hc]
    constructor
    · rw [List.nodup_flatMap]
      constructor
      · intro r _
        rw [List.nodup_flatMap]
        constructor
        · intro l _
          unfold sharedPart
          split
          · exact nodup_tableData s r l
          · simp
        · refine List.nodup_range.imp ?_
          rintro l l' hne ⟨i, j⟩ hx hx'
          have h1 := (mem_tableData.mp ((hmem _ r l).mp hx).2).2
          have h2 := (mem_tableData.mp ((hmem _ r l').mp hx').2).2
          rw [h1] at h2
          simp only [Option.some.injEq] at h2
          omega
      · refine (List.nodup_finRange g).imp ?_
        rintro r r' hne ⟨i, j⟩ hx hx'
        simp only [List.mem_flatMap] at hx hx'
        obtain ⟨l, -, hx⟩ := hx
        obtain ⟨l', -, hx'⟩ := hx'
        have h1 := (mem_tableData.mp ((hmem _ r l).mp hx).2).1
        have h2 := (mem_tableData.mp ((hmem _ r' l').mp hx').2).1
        exact hne (h1.symm.trans h2)
    · rintro ⟨i, j⟩
      simp only [List.mem_flatMap, List.mem_finRange, true_and, List.mem_range, hmem, mem_tableData]
      constructor
      · rintro ⟨r, l, hl, ht, hi, hj⟩
        subst hi
        exact ⟨l, hj, ht⟩
      · rintro ⟨l, hj, ht⟩
        refine ⟨s.restAllocs i, l, ?_, ht, rfl, hj⟩
        rw [← (h (s.restAllocs i)).lenS]
        exact (List.getElem?_eq_some_iff.mp ht).1

/-- In the example state, private value 1 of restaurant 0 is updated with one observation, private
value 0 and that of restaurant 1 come from the prior, shared value 0 is updated with three observations
of two groups. -/
example : ∃ s' u, updateUniqueVals exState = .ok (s', u) ∧
    u.priv = [(0, 1, [(0, 0)]), (0, 0, []), (1, 0, [])] ∧
    u.shared = [[(0, 1), (0, 2), (1, 0)], []] :=
  ⟨_, _, rfl, rfl, rfl⟩

/-! ## C87 -/

/-- **C87, for private values.** In every collected state of every run, an observation whose table is
linked to a private value sits at a table that is this value; and after `update_unique_vals` all tables
are the private or shared values that they are linked to. -/
theorem c87_private_partial (rows cols : Fin g → ℕ) (hrows : ∀ i, 5 ≤ rows i)
    (hcols : ∀ i, cols i = 1)
    (sh : ℕ → T) (pr : Fin g → ℕ → T) (draw : Fin g → ℕ → ℕ) (draws : ℕ → StepDraws g T)
    (adaptIter burnin iter thin : ℕ) (hthin : thin ≠ 0)
    (hps : ∀ k, adaptIter ≤ k → ∀ r, (draws k).pseudo.tables r ≠ [] ∧
      ((draws k).pseudo.counts r).length = ((draws k).pseudo.tables r).length) :
    ∃ last collected,
      run rows cols sh pr draw draws adaptIter burnin iter thin = .ok (last, collected) ∧
      ∀ s ∈ collected,
        (∀ r (l : ℕ) (p : ℤ), (s.toPrivate r)[l]? = some p → 0 ≤ p →
          (s.rest r)[l]? = (s.priv r)[p.toNat]?) ∧
        ∃ s' u, updateUniqueVals s = .ok (s', u) ∧
          (∀ r (l : ℕ) (p : ℤ), (s'.toPrivate r)[l]? = some p → 0 ≤ p →
            (s'.rest r)[l]? = (s'.priv r)[p.toNat]?) ∧
          ∀ r (l : ℕ) (t : ℤ), (s'.toShared r)[l]? = some t → 0 ≤ t →
            (s'.rest r)[l]? = s'.shared[t.toNat]? := by
  obtain ⟨traj, h1, h2, h3⟩ := run_ok rows cols hrows hcols sh pr draw draws adaptIter burnin iter
    thin hthin hps
  refine ⟨_, _, h3, ?_⟩
  intro s hs
  obtain ⟨k, rfl⟩ : ∃ k, s = traj (k + 1) := by
    split at hs
    · simp only [List.mem_map] at hs
      obtain ⟨k, -, rfl⟩ := hs
      exact ⟨k, rfl⟩
    · simp at hs
  obtain ⟨hi, ht, hp⟩ := h2 k
  constructor
  · intro r l p hlp hp0
    have hl : l < ((traj (k + 1)).rest r).length := by
      rw [← (hi.wf r).lenP]
      exact (List.getElem?_eq_some_iff.mp hlp).1
    obtain ⟨i, hir, hm⟩ := ht.used r l hl
    obtain ⟨j, hj, hjl⟩ := List.mem_iff_getElem.mp hm
    have hal : ((traj (k + 1)).allocs i)[j]? = some (l : ℤ) := by
      rw [List.getElem?_eq_getElem hj, hjl]
    have hpr := (hi.wf r).privRange l p hlp
    have hpo : privateOf (traj (k + 1)) i j = ((traj (k + 1)).priv r)[p.toNat]? := by
      unfold privateOf
      rw [hal, hir, Option.bind_some, Int.toNat_natCast, hlp, Option.bind_some, if_pos hp0]
    have hto : tableOf (traj (k + 1)) i j = ((traj (k + 1)).rest r)[l]? := by
      unfold tableOf
      rw [hal, hir, Option.bind_some, Int.toNat_natCast]
    obtain ⟨o, ho⟩ : ∃ o, ((traj (k + 1)).priv r)[p.toNat]? = some o :=
      ⟨_, List.getElem?_eq_getElem (by omega)⟩
    rw [ho, ← hto]
    exact hp i j o (hpo.trans ho)
  · obtain ⟨rest, u, e1, -, e2, e3, -⟩ := updateUniqueVals_ok hi.wf
    exact ⟨_, u, e1, e2, e3⟩

/-- Draws for the counterexample: one group, no change of restaurant, links redrawn to `link`, and all
observations seated at table `table`. -/
def exDraws (link table : ℕ) : StepDraws 1 ℕ where
  pseudo := ⟨fun _ => [7], fun _ => [5]⟩
  choice := fun i => i
  seat := fun _ _ => 0
  link := fun _ _ => link
  linkNew := fun _ _ => 99
  table := fun _ _ => ⟨table, false, 0, 0⟩

/-- **C87, violated** for shared values: there are runs in which a saved table has another value than
the shared value it is linked to. Here all observations move to a shared table in the first step; in
the second step that table is linked to a new shared value (99), but the table itself keeps the old
one (50). -/
theorem c87_shared_violated :
    ∃ (draws : ℕ → StepDraws 1 ℕ) (last s : State 1 ℕ),
      (∀ k r, (draws k).pseudo.tables r ≠ [] ∧
        ((draws k).pseudo.counts r).length = ((draws k).pseudo.tables r).length) ∧
      run (fun _ => 5) (fun _ => 1) (fun l => 50 + l) (fun _ l => l) (fun _ _ => 0) draws 0 1 1 1 =
        .ok (last, [s]) ∧
      s.allocs 0 = [0, 0, 0, 0, 0] ∧ s.rest 0 = [50] ∧ s.toShared 0 = [0] ∧ s.shared = [99] ∧
      (stateAsProto id s).restaurants.map (fun m => m.thetaStars) = [[50]] ∧
      (stateAsProto id s).restaurants.map (fun m => m.toShared) = [[0]] ∧
      (stateAsProto id s).taus = [99] :=
  ⟨fun k => if k = 0 then exDraws 0 5 else exDraws 1 0, _, _,
    fun k r => by dsimp only; split <;> simp [exDraws], rfl, rfl, rfl, rfl, rfl, rfl, rfl, rfl⟩

/-- Draws that meet the hypotheses on the pseudo-prior, for the theorems about runs. -/
example : ∀ k, 0 ≤ k → ∀ r : Fin 1, ((fun _ => exDraws 1 3 : ℕ → StepDraws 1 ℕ) k).pseudo.tables r ≠ [] ∧
    (((fun _ => exDraws 1 3 : ℕ → StepDraws 1 ℕ) k).pseudo.counts r).length =
      (((fun _ => exDraws 1 3 : ℕ → StepDraws 1 ℕ) k).pseudo.tables r).length :=
  fun k _ r => by simp [exDraws]

end Bayesmix.SemiHdp
