import Verif.Algo.SMBalance
import Verif.Mixing.Props
import Verif.Alloc.Props
import Verif.Hier.ConjLemmas
import Mathlib.Tactic.FieldSimp
import Mathlib.Tactic.NormNum

/-! # Properties of the split-merge sampler: C09, C10, C11, C83 -/

namespace Bayesmix.SplitMerge
open Bayesmix.Mixing

variable {G H Θ : Type} [AddCommGroup G]

/-! ## C11 -/

/-- **C11.** With at least two rows the selection never fails and gives two different rows. -/
theorem c11_distinct (n : ℕ) (hn : 2 ≤ n) (r1 r2 : ℕ) :
    ∃ i j, pickPair n r1 r2 = .ok (i, j) ∧ i < n ∧ j < n ∧ i ≠ j := pickPair_ok hn r1 r2

/-- **C11.** Each ordered pair of different rows is selected by exactly one pair of outcomes of the
two categorical draws, so all pairs are equally likely. -/
theorem c11_every_pair (n i j : ℕ) (hi : i < n) (hj : j < n) (hne : i ≠ j) :
    ∃! r : ℕ × ℕ, r.1 < n ∧ r.2 < n - 1 ∧ pickPair n r.1 r.2 = .ok (i, j) := by
  have key : ∀ r1 r2, r1 < n → r2 < n - 1 →
      pickPair n r1 r2 = .ok (r1, if r2 ≥ r1 then r2 + 1 else r2) := by
    intro r1 r2 h1 h2
    simp only [pickPair, categorical_ok r1 (show 0 < n by omega),
      categorical_ok r2 (show 0 < n - 1 by omega), ok_bind, Nat.mod_eq_of_lt h1,
      Nat.mod_eq_of_lt h2]
  refine ⟨(i, if j > i then j - 1 else j), ⟨hi, ?_, ?_⟩, ?_⟩
  · simp only; split <;> omega
  · rw [key _ _ hi (by simp only; split <;> omega)]
    simp only
    congr 2
    split <;> split <;> omega
  · rintro ⟨r1, r2⟩ ⟨h1, h2, h3⟩
    simp only at h1 h2 h3
    rw [key r1 r2 h1 h2] at h3
    have h4 := Except.ok.inj h3
    have h5 : r1 = i := (Prod.mk.inj h4).1
    have h6 := (Prod.mk.inj h4).2
    subst h5
    congr 1
    split at h6 <;> split <;> omega

/-- With a single row the update throws (the second probability vector is empty). -/
theorem c11_single_row_throws (r1 r2 : ℕ) : pickPair 1 r1 r2 = .error .throw := by
  simp [pickPair, categorical]

example : pickPair 5 3 3 = .ok (3, 4) ∧ pickPair 5 3 2 = .ok (3, 2) := ⟨rfl, rfl⟩

/-! ## C09 -/

theorem mhUpdate_ok {E : Env G H Θ} (S : Scores H) (nRestr : ℕ) (hk : E.kind ≠ .other) {n : ℕ}
    (hn : 2 ≤ n) (z : MHNoise) {s : Alg G H Θ} (hs : MarginalOk E.contrib n s) :
    ∃ s', mhUpdate E S nRestr n s z = .ok s' ∧ MarginalOk E.contrib n s' := by
  obtain ⟨i, j, hp, hi, hj, hne⟩ := pickPair_ok hn z.first z.second
  obtain ⟨o, ho⟩ := first_obj hs.cons (by omega)
  simp only [mhUpdate, hp, ok_bind, launch_ok S hk hs.cons hi hj hne ho nRestr z]
  by_cases ht : s.alloc[i]? = s.alloc[j]?
  · obtain ⟨s', he, h1, h2⟩ := update_split S hk hs.cons hi hj hne ht ho (launchLab nRestr z)
      z.last z.u
    refine ⟨s', he, ?_⟩
    by_cases hu : Accept z.u (splitRate E S s.hyp n i j (scanRows n s.alloc i j)
        (launchLab nRestr z) (fun k => decide (z.last k % 2 = 1)))
    · have h := h2 hu
      exact ⟨h.cons, h.noEmpty hs.noEmpty, h.caches hs.caches⟩
    · rw [h1 hu]; exact hs
  · obtain ⟨s', he, h1, h2⟩ := update_merge S hk hs.cons hi hj ht ho (launchLab nRestr z)
      z.last z.u
    refine ⟨s', he, ?_⟩
    by_cases hu : Accept z.u (-splitRate E S s.hyp n i j (scanRows n s.alloc i j)
        (launchLab nRestr z) (backLab s.alloc i j n))
    · have h := h2 hu
      exact ⟨h.cons, h.noEmpty hs.noEmpty, h.caches hs.caches⟩
    · rw [h1 hu]; exact hs

theorem mhUpdate_hyp {E : Env G H Θ} (S : Scores H) (nRestr : ℕ) (hk : E.kind ≠ .other) {n : ℕ}
    (hn : 2 ≤ n) (z : MHNoise) {s s' : Alg G H Θ} (hs : Consistent E.contrib n s)
    (e : mhUpdate E S nRestr n s z = .ok s') : s'.hyp = s.hyp := by
  obtain ⟨i, j, hp, hi, hj, hne⟩ := pickPair_ok hn z.first z.second
  obtain ⟨o, ho⟩ := first_obj hs (by omega)
  simp only [mhUpdate, hp, ok_bind, launch_ok S hk hs hi hj hne ho nRestr z] at e
  by_cases ht : s.alloc[i]? = s.alloc[j]?
  · obtain ⟨t, he, h1, h2⟩ := update_split S hk hs hi hj hne ht ho (launchLab nRestr z)
      z.last z.u
    rw [e] at he; cases he
    by_cases hu : Accept z.u (splitRate E S s.hyp n i j (scanRows n s.alloc i j)
        (launchLab nRestr z) (fun k => decide (z.last k % 2 = 1)))
    · exact (h2 hu).hyp
    · rw [h1 hu]
  · obtain ⟨t, he, h1, h2⟩ := update_merge S hk hs hi hj ht ho (launchLab nRestr z)
      z.last z.u
    rw [e] at he; cases he
    by_cases hu : Accept z.u (-splitRate E S s.hyp n i j (scanRows n s.alloc i j)
        (launchLab nRestr z) (backLab s.alloc i j n))
    · exact (h2 hu).hyp
    · rw [h1 hu]

theorem step_ok {E : Env G H Θ} (S : Scores H) (nRestr : ℕ) (hk : E.kind ≠ .other) {n : ℕ}
    (hn : 2 ≤ n) (z : SMNoise) {s : Alg G H Θ} (hs : MarginalOk E.contrib n s) :
    ∃ s', step E S nRestr n s z = .ok s' ∧ MarginalOk E.contrib n s' := by
  obtain ⟨s1, e1, h1⟩ := foldlM_list_inv (mhUpdate E S nRestr n) (MarginalOk E.contrib n)
    (fun z _ h => mhUpdate_ok S nRestr hk hn z h) z.mh s hs
  obtain ⟨s2, e2, h2⟩ := foldlM_list_inv (fun s ω => neal2Allocations E true n ω s)
    (MarginalOk E.contrib n)
    (fun ω _ h => by
      obtain ⟨t, e, h', -⟩ := neal2Allocations_ok (upd := true) ω (by omega) (fun _ => hk) h
      exact ⟨t, e, h'⟩) z.full s1 h1
  obtain ⟨s3, s4, e3, e4, h4⟩ := marginal_tail_ok (E := E) (upd := true) ⟨fun _ => (0, 0), z.uv, z.hyp,
    fun _ _ => 0⟩ (by omega) h2
  refine ⟨s4, ?_, h4⟩
  simp only [step, e1, ok_bind, e2]
  rw [show sampleUniqueValues E true z.uv s2 = .ok s3 from e3, ok_bind]
  exact e4

/-- **C09, one update.** A Metropolis-Hastings split or merge update from a consistent state
without empty clusters never faults and ends in such a state, whatever rows are selected, whatever
the draws, and whether the proposal is accepted or not. -/
theorem c09_update (E : Env G H Θ) (S : Scores H) (nRestr : ℕ) (hk : E.kind ≠ .other) (n : ℕ)
    (hn : 2 ≤ n) (z : MHNoise) (s : Alg G H Θ) (hs : Consistent E.contrib n s)
    (hne : NoEmptyOn (Finset.range n) s) (hca : ∀ o ∈ s.clus, o.saved = true → o.ph.isSome) :
    ∃ s', mhUpdate E S nRestr n s z = .ok s' ∧ Consistent E.contrib n s' ∧
      NoEmptyOn (Finset.range n) s' := by
  obtain ⟨s', e, h⟩ := mhUpdate_ok S nRestr hk hn z ⟨hs, hne, hca⟩
  exact ⟨s', e, h.cons, h.noEmpty⟩

/-- **C09, whole runs.** From a successful initialization on at least two rows, any number of
iterations with any numbers of Metropolis-Hastings updates, restricted scans and full scans never
faults and ends in a consistent state without empty clusters. -/
theorem c09_run (E : Env G H Θ) (S : Scores H) (nRestr : ℕ) (hk : E.kind ≠ .other) (K n : ℕ)
    (hn : 2 ≤ n) (hK : 0 < K) (hKn : K ≤ n) (h0 : H) (θ0 : Θ) (zi : InitNoise) (o : Hier G H Θ)
    (hfresh : o.saved = false) (zs : List SMNoise) :
    ∃ s s', initAlloc E true K n h0 θ0 zi [o] = .ok s ∧
      zs.foldlM (step E S nRestr n) s = .ok s' ∧ Consistent E.contrib n s' ∧
      NoEmptyOn (Finset.range n) s' ∧ s'.clus.length = s'.alloc.toFinset.card := by
  obtain ⟨s, e, hm, -⟩ := initAlloc_ok (E := E) (upd := true) (K := K) (n := n) (h0 := h0)
    (θ0 := θ0) zi (o := o) (fun _ => hk) hK hKn (by simp [Hier.CacheOk, hfresh])
  obtain ⟨s', e', h⟩ := foldlM_list_inv (step E S nRestr n) (MarginalOk E.contrib n)
    (fun z _ h => step_ok S nRestr hk hn z h) zs s hm
  refine ⟨s, s', e, e', h.cons, h.noEmpty, ?_⟩
  rw [labels_eq_range h.cons h.noEmpty, Finset.card_range]

example (S : Scores ℤ) (z : MHNoise) : ∃ s s', initAlloc (toyEnv .conjugate fun h _ _ => h) true 2 4
      100 0 ⟨fun _ => 0, fun _ => 1⟩ [toyObj] = .ok s ∧ s.alloc = [0, 1, 1, 1] ∧
    mhUpdate (toyEnv .conjugate fun h _ _ => h) S 5 4 s z = .ok s' ∧
    Consistent (toyEnv .conjugate fun h _ _ => h).contrib 4 s' := by
  obtain ⟨s, e, hm, -⟩ := initAlloc_ok (E := toyEnv .conjugate fun h _ _ => h) (upd := true)
    (K := 2) (n := 4) (h0 := 100) (θ0 := 0) ⟨fun _ => 0, fun _ => 1⟩ (o := toyObj)
    (fun _ => by simp [toyEnv]) (by omega) (by omega) (by simp [Hier.CacheOk, toyObj])
  obtain ⟨s', e', hc, -⟩ := c09_update (toyEnv .conjugate fun h _ _ => h) S 5 (by simp [toyEnv]) 4
    (by omega) z s hm.cons hm.noEmpty hm.caches
  refine ⟨s, s', e, ?_, e', hc⟩
  have : initAlloc (toyEnv .conjugate fun h _ _ => h) true 2 4
      100 0 ⟨fun _ => 0, fun _ => 1⟩ [toyObj] = .ok s → s.alloc = [0, 1, 1, 1] := by
    intro h; cases h; rfl
  exact this e

/-! ## C05, C06 for split-merge -/

theorem mem_objAt {E : Env G H Θ} {n : ℕ} {s : Alg G H Θ} (hs : MarginalOk E.contrib n s)
    {o : Hier G H Θ} (ho : o ∈ s.clus) : ∃ x < n, objAt s x = some o := by
  obtain ⟨k, hk⟩ := List.getElem?_of_mem ho
  obtain ⟨x, hx, hxk⟩ := hs.noEmpty k (List.getElem?_eq_some_iff.mp hk).1
  exact ⟨x, by simpa using hx, (objAt_eq hxk).trans hk⟩

/-- A Metropolis-Hastings update keeps all caches fresh. -/
theorem mhUpdate_fresh {E : Env G H Θ} (S : Scores H) (nRestr : ℕ) (hk : E.kind ≠ .other) {n : ℕ}
    (hn : 2 ≤ n) (z : MHNoise) {s : Alg G H Θ} (hs : MarginalOk E.contrib n s)
    (hf : ∀ o ∈ s.clus, o.Fresh E s.hyp) :
    ∃ s', mhUpdate E S nRestr n s z = .ok s' ∧ MarginalOk E.contrib n s' ∧ s'.hyp = s.hyp ∧
      ∀ o ∈ s'.clus, o.Fresh E s.hyp := by
  have hold : ∀ x o, objAt s x = some o → o.Fresh E s.hyp := by
    intro x o h
    unfold objAt at h
    obtain ⟨k, -, h2⟩ := Option.bind_eq_some_iff.mp h
    exact hf o (List.mem_of_getElem? h2)
  obtain ⟨i, j, hp, hi, hj, hne⟩ := pickPair_ok hn z.first z.second
  obtain ⟨o, ho⟩ := first_obj hs.cons (by omega)
  simp only [mhUpdate, hp, ok_bind, launch_ok S hk hs.cons hi hj hne ho nRestr z]
  by_cases ht : s.alloc[i]? = s.alloc[j]?
  · obtain ⟨s', he, h1, h2⟩ := update_split S hk hs.cons hi hj hne ht ho (launchLab nRestr z)
      z.last z.u
    refine ⟨s', he, ?_⟩
    by_cases hu : Accept z.u (splitRate E S s.hyp n i j (scanRows n s.alloc i j)
        (launchLab nRestr z) (fun k => decide (z.last k % 2 = 1)))
    · have h := h2 hu
      have hm : MarginalOk E.contrib n s' := ⟨h.cons, h.noEmpty hs.noEmpty, h.caches hs.caches⟩
      refine ⟨hm, h.hyp, fun p hp' => ?_⟩
      obtain ⟨x, hx, hxp⟩ := mem_objAt hm hp'
      by_cases hxi : s.alloc[x]? = s.alloc[i]?
      · obtain ⟨q, hq, hqf⟩ := h.fresh x hx hxi
        rw [hxp] at hq; cases hq; exact hqf
      · rw [h.others x hx hxi] at hxp; exact hold x p hxp
    · rw [h1 hu]; exact ⟨hs, rfl, hf⟩
  · obtain ⟨s', he, h1, h2⟩ := update_merge S hk hs.cons hi hj ht ho (launchLab nRestr z)
      z.last z.u
    refine ⟨s', he, ?_⟩
    by_cases hu : Accept z.u (-splitRate E S s.hyp n i j (scanRows n s.alloc i j)
        (launchLab nRestr z) (backLab s.alloc i j n))
    · have h := h2 hu
      have hm : MarginalOk E.contrib n s' := ⟨h.cons, h.noEmpty hs.noEmpty, h.caches hs.caches⟩
      refine ⟨hm, h.hyp, fun p hp' => ?_⟩
      obtain ⟨x, hx, hxp⟩ := mem_objAt hm hp'
      by_cases hxi : s.alloc[x]? = s.alloc[i]? ∨ s.alloc[x]? = s.alloc[j]?
      · obtain ⟨q, hq, hqf⟩ := h.fresh x hx hxi
        rw [hxp] at hq; cases hq; exact hqf
      · rw [not_or] at hxi
        rw [h.others x hx hxi.1 hxi.2] at hxp; exact hold x p hxp
    · rw [h1 hu]; exact ⟨hs, rfl, hf⟩

/-- Metropolis-Hastings updates and full scans of one iteration keep all caches fresh. -/
theorem allocations_fresh {E : Env G H Θ} (S : Scores H) (nRestr : ℕ) (hk : E.kind ≠ .other)
    {n : ℕ} (hn : 2 ≤ n) (mh : List MHNoise) (full : List (ℕ → ℕ × ℕ)) {s : Alg G H Θ}
    (hs : MarginalOk E.contrib n s) (hf : ∀ o ∈ s.clus, o.Fresh E s.hyp) :
    ∃ s1 s2, mh.foldlM (mhUpdate E S nRestr n) s = .ok s1 ∧
      full.foldlM (fun s ω => neal2Allocations E true n ω s) s1 = .ok s2 ∧
      MarginalOk E.contrib n s2 ∧ s2.hyp = s.hyp ∧ ∀ o ∈ s2.clus, o.Fresh E s.hyp := by
  obtain ⟨s1, e1, h1, h2, h3⟩ := foldlM_list_inv (mhUpdate E S nRestr n)
    (fun t => MarginalOk E.contrib n t ∧ t.hyp = s.hyp ∧ ∀ o ∈ t.clus, o.Fresh E s.hyp)
    (fun z t ht => by
      obtain ⟨t', e, a, b, c⟩ := mhUpdate_fresh S nRestr hk hn z ht.1 (by rw [ht.2.1]; exact ht.2.2)
      exact ⟨t', e, a, b.trans ht.2.1, by rw [← ht.2.1]; exact c⟩) mh s ⟨hs, rfl, hf⟩
  obtain ⟨s2, e2, h⟩ := foldlM_list_inv (fun s ω => neal2Allocations E true n ω s)
    (fun t => MarginalOk E.contrib n t ∧ t.hyp = s.hyp ∧ ∀ o ∈ t.clus, o.Fresh E s.hyp)
    (fun ω t ht => by
      obtain ⟨t', e, a, b, c⟩ := neal3Allocations_fresh ω hn hk ht.1
      exact ⟨t', e, a, b.trans ht.2.1, by rw [← ht.2.1]; exact c⟩) full s1 ⟨h1, h2, h3⟩
  exact ⟨s1, s2, e1, e2, h⟩

/-- **C05, split-merge.** At the end of an iteration with at least one full scan, each cluster's
parameters have been drawn with the posterior hyperparameters given the rows that carry its label,
whatever was cached before; without full scans the same holds if the caches were fresh. -/
theorem c05_split_merge_draws_from_posterior (E : Env G H Θ) (S : Scores H) (nRestr : ℕ)
    (hk : E.kind ≠ .other) (n : ℕ) (hn : 2 ≤ n) (s s' : Alg G H Θ) (hs : Consistent E.contrib n s)
    (hne : NoEmptyOn (Finset.range n) s) (hca : ∀ o ∈ s.clus, o.saved = true → o.ph.isSome)
    (z : SMNoise) (hz : z.full ≠ [] ∨
      ∀ o ∈ s.clus, o.saved = true ∧ o.ph = some (E.post s.hyp o.card o.ss))
    (e : step E S nRestr n s z = .ok s') (k : ℕ) (o : Hier G H Θ) (ho : s'.clus[k]? = some o) :
    o.state = E.sample (E.post s.hyp ((membersIn (Finset.range n) s'.alloc k).card : ℤ)
      (∑ i ∈ membersIn (Finset.range n) s'.alloc k, E.contrib i)) (z.uv k) := by
  have hs0 : MarginalOk E.contrib n s := ⟨hs, hne, hca⟩
  have hpre : ∃ s1 s2, z.mh.foldlM (mhUpdate E S nRestr n) s = .ok s1 ∧
      z.full.foldlM (fun s ω => neal2Allocations E true n ω s) s1 = .ok s2 ∧
      MarginalOk E.contrib n s2 ∧ s2.hyp = s.hyp ∧ ∀ o ∈ s2.clus, o.Fresh E s.hyp := by
    rcases hz with hz | hz
    · obtain ⟨s1, e1, h1, hh⟩ := foldlM_list_inv (mhUpdate E S nRestr n)
        (fun t => MarginalOk E.contrib n t ∧ t.hyp = s.hyp)
        (fun z t ht => by
          obtain ⟨t', e, h⟩ := mhUpdate_ok S nRestr hk hn z ht.1
          exact ⟨t', e, h, (mhUpdate_hyp S nRestr hk hn z ht.1.cons e).trans ht.2⟩) z.mh s
        ⟨hs0, rfl⟩
      obtain ⟨ω, l, hl⟩ := List.exists_cons_of_ne_nil hz
      obtain ⟨s2, e2, h2, hh2, hf2⟩ := neal3Allocations_fresh ω hn hk h1
      obtain ⟨s3, s4, e3, e4, h4, hh4, hf4⟩ := allocations_fresh S nRestr hk hn [] l h2
        (by rw [hh2]; exact hf2)
      cases e3
      refine ⟨s1, s4, e1, ?_, h4, by rw [hh4, hh2, hh], by rw [hh2, hh] at hf4; exact hf4⟩
      rw [hl, List.foldlM_cons, e2, ok_bind]
      exact e4
    · exact allocations_fresh S nRestr hk hn z.mh z.full hs0 hz
  obtain ⟨s1, s2, e1, e2, h2, hh, hf⟩ := hpre
  obtain ⟨s3, s4, e3, e4, -⟩ := marginal_tail_ok (upd := true) ⟨fun _ => (0, 0), z.uv, z.hyp,
    fun _ _ => 0⟩ (by omega) h2
  have : step E S nRestr n s z = .ok s4 := by
    simp only [step, e1, ok_bind, e2]
    rw [show sampleUniqueValues E true z.uv s2 = .ok s3 from e3, ok_bind]
    exact e4
  rw [e] at this; cases this
  rw [← hh]
  refine step_drawn hk (by omega) h2 e3 e4 k o ho ?_
  intro p hp
  rw [hh]
  exact .inl (hf p (List.mem_of_getElem? hp))

/-- C05: four rows in two clusters, one Metropolis-Hastings update and one full sweep. -/
example (S : Scores ℤ) (mh : MHNoise) (ω : ℕ → ℕ × ℕ) (uv : ℕ → ℕ) (hy : ℕ) :
    ∃ s s', initAlloc (toyEnv .conjugate fun h _ _ => h) true 2 4
      100 0 ⟨fun _ => 0, fun _ => 1⟩ [toyObj] = .ok s ∧
    step (toyEnv .conjugate fun h _ _ => h) S 5 4 s ⟨[mh], [ω], uv, hy⟩ = .ok s' ∧
    ∀ k o, s'.clus[k]? = some o →
      o.state = s.hyp + ∑ i ∈ membersIn (Finset.range 4) s'.alloc k, ((i : ℤ) + 1) := by
  obtain ⟨s, e, hm, -⟩ := initAlloc_ok (E := toyEnv .conjugate fun h _ _ => h) (upd := true)
    (K := 2) (n := 4) (h0 := 100) (θ0 := 0) ⟨fun _ => 0, fun _ => 1⟩ (o := toyObj)
    (fun _ => by simp [toyEnv]) (by omega) (by omega) (by simp [Hier.CacheOk, toyObj])
  obtain ⟨s', e', -⟩ := step_ok (E := toyEnv .conjugate fun h _ _ => h) S 5 (by simp [toyEnv])
    (n := 4) (by omega) ⟨[mh], [ω], uv, hy⟩ hm
  exact ⟨s, s', e, e', fun k o ho => c05_split_merge_draws_from_posterior _ S 5 (by simp [toyEnv]) 4
    (by omega) s s' hm.cons hm.noEmpty hm.caches _ (Or.inl (by simp)) e' k o ho⟩

/-- **C06, split-merge (fixed hyperparameters).** In a split-merge run from initialization with
hyperparameters that are not updated, after any number of iterations, any Metropolis-Hastings
updates and full scans of the next one and any part of a further full scan, when row `i` is
re-allocated the predictive density of each cluster `k` is evaluated with the posterior
hyperparameters given exactly the other rows carrying label `k`. -/
theorem c06_split_merge_predictive_hypers_partial (E : Env G H Θ) (S : Scores H) (nRestr : ℕ)
    (hfix : ∀ h l r, E.hyperUpdate h l r = h)
    (K n : ℕ) (hn : 2 ≤ n) (hk : E.kind ≠ .other) (h0 : H) (θ0 : Θ) (zi : InitNoise)
    (u : Hier G H Θ) (hu : u.saved = false) (hK : 0 < K) (hKn : K ≤ n)
    (s0 s a b t : Alg G H Θ) (hinit : initAlloc E true K n h0 θ0 zi [u] = .ok s0)
    (zs : List SMNoise) (hrun : zs.foldlM (step E S nRestr n) s0 = .ok s)
    (mh : List MHNoise) (hmh : mh.foldlM (mhUpdate E S nRestr n) s = .ok a)
    (full : List (ℕ → ℕ × ℕ))
    (hfull : full.foldlM (fun s ω => neal2Allocations E true n ω s) a = .ok b)
    (i : ℕ) (hi : i < n) (ω : ℕ → ℕ × ℕ) (hpre : neal2Allocations E true i ω b = .ok t)
    (s1 : Alg G H Θ) (x : Hier G H Θ × Bool) (hd : detach E true t i = .ok (s1, x))
    (k : ℕ) (hkl : k < s1.clus.length) :
    neal3PredHypers E s1 k = .ok (E.post h0
      ((membersIn ((Finset.range n).erase i) s1.alloc k).card : ℤ)
      (∑ j ∈ membersIn ((Finset.range n).erase i) s1.alloc k, E.contrib j)) := by
  obtain ⟨t0, e0, hm0, -, hh0, hf0⟩ := initAlloc_ok (E := E) (upd := true) (h0 := h0) (θ0 := θ0)
    zi (o := u) (fun _ => hk) hK hKn (by simp [Hier.CacheOk, hu])
  rw [hinit] at e0; cases e0
  have hfresh0 : ∀ o ∈ s0.clus, o.Fresh E h0 := by
    intro o ho
    obtain ⟨j, hj⟩ := List.getElem?_of_mem ho
    exact hf0 rfl j o hj
  obtain ⟨t', et, hm, hh, hf⟩ := foldlM_list_inv (step E S nRestr n)
    (fun t => MarginalOk E.contrib n t ∧ t.hyp = h0 ∧ ∀ o ∈ t.clus, o.Fresh E h0) (fun z t ht => by
      obtain ⟨h1, h2, h3⟩ := ht
      obtain ⟨a0, a1, ea0, ea, ha, hah, haf⟩ := allocations_fresh S nRestr hk hn z.mh z.full h1
        (by rw [h2]; exact h3)
      obtain ⟨a2, a3, e2, e3, hm3⟩ := marginal_tail_ok (upd := true) ⟨fun _ => (0, 0), z.uv, z.hyp,
        fun _ _ => 0⟩ (by omega) ha
      refine ⟨a3, ?_, hm3, ?_⟩
      · simp only [step, ea0, ok_bind, ea]
        rw [show sampleUniqueValues E true z.uv a1 = .ok a2 from e2, ok_bind]
        exact e3
      obtain ⟨b, e2', hc2, -, -, -, hb, hobj⟩ :=
        sampleUniqueValues_ok (E := E) (upd := true) (r := z.uv) ha.cons ha.caches
      rw [show sampleUniqueValues E true z.uv a1 = .ok a2 from e2] at e2'; cases e2'
      have h3e : a3 = a2 := by
        unfold updateHypers at e3
        rw [vget_ok (List.getElem?_eq_getElem (clus_pos hc2 (by omega))), ok_bind] at e3
        cases e3
        rw [hfix]
      rw [h3e]
      refine ⟨by rw [hb, hah, h2], ?_⟩
      intro o ho
      obtain ⟨j, hj⟩ := List.getElem?_of_mem ho
      obtain ⟨p, hp, hdr, -⟩ := hobj j o hj
      have := haf p (List.mem_of_getElem? hp)
      rw [h2] at this
      exact Hier.fresh_draw this hdr) zs s0 ⟨hm0, hh0, hfresh0⟩
  rw [hrun] at et; cases et
  obtain ⟨a', b', ea, eb, hmb, hhb, hfb⟩ := allocations_fresh S nRestr hk hn mh full hm
    (by rw [hh]; exact hf)
  rw [hmh] at ea; cases ea
  rw [hfull] at eb; cases eb
  obtain ⟨t'', et'', hmt, hht, hft⟩ := neal3Prefix_fresh ω i (by omega) hn hk hmb
    (by rw [hhb]; exact hfb)
  rw [hpre] at et''; cases et''
  rw [hhb, hh] at hht hft
  obtain ⟨r1, c, o, hdet, hdd, hl, ho, hsing, hrem⟩ :=
    detach_ok (i := i) (fun _ => hk) hmt.cons.on (Finset.mem_range.mpr hi)
  rw [hd] at hdet
  have hs1 : s1 = r1 := by cases hdet; rfl
  subst hs1
  have hok := List.getElem?_eq_getElem hkl
  have hfr : (s1.clus[k]).Fresh E h0 := by
    obtain ⟨q, hq⟩ : ∃ q, q = s1.clus[k] := ⟨_, rfl⟩
    have hmem : q ∈ s1.clus := hq ▸ List.getElem_mem _
    rw [← hq]
    by_cases h : o.card ≤ 1
    · rw [hsing h] at hmem
      exact hft _ (List.mem_of_mem_eraseIdx hmem)
    · rw [hrem h] at hmem
      rcases List.mem_or_eq_of_mem_set hmem with hm' | heq
      · exact hft _ hm'
      · rw [heq, ← hht]; exact Hier.fresh_removed E t.hyp i o
  simp [neal3PredHypers, vget_ok hok, Hier.getPosterior, hfr.1, hfr.2]
  rw [hdd.cons.cards k _ hok, hdd.cons.stats k _ hok]

/-- C06: four rows in two clusters, no Metropolis-Hastings update, row 0 detached. -/
example : ∃ s0 s1 x, initAlloc (toyEnv .conjugate fun h _ _ => h) true 2 4 100 0
      ⟨fun _ => 0, fun j => j⟩ [toyObj] = .ok s0 ∧
    detach (toyEnv .conjugate fun h _ _ => h) true s0 0 = .ok (s1, x) ∧
    1 < s1.clus.length ∧ neal3PredHypers (toyEnv .conjugate fun h _ _ => h) s1 1 =
      .ok (100 + ∑ j ∈ membersIn ((Finset.range 4).erase 0) s1.alloc 1, ((j : ℤ) + 1)) := by
  obtain ⟨s0, e⟩ : ∃ s0, initAlloc (toyEnv .conjugate fun h _ _ => h) true 2 4 100 0
      ⟨fun _ => 0, fun j => j⟩ [toyObj] = .ok s0 := ⟨_, rfl⟩
  obtain ⟨s1, x, hd, hl⟩ : ∃ s1 x, detach (toyEnv .conjugate fun h _ _ => h) true s0 0 = .ok (s1, x) ∧
      1 < s1.clus.length := by
    cases e
    exact ⟨_, _, rfl, by decide⟩
  exact ⟨s0, s1, x, e, hd, hl, c06_split_merge_predictive_hypers_partial
    (toyEnv .conjugate fun h _ _ => h) ⟨fun _ _ => 0, fun _ _ _ => 0, fun _ _ => 0⟩ 5 (fun _ _ _ => rfl) 2 4 (by omega)
    (by simp [toyEnv]) 100 0 _ toyObj rfl (by omega) (by omega) s0 s0 s0 s0 s0 e [] rfl [] rfl [] rfl 0
    (by omega) (fun _ => (0, 0)) rfl s1 x hd 1 hl⟩

/-! ## C10 -/

/-- `s'` is `s` with the cluster of `i` and `j` divided in two, one with `i` and one with `j`;
rows outside that cluster keep their label and the very object they sit in. -/
structure IsSplit (n i j : ℕ) (s s' : Alg G H Θ) : Prop where
  united : together s.alloc i j
  divided : ¬ together s'.alloc i j
  cover : ∀ x < n, together s.alloc x i ↔ together s'.alloc x i ∨ together s'.alloc x j
  labels : ∀ x < n, ¬ together s.alloc x i → s'.alloc[x]? = s.alloc[x]?
  objects : ∀ x < n, ¬ together s.alloc x i → objAt s' x = objAt s x
  count : s'.clus.length = s.clus.length + 1
  hyp : s'.hyp = s.hyp

/-- `s'` is `s` with the clusters of `i` and `j` united; rows outside them stay together exactly
when they were, and keep the very object they sit in. -/
structure IsMerge (n i j : ℕ) (s s' : Alg G H Θ) : Prop where
  divided : ¬ together s.alloc i j
  cover : ∀ x < n, together s'.alloc x i ↔ together s.alloc x i ∨ together s.alloc x j
  united : together s'.alloc i j
  others : ∀ x < n, ∀ y < n, ¬ (together s.alloc x i ∨ together s.alloc x j) →
    (together s'.alloc x y ↔ together s.alloc x y)
  objects : ∀ x < n, ¬ (together s.alloc x i ∨ together s.alloc x j) → objAt s' x = objAt s x
  count : s'.clus.length + 1 = s.clus.length
  hyp : s'.hyp = s.hyp

theorem isSplit_of {E : Env G H Θ} {n i j : ℕ} {D : Finset ℕ} {s s' : Alg G H Θ}
    (hc : Consistent E.contrib n s) (ht : s.alloc[i]? = s.alloc[j]?)
    (hiD : i ∈ D) (hjD : j ∉ D) (hD : D ⊆ clusterOf n s.alloc i)
    (h : SplitDone E n i j D s s') : IsSplit n i j s s' := by
  obtain ⟨e1, e2, -, hne⟩ := split_rows hc ht hiD hjD hD h
  have hlab : ∀ x < n, ¬ together s.alloc x i → s'.alloc[x]? = s.alloc[x]? := by
    intro x hx hnt
    rw [h.alloc, if_neg]
    intro hxD; exact hnt (mem_clusterOf.mp (hD hxD)).2
  refine ⟨ht, hne, ?_, hlab, fun x hx hnt => h.others x hx hnt, h.len, h.hyp⟩
  intro x hx
  have k1 : together s'.alloc x i ↔ x ∈ D := by
    rw [← e1, mem_clusterOf]; simp [hx, together]
  have k2 : together s'.alloc x j ↔ x ∈ clusterOf n s.alloc i \ D := by
    rw [← e2, mem_clusterOf]; simp [hx, together]
  have k3 : together s.alloc x i ↔ x ∈ clusterOf n s.alloc i := by
    rw [mem_clusterOf]; simp [hx, together]
  rw [k1, k2, k3, Finset.mem_sdiff]
  constructor
  · intro h'; by_cases hxD : x ∈ D
    · exact .inl hxD
    · exact .inr ⟨h', hxD⟩
  · rintro (h' | h')
    · exact hD h'
    · exact h'.1

theorem isMerge_of {E : Env G H Θ} {n i j : ℕ} {s s' : Alg G H Θ}
    (hc : Consistent E.contrib n s) (hi : i < n) (hj : j < n) (ht : s.alloc[i]? ≠ s.alloc[j]?)
    (h : MergeDone E n i j s s') : IsMerge n i j s s' := by
  obtain ⟨a, b, ha, hb, hall⟩ := h.alloc
  have hab : a ≠ b := by rintro rfl; exact ht (ha.trans hb.symm)
  have hi' : s'.alloc[i]? = some (shiftDown a b) := by rw [hall i hi, if_pos rfl]
  have hj' : s'.alloc[j]? = some (shiftDown a b) := by
    rw [hall j hj, if_neg (Ne.symm ht), hb, Option.map_some]
  have hlab : ∀ x < n, ∃ c, s.alloc[x]? = some c := fun x hx =>
    (hc.on.labelled x (Finset.mem_range.mpr hx)).imp fun _ h => h.1
  have key : ∀ x < n, s'.alloc[x]? = some (shiftDown a b) ↔
      together s.alloc x i ∨ together s.alloc x j := by
    intro x hx
    obtain ⟨c, hcx⟩ := hlab x hx
    rw [hall x hx, together, together, ha, hb, hcx]
    by_cases hca : c = a
    · subst hca; simp
    · have h1 : ¬ some c = some a := fun e => hca (Option.some.inj e)
      rw [if_neg h1, Option.map_some]
      constructor
      · intro e
        have := shiftDown_inj hca (Ne.symm hab) (Option.some.inj e)
        right; rw [this]
      · rintro (e | e)
        · exact absurd e h1
        · rw [Option.some.inj e]
  refine ⟨ht, ?_, by rw [together, hi', hj'], ?_, ?_, h.len, h.hyp⟩
  · intro x hx
    rw [together, hi', key x hx]
  · intro x hx y hy hnt
    have hnt' := (key x hx).not.mpr hnt
    obtain ⟨c, hcx⟩ := hlab x hx
    obtain ⟨d, hdy⟩ := hlab y hy
    have hca : c ≠ a := by
      rintro rfl; exact hnt (.inl (hcx.trans ha.symm))
    have hx' : s'.alloc[x]? = some (shiftDown a c) := by
      rw [hall x hx, hcx, ha, if_neg (fun e => hca (Option.some.inj e)), Option.map_some]
    rw [together, together, hx', hcx, hdy]
    by_cases hda : d = a
    · have hy' : s'.alloc[y]? = some (shiftDown a b) := by
        rw [hall y hy, hdy, ha, if_pos (by rw [hda])]
      rw [hy', ← hx']
      constructor
      · intro e; exact absurd e hnt'
      · intro e; rw [hda] at e; exact absurd (Option.some.inj e) hca
    · rw [hall y hy, hdy, ha, if_neg (fun e => hda (Option.some.inj e)), Option.map_some]
      constructor
      · intro e; rw [shiftDown_inj hca hda (Option.some.inj e)]
      · intro e; rw [Option.some.inj e]
  · intro x hx hnt
    rw [not_or] at hnt
    exact h.others x hx hnt.1 hnt.2

/-- **C10.** One update on the selected rows `i`, `j`, for every launch noise, final scan and
uniform draw: the state is unchanged, or it is a split of the common cluster of `i` and `j`, or a
merge of their two clusters; nothing else changes. -/
theorem c10_update (E : Env G H Θ) (S : Scores H) (nRestr : ℕ) (hk : E.kind ≠ .other) (n : ℕ)
    (s : Alg G H Θ) (hs : Consistent E.contrib n s) (z : MHNoise) (i j : ℕ)
    (hp : pickPair n z.first z.second = .ok (i, j)) (hn : 2 ≤ n) :
    ∃ s', mhUpdate E S nRestr n s z = .ok s' ∧
      (s' = s ∨ IsSplit n i j s s' ∨ IsMerge n i j s s') := by
  obtain ⟨i', j', hp', hi, hj, hne⟩ := pickPair_ok hn z.first z.second
  rw [hp] at hp'
  obtain ⟨rfl, rfl⟩ := Prod.mk.inj (Except.ok.inj hp')
  obtain ⟨o, ho⟩ := first_obj hs (by omega)
  simp only [mhUpdate, hp, ok_bind, launch_ok S hk hs hi hj hne ho nRestr z]
  by_cases ht : s.alloc[i]? = s.alloc[j]?
  · obtain ⟨s', he, h1, h2⟩ := update_split S hk hs hi hj hne ht ho (launchLab nRestr z)
      z.last z.u
    refine ⟨s', he, ?_⟩
    by_cases hu : Accept z.u (splitRate E S s.hyp n i j (scanRows n s.alloc i j)
        (launchLab nRestr z) (fun k => decide (z.last k % 2 = 1)))
    · right; left
      obtain ⟨c1, hc1⟩ : ∃ c1 : ℕ → Bool, c1 = fun k => decide (z.last k % 2 = 1) := ⟨_, rfl⟩
      have h := h2 hu
      rw [← hc1] at h
      have hr := scanRows_ok (n := n) (al := s.alloc) hne
      refine isSplit_of hs ht (root_mem i j _ c1 false) (fun h' =>
        Finset.disjoint_left.mp (side_disjoint hr c1) h' (root_mem i j _ c1 true)) ?_ h
      have h1 : side i j (scanRows n s.alloc i j) c1 false ⊆
          clusterOf n s.alloc i ∪ clusterOf n s.alloc j := by
        rw [← scanRows_union hi hj, ← side_union i j _ c1]; exact Finset.subset_union_left
      have h2 : clusterOf n s.alloc j = clusterOf n s.alloc i := by simp [clusterOf, ht]
      rwa [h2, Finset.union_self] at h1
    · exact .inl (h1 hu)
  · obtain ⟨s', he, h1, h2⟩ := update_merge S hk hs hi hj ht ho (launchLab nRestr z)
      z.last z.u
    refine ⟨s', he, ?_⟩
    by_cases hu : Accept z.u (-splitRate E S s.hyp n i j (scanRows n s.alloc i j)
        (launchLab nRestr z) (backLab s.alloc i j n))
    · exact .inr (.inr (isMerge_of hs hi hj ht (h2 hu)))
    · exact .inl (h1 hu)

/-- **C10, the decision.** A proposal is carried out exactly when the uniform draw is below the
acceptance probability `min(1, exp(rate))`; a split sends exactly the rows of the first temporary
cluster of the final scan to the new cluster. -/
theorem c10_decision (E : Env G H Θ) (S : Scores H) (hk : E.kind ≠ .other) (n : ℕ)
    (s : Alg G H Θ) (hs : Consistent E.contrib n s) (i j : ℕ) (hi : i < n) (hj : j < n)
    (hne : i ≠ j) (nRestr : ℕ) (z : MHNoise) (r : ℕ → ℕ) (u : ℝ) (hu0 : 0 ≤ u) (hu1 : u < 1) :
    ∃ L split L' rate s', launch E S nRestr s i j z = .ok L ∧
      logArate E S s L i j r = .ok (split, L', rate) ∧
      (split = true ↔ together s.alloc i j) ∧
      splitOrMerge E S s L i j r u = .ok s' ∧
      (min 1 (Real.exp rate) ≤ u → s' = s) ∧
      (u < min 1 (Real.exp rate) → split = true → IsSplit n i j s s' ∧ ∀ x < n,
        (together s'.alloc x i ↔ x ∈ (L'.vals false).idx) ∧
        (together s'.alloc x j ↔ x ∈ (L'.vals true).idx)) ∧
      (u < min 1 (Real.exp rate) → split = false → IsMerge n i j s s') := by
  obtain ⟨o, ho⟩ := first_obj hs (by omega)
  have hacc : ∀ rate, Accept u rate ↔ u < min 1 (Real.exp rate) := by
    intro rate
    rw [lt_min_iff, and_iff_right hu1]
    unfold Accept
    rcases hu0.eq_or_lt with h | h
    · rw [← h]; simp [Real.exp_pos]
    · rw [Real.log_lt_iff_lt_exp h]; simp [h.ne']
  have hr := scanRows_ok (n := n) (al := s.alloc) hne
  have hnot : ∀ rate, min 1 (Real.exp rate) ≤ u → ¬ Accept u rate := fun rate h h' =>
    absurd ((hacc rate).mp h') (not_lt.mpr h)
  by_cases ht : s.alloc[i]? = s.alloc[j]?
  · obtain ⟨s', he, h1, h2⟩ := update_split S hk hs hi hj hne ht ho (launchLab nRestr z) r u
    refine ⟨_, _, _, _, s', launch_ok S hk hs hi hj hne ho nRestr z,
      logArate_split S hk hs hi hne ht ho _ r, by simpa [together] using ht, he,
      fun h => h1 (hnot _ h), ?_, by simp⟩
    intro hu _
    have h := h2 ((hacc _).mpr hu)
    obtain ⟨c1, hc1⟩ : ∃ c1 : ℕ → Bool, c1 = fun k => decide (r k % 2 = 1) := ⟨_, rfl⟩
    rw [← hc1] at h ⊢
    have hsub : side i j (scanRows n s.alloc i j) c1 false ∪ side i j (scanRows n s.alloc i j) c1
        true = clusterOf n s.alloc i := by
      rw [side_union, scanRows_union hi hj, show clusterOf n s.alloc j = clusterOf n s.alloc i by
        simp [clusterOf, ht], Finset.union_self]
    have hdis := side_disjoint hr c1
    have hjD : j ∉ side i j (scanRows n s.alloc i j) c1 false := fun h' =>
      Finset.disjoint_left.mp hdis h' (root_mem i j _ c1 true)
    have hsub' : side i j (scanRows n s.alloc i j) c1 false ⊆ clusterOf n s.alloc i := by
      rw [← hsub]; exact Finset.subset_union_left
    obtain ⟨e1, e2, -, -⟩ := split_rows hs ht (root_mem i j _ c1 false) hjD hsub' h
    have e3 : clusterOf n s.alloc i \ side i j (scanRows n s.alloc i j) c1 false =
        side i j (scanRows n s.alloc i j) c1 true := by
      rw [← hsub, Finset.union_sdiff_left]
      exact Finset.sdiff_eq_self_of_disjoint hdis.symm
    rw [e3] at e2
    refine ⟨isSplit_of hs ht (root_mem i j _ c1 false) hjD hsub' h, fun x hx => ⟨?_, ?_⟩⟩
    · show _ ↔ x ∈ side i j (scanRows n s.alloc i j) c1 false
      rw [← e1, mem_clusterOf]; simp [hx, together]
    · show _ ↔ x ∈ side i j (scanRows n s.alloc i j) c1 true
      rw [← e2, mem_clusterOf]; simp [hx, together]
  · obtain ⟨s', he, h1, h2⟩ := update_merge S hk hs hi hj ht ho (launchLab nRestr z) r u
    exact ⟨_, _, _, _, s', launch_ok S hk hs hi hj hne ho nRestr z,
      logArate_merge S hk hs hi hj ht ho _ r, by simpa [together] using ht, he,
      fun h => h1 (hnot _ h), by simp, fun hu _ => isMerge_of hs hi hj ht (h2 ((hacc _).mpr hu))⟩

/-- From one cluster of three rows, a zero draw always splits rows 0 and 2. -/
example (S : Scores ℤ) (z : MHNoise) (r : ℕ → ℕ) :
    ∃ s L s', initAlloc (toyEnv .conjugate fun h _ _ => h) true 1 3
        100 0 ⟨fun _ => 0, fun _ => 0⟩ [toyObj] = .ok s ∧
      launch (toyEnv .conjugate fun h _ _ => h) S 5 s 0 2 z = .ok L ∧
      splitOrMerge (toyEnv .conjugate fun h _ _ => h) S s L 0 2 r 0 = .ok s' ∧
      IsSplit 3 0 2 s s' := by
  obtain ⟨s, e, hm, hlen, -⟩ := initAlloc_ok (E := toyEnv .conjugate fun h _ _ => h) (upd := true)
    (K := 1) (n := 3) (h0 := 100) (θ0 := 0) ⟨fun _ => 0, fun _ => 0⟩ (o := toyObj)
    (fun _ => by simp [toyEnv]) (by omega) (by omega) (by simp [Hier.CacheOk, toyObj])
  have htog : together s.alloc 0 2 := by
    obtain ⟨a, ha, hal⟩ := hm.cons.on.labelled 0 (by simp)
    obtain ⟨b, hb, hbl⟩ := hm.cons.on.labelled 2 (by simp)
    have : a = b := by omega
    rw [together, ha, hb, this]
  obtain ⟨L, split, L', rate, s', h1, -, h3, h4, -, h6, -⟩ := c10_decision
    (toyEnv .conjugate fun h _ _ => h) S (by simp [toyEnv]) 3 s hm.cons 0 2 (by omega) (by omega)
    (by omega) 5 z r 0 le_rfl one_pos
  exact ⟨s, L, s', e, h1, h4,
    (h6 (lt_min one_pos (Real.exp_pos _)) (h3.mpr htog)).1⟩

/-! ## C83 -/

/-- What detailed balance needs for one split move `s → s'` with launch noise `z`: `q` is the log
probability of the final scan as accumulated by the code, and the reverse move, a merge from the
same launch state, has the opposite log acceptance rate and restores the partition. -/
structure Reverse (E : Env G H Θ) (S : Scores H) (nRestr n i j : ℕ) (z : MHNoise)
    (s s' : Alg G H Θ) (L L' : Launch G H Θ) (r : ℕ → ℕ) (rate q : ℝ) : Prop where
  scan : restrictedGs E S s i true false r L = .ok (L', q)
  back : ∃ L2 L2' s'', launch E S nRestr s' i j z = .ok L2 ∧
    (∀ r', logArate E S s' L2 i j r' = .ok (false, L2', -rate)) ∧
    proposalUpdate E s' L2' i j false = .ok s'' ∧
    ∀ x < n, ∀ y < n, together s''.alloc x y ↔ together s.alloc x y

/-- Every split move has a reverse merge move with the opposite log acceptance rate; the log rate plus
the log probability of the final scan is the "new cluster" mass plus the change of the sum of the scores
of the clusters. -/
theorem split_rate (E : Env G H Θ) (S : Scores H) (nRestr : ℕ) (hk : E.kind ≠ .other) (n : ℕ)
    (s : Alg G H Θ) (hs : Consistent E.contrib n s) (hne : NoEmptyOn (Finset.range n) s)
    (i j : ℕ) (hi : i < n) (hj : j < n) (hij : i ≠ j) (z : MHNoise) (r : ℕ → ℕ)
    (m : Finset ℕ → ℝ) (hm : MargLik E S s.hyp m)
    (L L' : Launch G H Θ) (rate : ℝ) (s' : Alg G H Θ)
    (hL : launch E S nRestr s i j z = .ok L) (hA : logArate E S s L i j r = .ok (true, L', rate))
    (hP : proposalUpdate E s L' i j true = .ok s') :
    ∃ q, Reverse E S nRestr n i j z s s' L L' r rate q ∧ Consistent E.contrib n s' ∧
      NoEmptyOn (Finset.range n) s' ∧ s'.clus.length = s.clus.length + 1 ∧
      rate + q = S.fresh n 2 +
        ∑ k ∈ Finset.range s'.clus.length, (wgt S n (membersIn (Finset.range n) s'.alloc k).card +
          m (membersIn (Finset.range n) s'.alloc k)) -
        ∑ k ∈ Finset.range s.clus.length, (wgt S n (membersIn (Finset.range n) s.alloc k).card +
          m (membersIn (Finset.range n) s.alloc k)) := by
  obtain ⟨o, ho⟩ := first_obj hs (by omega)
  have hr := scanRows_ok (n := n) (al := s.alloc) hij
  rw [launch_ok S hk hs hi hj hij ho nRestr z] at hL
  have hL := Except.ok.inj hL
  subst hL
  have ht : s.alloc[i]? = s.alloc[j]? := by
    by_contra ht
    rw [logArate_merge S hk hs hi hj ht ho] at hA
    exact Bool.noConfusion (Prod.mk.inj (Except.ok.inj hA)).1
  rw [logArate_split S hk hs hi hij ht ho] at hA
  obtain ⟨c1, hc1⟩ : ∃ c1 : ℕ → Bool, c1 = fun k => decide (r k % 2 = 1) := ⟨_, rfl⟩
  rw [← hc1] at hA
  obtain ⟨-, hA⟩ := Prod.mk.inj (Except.ok.inj hA)
  obtain ⟨hL', hrate⟩ := Prod.mk.inj hA
  obtain ⟨c0, hc0⟩ : ∃ c0, c0 = launchLab nRestr z := ⟨_, rfl⟩
  rw [← hc0] at hrate ⊢
  obtain ⟨rows, hrows⟩ : ∃ rows, rows = scanRows n s.alloc i j := ⟨_, rfl⟩
  rw [← hrows] at hr hrate hL' ⊢
  have hunion : side i j rows c1 false ∪ side i j rows c1 true = clusterOf n s.alloc i := by
    rw [side_union, hrows, scanRows_union hi hj, show clusterOf n s.alloc j =
      clusterOf n s.alloc i by simp [clusterOf, ht], Finset.union_self]
  have hdis := side_disjoint hr c1
  have hiD := root_mem i j rows c1 false
  have hjD : j ∉ side i j rows c1 false := fun h =>
    Finset.disjoint_left.mp hdis h (root_mem i j rows c1 true)
  have hsub : side i j rows c1 false ⊆ clusterOf n s.alloc i := by
    rw [← hunion]; exact Finset.subset_union_left
  have hsd : clusterOf n s.alloc i \ side i j rows c1 false = side i j rows c1 true := by
    rw [← hunion, Finset.union_sdiff_left]
    exact Finset.sdiff_eq_self_of_disjoint hdis.symm
  obtain ⟨t', he, hd⟩ := proposal_split hk hs hi hj ht (L := L')
    (D := side i j rows c1 false) (by rw [← hL']; rfl) hiD hjD hsub
  rw [hP] at he
  have he := Except.ok.inj he
  subst he
  obtain ⟨e1, e2, e3, hne'⟩ := split_rows hs ht hiD hjD hsub hd
  rw [hsd] at e2
  rw [← hrows] at e3
  -- the labels that send the rows back are those of the split
  have hback : ∀ t < rows.length, backLab s'.alloc i j n t = c1 t := by
    intro t htl
    have hx : rows.getD t 0 < n := by
      have hmem := getD_mem htl
      obtain ⟨x, hxd⟩ : ∃ x, x = rows.getD t 0 := ⟨_, rfl⟩
      rw [← hxd] at hmem ⊢
      rw [hrows] at hmem
      rcases (mem_scanRows.mp hmem).2.2 with h | h <;> exact (mem_clusterOf.mp h).1
    have key : backLab s'.alloc i j n t = false ↔ c1 t = false := by
      rw [backLab, e3, origLab_iff hd.cons.len hi hx, ← mem_side hr htl (c := c1) (b := false),
        ← e1, mem_clusterOf]
      exact (and_iff_right hx).symm
    cases hb : backLab s'.alloc i j n t <;> cases hc : c1 t <;> simp_all
  obtain ⟨q, hq⟩ : ∃ q, q = transLog E S s.hyp i j rows c0 c1 rows.length := ⟨_, rfl⟩
  refine ⟨q, ⟨?_, ?_⟩, hd.cons, hd.noEmpty hne, hd.len, ?_⟩
  · rw [restrictedGs_ok S hk hr c0 (by simp), ← hL', hq]
    have : newLab s.alloc i rows false r = c1 := by funext k; simp [newLab, hc1]
    rw [this]; rfl
  · obtain ⟨o', ho'⟩ := first_obj hd.cons (by omega)
    obtain ⟨s'', hmp, hmd⟩ := proposal_merge hk hd.cons hi hj hne'
      (launchOf E s'.hyp o'.state i j (scanRows n s'.alloc i j) (backLab s'.alloc i j n))
    refine ⟨_, _, s'', launch_ok S hk hd.cons hi hj hij ho' nRestr z, fun r' => ?_, hmp, ?_⟩
    · rw [logArate_merge S hk hd.cons hi hj hne' ho' _ r', ← hrate, hd.hyp, e3, ← hc0,
        splitRate_congr E S s.hyp n i j rows c0 hback]
    · have hM := isMerge_of hd.cons hi hj hne' hmd
      have hS := isSplit_of hs ht hiD hjD hsub hd
      intro x hx y hy
      have kx : together s''.alloc x i ↔ together s.alloc x i := by
        rw [hM.cover x hx, hS.cover x hx]
      have ky : together s''.alloc y i ↔ together s.alloc y i := by
        rw [hM.cover y hy, hS.cover y hy]
      by_cases hxi : together s.alloc x i
      · have hxi' := kx.mpr hxi
        unfold together at *
        rw [hxi, hxi']
        constructor
        · intro h; exact (ky.mp h.symm).symm
        · intro h; exact (ky.mpr h.symm).symm
      · have hno := hM.others x hx y hy (by rw [← hS.cover x hx]; exact hxi)
        rw [hno, together, together, hS.labels x hx hxi]
        by_cases hyi : together s.alloc y i
        · constructor
          · intro h
            exfalso
            apply hxi
            rw [hS.cover x hx]
            rcases (hS.cover y hy).mp hyi with h' | h'
            · left; unfold together at *; rw [hS.labels x hx hxi, h, h']
            · right; unfold together at *; rw [hS.labels x hx hxi, h, h']
          · intro h; exact absurd (h.trans hyi) hxi
        · rw [hS.labels y hy hyi]
  · rw [split_sum hs hi hsub hd (fun A => wgt S n A.card + m A), hsd, ← hrate, splitRate, ← hq,
      likRatio_eq hm (i := i) (j := j) hiD (root_mem i j rows c1 true) hdis, priorRatio, hunion]
    ring

/-- The members of a label in use. -/
theorem members_card_pos {E : Env G H Θ} {n : ℕ} {s : Alg G H Θ} (hs : Consistent E.contrib n s)
    (hne : NoEmptyOn (Finset.range n) s) {k : ℕ} (hk : k < s.clus.length) :
    1 ≤ (membersIn (Finset.range n) s.alloc k).card := by
  have h : k ∈ s.alloc.toFinset := by
    rw [labels_eq_range hs hne]
    exact Finset.mem_range.mpr hk
  rw [List.mem_toFinset, ← List.count_pos_iff, count_eq_card, hs.len] at h
  exact h

/-- **C83, core.** For every split move there is the reverse merge move with the opposite log
acceptance rate, and detailed balance for the Pitman-Yor posterior holds if and only if the
"new cluster" mass used by the code is the one for the number of clusters of the merged state. -/
theorem c83_balance_iff (E : Env G H Θ) (S : Scores H) (nRestr : ℕ) (hk : E.kind ≠ .other) (n : ℕ)
    (s : Alg G H Θ) (hs : Consistent E.contrib n s) (hne : NoEmptyOn (Finset.range n) s)
    (i j : ℕ) (hi : i < n) (hj : j < n) (hij : i ≠ j) (z : MHNoise) (r : ℕ → ℕ)
    (st : PYState) (h1 : -st.discount < st.strength) (h2 : 0 ≤ st.discount) (h3 : st.discount < 1)
    (hex : ∀ c : ℕ, 1 ≤ c → S.exist n 2 c = Real.log (c - st.discount)) (φ : ℝ) (hφ : 0 < φ)
    (hnew : S.fresh n 2 = Real.log φ) (m : Finset ℕ → ℝ) (hm : MargLik E S s.hyp m)
    (L L' : Launch G H Θ) (rate : ℝ) (s' : Alg G H Θ)
    (hL : launch E S nRestr s i j z = .ok L) (hA : logArate E S s L i j r = .ok (true, L', rate))
    (hP : proposalUpdate E s L' i j true = .ok s') :
    ∃ q, Reverse E S nRestr n i j z s s' L L' r rate q ∧
      (pyPosterior st m s.alloc * Real.exp q * min 1 (Real.exp rate) =
          pyPosterior st m s'.alloc * min 1 (Real.exp (-rate)) ↔
        φ = st.strength + st.discount * s.clus.length) := by
  obtain ⟨q, hrev, hs', hne', hlen, hrate⟩ := split_rate E S nRestr hk n s hs hne i j hi hj hij z r m hm
    L L' rate s' hL hA hP
  refine ⟨q, hrev, ?_⟩
  have hall : ∀ t : Alg G H Θ, Consistent E.contrib n t → t.alloc ≠ [] := by
    intro t ht' e
    have := ht'.len; rw [e] at this; simp at this; omega
  have hsum : ∀ t : Alg G H Θ, Consistent E.contrib n t → NoEmptyOn (Finset.range n) t →
      ∑ k ∈ Finset.range t.clus.length, (wgt S n (membersIn (Finset.range n) t.alloc k).card +
          m (membersIn (Finset.range n) t.alloc k)) =
        ∑ k ∈ Finset.range t.clus.length, blockScore st m (membersIn (Finset.range n) t.alloc k) := by
    intro t ht' hnt
    refine Finset.sum_congr rfl fun k hk' => ?_
    rw [wgt_eq h3 hex (members_card_pos ht' hnt (Finset.mem_range.mp hk')), blockScore]
  rw [hsum s hs hne, hsum s' hs' hne', hnew] at hrate
  rw [pyPosterior_eq h1 h2 h3 m (hall s hs), pyPosterior_eq h1 h2 h3 m (hall s' hs'),
    balance_iff, hs.len, hs'.len, labels_eq_range hs hne, labels_eq_range hs' hne',
    Finset.card_range, Finset.card_range, hrate, hlen]
  have hK : 0 < s.clus.length := clus_pos hs (by omega)
  have hK1 : (1 : ℝ) ≤ s.clus.length := by exact_mod_cast hK
  have hnk : 0 < st.strength + st.discount * s.clus.length := by nlinarith
  rw [pyA_succ st hK, Real.log_mul (pyA_pos h1 h2 _).ne' hnk.ne']
  constructor
  · intro h
    apply Real.log_injOn_pos (Set.mem_Ioi.mpr hφ) (Set.mem_Ioi.mpr hnk)
    linarith
  · intro h
    rw [h]; ring

/-- The numbers that a Dirichlet process mixing hands to the sampler. -/
noncomputable def dpScores (pred : H → ℕ → ℝ) (st : DPState) : Scores H :=
  ⟨pred, fun n _ c => (dpLogMassExisting st n true c.toNat).toReal,
    fun n _ => (dpLogMassNew st n true).toReal⟩

/-- The numbers that a Pitman-Yor mixing hands to the sampler. -/
noncomputable def pyScores (pred : H → ℕ → ℝ) (st : PYState) : Scores H :=
  ⟨pred, fun n _ c => (pyLogMassExisting st n true c.toNat).toReal,
    fun n k => (pyLogMassNew st n k true).toReal⟩

/-- The posterior with the masses of a Dirichlet process with the given total mass. -/
noncomputable def dpPosterior (α : ℝ) (m : Finset ℕ → ℝ) (al : List ℕ) : ℝ :=
  posterior (fun n _ c => dpMassExisting ⟨α, Real.log α⟩ n false c)
    (fun n _ => dpMassNew ⟨α, Real.log α⟩ n false) m al

theorem dpPosterior_eq (α : ℝ) (m : Finset ℕ → ℝ) (al : List ℕ) :
    dpPosterior α m al = pyPosterior ⟨α, 0⟩ m al := by
  unfold dpPosterior pyPosterior
  congr 1
  · funext n k c
    by_cases hc : c = 0
    · simp [pyMassExisting, dpMassExisting, hc]
    · simp only [pyMassExisting, dpMassExisting, if_neg hc, Bool.false_eq_true, if_false,
        sub_zero]
      norm_num
  · funext n k
    simp [pyMassNew, dpMassNew]

/-- **C83, Dirichlet process, what the code targets.** With a Dirichlet process mixing whose state
was initialized and updated by the code, every split move satisfies detailed balance together with
its reverse merge for the posterior with total mass **one**, whatever the configured total mass. -/
theorem c83_dirichlet_partial (E : Env G H Θ) (pred : H → ℕ → ℝ) {prior : DPPrior} {dp : DPState}
    (hdp : DPRun prior dp) (nRestr : ℕ) (hk : E.kind ≠ .other) (n : ℕ)
    (s : Alg G H Θ) (hs : Consistent E.contrib n s) (hne : NoEmptyOn (Finset.range n) s)
    (i j : ℕ) (hi : i < n) (hj : j < n) (hij : i ≠ j) (z : MHNoise) (r : ℕ → ℕ)
    (m : Finset ℕ → ℝ) (hm : MargLik E (dpScores pred dp) s.hyp m)
    (L L' : Launch G H Θ) (rate : ℝ) (s' : Alg G H Θ)
    (hL : launch E (dpScores pred dp) nRestr s i j z = .ok L)
    (hA : logArate E (dpScores pred dp) s L i j r = .ok (true, L', rate))
    (hP : proposalUpdate E s L' i j true = .ok s') :
    ∃ q, Reverse E (dpScores pred dp) nRestr n i j z s s' L L' r rate q ∧
      (∀ α, 0 < α → (dpPosterior α m s.alloc * Real.exp q * min 1 (Real.exp rate) =
        dpPosterior α m s'.alloc * min 1 (Real.exp (-rate)) ↔ α = 1)) := by
  have hex : ∀ c : ℕ, 1 ≤ c → (dpScores pred dp).exist n 2 c = Real.log ((c : ℝ) - 0) := by
    intro c hc
    have hc0 : c ≠ 0 := by omega
    simp [dpScores, dpLogMassExisting, logCard, hc0]
  have hnew : (dpScores pred dp).fresh n 2 = Real.log 1 := by
    simp [dpScores, (c26_dirichlet_log_mass_violated hdp n).1]
  have core := fun α (hα : 0 < α) => c83_balance_iff E (dpScores pred dp) nRestr hk n s hs hne
    i j hi hj hij z r ⟨α, 0⟩ (by simpa using hα) le_rfl one_pos hex 1 one_pos hnew m hm L L' rate
    s' hL hA hP
  obtain ⟨q, hrev, -⟩ := core 1 one_pos
  refine ⟨q, hrev, fun α hα => ?_⟩
  obtain ⟨q', hrev', hb⟩ := core α hα
  have hqq : q' = q := by
    have h1 := hrev.scan
    rw [hrev'.scan] at h1
    exact (Prod.mk.inj (Except.ok.inj h1)).2
  rw [hqq] at hb
  rw [dpPosterior_eq, dpPosterior_eq, hb]
  simp [eq_comm]

/-- **C83, Dirichlet process, violation.** So for every configured total mass other than one the
moves do not balance for the posterior of the configured model. -/
theorem c83_dirichlet_violated (E : Env G H Θ) (pred : H → ℕ → ℝ) {prior : DPPrior} {dp : DPState}
    (hdp : DPRun prior dp) (hmass : dp.totalmass ≠ 1) (nRestr : ℕ) (hk : E.kind ≠ .other) (n : ℕ)
    (s : Alg G H Θ) (hs : Consistent E.contrib n s) (hne : NoEmptyOn (Finset.range n) s)
    (i j : ℕ) (hi : i < n) (hj : j < n) (hij : i ≠ j) (z : MHNoise) (r : ℕ → ℕ)
    (m : Finset ℕ → ℝ) (hm : MargLik E (dpScores pred dp) s.hyp m)
    (L L' : Launch G H Θ) (rate : ℝ) (s' : Alg G H Θ)
    (hL : launch E (dpScores pred dp) nRestr s i j z = .ok L)
    (hA : logArate E (dpScores pred dp) s L i j r = .ok (true, L', rate))
    (hP : proposalUpdate E s L' i j true = .ok s') :
    ∃ q, Reverse E (dpScores pred dp) nRestr n i j z s s' L L' r rate q ∧
      dpPosterior dp.totalmass m s.alloc * Real.exp q * min 1 (Real.exp rate) ≠
        dpPosterior dp.totalmass m s'.alloc * min 1 (Real.exp (-rate)) := by
  obtain ⟨q, hrev, hb⟩ := c83_dirichlet_partial E pred hdp nRestr hk n s hs hne i j hi hj hij z r
    m hm L L' rate s' hL hA hP
  exact ⟨q, hrev, fun h => hmass ((hb _ hdp.pos.1).mp h)⟩

/-- **C83, Pitman-Yor process.** With accepted parameters, a split of a state with `K` clusters
balances with its reverse merge if and only if the discount is zero or `K = 2`: the code always
asks for the mass of a new cluster next to two. -/
theorem c83_pitman_yor_violated (E : Env G H Θ) (pred : H → ℕ → ℝ) {a b : ℝ} {py : PYState}
    (hpy : pyInit a b = .ok py) (nRestr : ℕ) (hk : E.kind ≠ .other) (n : ℕ)
    (s : Alg G H Θ) (hs : Consistent E.contrib n s) (hne : NoEmptyOn (Finset.range n) s)
    (i j : ℕ) (hi : i < n) (hj : j < n) (hij : i ≠ j) (z : MHNoise) (r : ℕ → ℕ)
    (m : Finset ℕ → ℝ) (hm : MargLik E (pyScores pred py) s.hyp m)
    (L L' : Launch G H Θ) (rate : ℝ) (s' : Alg G H Θ)
    (hL : launch E (pyScores pred py) nRestr s i j z = .ok L)
    (hA : logArate E (pyScores pred py) s L i j r = .ok (true, L', rate))
    (hP : proposalUpdate E s L' i j true = .ok s') :
    ∃ q, Reverse E (pyScores pred py) nRestr n i j z s s' L L' r rate q ∧
      (pyPosterior py m s.alloc * Real.exp q * min 1 (Real.exp rate) =
          pyPosterior py m s'.alloc * min 1 (Real.exp (-rate)) ↔
        b = 0 ∨ s.alloc.toFinset.card = 2) := by
  obtain ⟨rfl, h1, h2, h3⟩ := pyInit_ok hpy
  have hex : ∀ c : ℕ, 1 ≤ c → (pyScores pred ⟨a, b⟩).exist n 2 c = Real.log ((c : ℝ) - b) := by
    intro c hc
    have hc' : (1 : ℝ) ≤ c := by exact_mod_cast hc
    have : (c : ℝ) - b ≠ 0 := by linarith
    have hc0 : c ≠ 0 := by omega
    simp [pyScores, pyLogMassExisting, hc0, stdLog, this]
  have hpos : 0 < a + b * 2 := by linarith
  have hnew : (pyScores pred ⟨a, b⟩).fresh n 2 = Real.log (a + b * 2) := by
    simp [pyScores, pyLogMassNew, stdLog, hpos.ne']
  obtain ⟨q, hrev, hb⟩ := c83_balance_iff E (pyScores pred ⟨a, b⟩) nRestr hk n s hs hne
    i j hi hj hij z r ⟨a, b⟩ h1 h2 h3 hex (a + b * 2) hpos hnew m hm L L' rate s' hL hA hP
  refine ⟨q, hrev, hb.trans ?_⟩
  rw [labels_eq_range hs hne, Finset.card_range]
  simp only
  constructor
  · intro h
    have h4 : b * ((s.clus.length : ℝ) - 2) = 0 := by linarith
    rcases mul_eq_zero.mp h4 with h5 | h5
    · exact .inl h5
    · right
      have : (s.clus.length : ℝ) = 2 := by linarith
      exact_mod_cast this
  · rintro (h | h)
    · rw [h]; ring
    · rw [h]; push_cast; ring

/-- **C83, the proposal.** The number that the code accumulates in the final scan is the log
probability of the drawn labels under the Gibbs conditionals of the posterior restricted to the
launch rows: row number `k` joins temporary cluster `b` with probability proportional to
`(|A| - discount) * exp (m (A ∪ {x}) - m A)`, where `A` is that cluster without the row, made of
the rows already visited under their new labels and the others under their launch labels. -/
theorem c83_scan_probability (E : Env G H Θ) (S : Scores H) (nRestr : ℕ) (hk : E.kind ≠ .other)
    (n : ℕ) (s : Alg G H Θ) (hs : Consistent E.contrib n s) (i j : ℕ) (hi : i < n) (hj : j < n)
    (hij : i ≠ j) (z : MHNoise) (r : ℕ → ℕ) (σ : ℝ) (hσ : σ < 1)
    (hex : ∀ N c : ℕ, 1 ≤ c → S.exist N 2 c = Real.log (c - σ))
    (m : Finset ℕ → ℝ) (hm : MargLik E S s.hyp m) (L : Launch G H Θ)
    (hL : launch E S nRestr s i j z = .ok L) (lab : ℕ → Bool)
    (hlab : lab = fun k => decide (r k % 2 = 1)) (A : ℕ → Bool → Finset ℕ)
    (hA : A = fun k b => insert (if b then j else i)
      (((Finset.range L.rows.length).filter (fun t => t ≠ k ∧
        (if t < k then lab t else L.lab.getD t false) = b)).image (fun t => L.rows.getD t 0)))
    (W : ℕ → Bool → ℝ)
    (hW : W = fun k b => ((A k b).card - σ) *
      Real.exp (m (insert (L.rows.getD k 0) (A k b)) - m (A k b))) :
    ∃ L' q, restrictedGs E S s i true false r L = .ok (L', q) ∧
      Real.exp q = ∏ k ∈ Finset.range L.rows.length,
        W k (lab k) / (W k false + W k true) := by
  obtain ⟨o, ho⟩ := first_obj hs (by omega)
  have hr := scanRows_ok (n := n) (al := s.alloc) hij
  rw [launch_ok S hk hs hi hj hij ho nRestr z] at hL
  have hL := Except.ok.inj hL
  subst hL
  obtain ⟨c0, hc0⟩ : ∃ c0, c0 = launchLab nRestr z := ⟨_, rfl⟩
  rw [← hc0] at hA hW ⊢
  obtain ⟨rows, hrows⟩ : ∃ rows, rows = scanRows n s.alloc i j := ⟨_, rfl⟩
  rw [← hrows] at hr hA hW ⊢
  have hrw : (launchOf E s.hyp o.state i j rows c0).rows = rows := rfl
  have hlb : (launchOf E s.hyp o.state i j rows c0).lab = (List.range rows.length).map c0 := rfl
  rw [hrw, hlb] at hA
  rw [hrw] at hW
  refine ⟨_, _, restrictedGs_ok S hk hr c0 (by simp) true r, ?_⟩
  have hnl : newLab s.alloc i rows false r = lab := by funext k; simp [newLab, hlab]
  rw [if_pos rfl, hnl, hrw, transLog, Real.exp_sum]
  apply Finset.prod_congr rfl
  intro k hk'
  rw [Finset.mem_range] at hk'
  have hset : ∀ b, (side i j rows (mixLab c0 lab k) b).erase (rows.getD k 0) = A k b := by
    intro b
    rw [hA]
    ext x
    simp only [Finset.mem_erase, mem_side_iff, Finset.mem_insert, Finset.mem_image,
      Finset.mem_filter, Finset.mem_range]
    have hl : ∀ t < rows.length, ((List.range rows.length).map c0).getD t false = c0 t := by
      intro t ht; rw [List.getD_eq_getElem _ _ (by simpa using ht)]; simp
    constructor
    · rintro ⟨hne, e | ⟨t, ht, hc, e⟩⟩
      · exact .inl e
      · refine .inr ⟨t, ⟨ht, ?_, ?_⟩, e⟩
        · rintro rfl; exact hne e.symm
        · rw [hl t ht]; exact hc
    · rintro (e | ⟨t, ⟨ht, htk, hc⟩, e⟩)
      · exact ⟨by rw [e]; exact (row_notMem_root hr hk' b).symm, .inl e⟩
      · rw [hl t ht] at hc
        refine ⟨?_, .inr ⟨t, ht, hc, e⟩⟩
        rw [← e]; exact fun e' => htk (getD_inj hr.nodup ht hk' e')
  have hw : ∀ b, Real.exp (scanWeight E S s.hyp i j rows (mixLab c0 lab k) k b) = W k b := by
    intro b
    have hne : (A k b).Nonempty := ⟨_, by rw [hA]; exact Finset.mem_insert_self _ _⟩
    have hx : rows.getD k 0 ∉ A k b := by rw [← hset b]; exact Finset.notMem_erase _ _
    have hc : 1 ≤ (A k b).card := Finset.card_pos.mpr hne
    have hc' : (1 : ℝ) ≤ ((A k b).card : ℝ) := by exact_mod_cast hc
    rw [scanWeight, hset b, hex _ _ hc, predOn, Real.exp_add, Real.exp_log (by linarith), hW]
    simp only
    rw [hm.step _ _ hne hx, add_sub_cancel_left]
  have hpos : ∀ b, 0 < W k b := fun b => by rw [← hw b]; exact Real.exp_pos _
  rw [logProba, hw, hw, hw, Real.exp_log (div_pos (hpos _) (add_pos (hpos _) (hpos _)))]

/-- The hypotheses of the balance theorems are met for every labelling of the final scan: from any
consistent state in which `i` and `j` are together, the launch, the rate and the proposal exist. -/
theorem split_exists (E : Env G H Θ) (S : Scores H) (nRestr : ℕ) (hk : E.kind ≠ .other)
    (n : ℕ) (s : Alg G H Θ) (hs : Consistent E.contrib n s) (i j : ℕ) (hi : i < n) (hj : j < n)
    (hij : i ≠ j) (ht : together s.alloc i j) (z : MHNoise) (r : ℕ → ℕ) :
    ∃ L L' rate s', launch E S nRestr s i j z = .ok L ∧
      logArate E S s L i j r = .ok (true, L', rate) ∧ proposalUpdate E s L' i j true = .ok s' := by
  obtain ⟨o, ho⟩ := first_obj hs (by omega)
  have hr := scanRows_ok (n := n) (al := s.alloc) hij
  obtain ⟨c1, hc1⟩ : ∃ c1 : ℕ → Bool, c1 = fun k => decide (r k % 2 = 1) := ⟨_, rfl⟩
  have hA := logArate_split S hk hs hi hij ht ho (launchLab nRestr z) r
  rw [← hc1] at hA
  have hsub : side i j (scanRows n s.alloc i j) c1 false ⊆ clusterOf n s.alloc i := by
    have h1 : side i j (scanRows n s.alloc i j) c1 false ⊆
        clusterOf n s.alloc i ∪ clusterOf n s.alloc j := by
      rw [← scanRows_union hi hj, ← side_union i j _ c1]; exact Finset.subset_union_left
    have h2 : clusterOf n s.alloc j = clusterOf n s.alloc i := by
      unfold together at ht; simp [clusterOf, ht]
    rwa [h2, Finset.union_self] at h1
  obtain ⟨s', he, -⟩ := proposal_split hk hs hi hj ht
    (L := launchOf E s.hyp o.state i j (scanRows n s.alloc i j) c1) rfl
    (root_mem i j _ c1 false) (fun h =>
      Finset.disjoint_left.mp (side_disjoint hr c1) h (root_mem i j _ c1 true)) hsub
  exact ⟨_, _, _, s', launch_ok S hk hs hi hj hij ho nRestr z, hA, he⟩

/-! ### The normal / normal-inverse-gamma hierarchy has a marginal likelihood -/

open Bayesmix.Hierarchies in
/-- The NNIG hierarchy over the data `y`; its draws play no role here. -/
noncomputable def nnigEnv (y : ℕ → ℝ) (draw : NIG → ℕ → UniLS)
    (hyp : NIG → List (UniLS × ℤ) → ℕ → NIG) : Env (ℝ × ℝ) NIG UniLS where
  kind := .conjugate
  contrib := fun x => (y x, y x ^ 2)
  post := fun h c ss => nnigPosterior h c ⟨ss.1, ss.2⟩
  sample := draw
  otherDraw := fun θ _ _ _ _ _ => θ
  hyperUpdate := hyp

open Bayesmix.Hierarchies in
theorem nnig_post_pos (h : NIG) (hl : 0 < h.varScaling) (ha : 0 < h.shape) (hb : 0 < h.scale)
    (y : ℕ → ℝ) (A : Finset ℕ) :
    0 < (nnigPosterior h A.card ⟨∑ x ∈ A, y x, ∑ x ∈ A, y x ^ 2⟩).varScaling ∧
    0 < (nnigPosterior h A.card ⟨∑ x ∈ A, y x, ∑ x ∈ A, y x ^ 2⟩).shape ∧
    0 < (nnigPosterior h A.card ⟨∑ x ∈ A, y x, ∑ x ∈ A, y x ^ 2⟩).scale := by
  have e := nnig_batch_eq_foldl h hl (A.toList.map y)
  have h1 : (A.toList.map y).sum = ∑ x ∈ A, y x := Finset.sum_map_toList A y
  have h2 : ((A.toList.map y).map (· ^ 2)).sum = ∑ x ∈ A, y x ^ 2 := by
    rw [List.map_map]; exact Finset.sum_map_toList A (fun x => y x ^ 2)
  rw [h1, h2, List.length_map, Finset.length_toList] at e
  rw [e]
  exact foldl_nnig_pos _ h hl ha hb

open Bayesmix.Hierarchies in
/-- **C83, the likelihood part.** For the NNIG hierarchy with positive hyperparameters the sum of
the log predictive densities of the rows of a cluster does not depend on their order: there is a
log marginal likelihood, and it is the one of the model: for every value of the cluster parameters
the joint log density of rows and parameters is it plus the log posterior density. -/
theorem c83_nnig_marginal (y : ℕ → ℝ) (draw : NIG → ℕ → UniLS)
    (hyp : NIG → List (UniLS × ℤ) → ℕ → NIG) (exist : ℕ → ℕ → ℤ → ℝ) (fresh : ℕ → ℕ → ℝ)
    (h : NIG) (hl : 0 < h.varScaling) (ha : 0 < h.shape) (hb : 0 < h.scale) :
    ∃ m, MargLik (nnigEnv y draw hyp) ⟨fun h x => nnigMargLpdf h (y x), exist, fresh⟩ h m ∧
      ∀ (A : Finset ℕ) (st : UniLS), 0 < st.var →
        ∑ x ∈ A, uniNormLpdf st (y x) + nigLpdf h st =
          m A + nigLpdf (nnigPosterior h A.card ⟨∑ x ∈ A, y x, ∑ x ∈ A, y x ^ 2⟩) st := by
  have key : ∀ (A : Finset ℕ) x, x ∉ A → ∀ st : UniLS, 0 < st.var →
      uniNormLpdf st (y x) +
        nigLpdf (nnigPosterior h A.card ⟨∑ x ∈ A, y x, ∑ x ∈ A, y x ^ 2⟩) st =
      nnigMargLpdf (nnigPosterior h A.card ⟨∑ x ∈ A, y x, ∑ x ∈ A, y x ^ 2⟩) (y x) +
        nigLpdf (nnigPosterior h (insert x A).card
          ⟨∑ x ∈ insert x A, y x, ∑ x ∈ insert x A, y x ^ 2⟩) st := by
    intro A x hx st hv
    obtain ⟨p1, p2, p3⟩ := nnig_post_pos h hl ha hb y A
    rw [nnig_bayes _ p1 p2 p3 (y x) st hv]
    congr 2
    have := nnigPosterior_add h hl A.card ⟨∑ x ∈ A, y x, ∑ x ∈ A, y x ^ 2⟩
      (uniNormUpd uniNormZero (y x) true)
      (by intro h0; rw [Finset.card_eq_zero.mp h0]; simp [uniNormZero]) 1 (by simp)
    simp only [Nat.cast_one] at this
    rw [this, Finset.card_insert_of_notMem hx, Finset.sum_insert hx, Finset.sum_insert hx]
    simp only [uniNormUpd, uniNormZero, if_true, zero_add]
    push_cast
    congr 2
    · ring
    · ring
  let st0 : UniLS := ⟨0, 1⟩
  have hz : nnigPosterior h 0 ⟨0, 0⟩ = h := by simp [nnigPosterior]
  obtain ⟨m, hmdef⟩ : ∃ m : Finset ℕ → ℝ, m = fun A => ∑ x ∈ A, uniNormLpdf st0 (y x) +
      nigLpdf h st0 - nigLpdf (nnigPosterior h A.card ⟨∑ x ∈ A, y x, ∑ x ∈ A, y x ^ 2⟩) st0 :=
    ⟨_, rfl⟩
  have hstep : ∀ (A : Finset ℕ) x, x ∉ A → m (insert x A) = m A +
      nnigMargLpdf (nnigPosterior h A.card ⟨∑ x ∈ A, y x, ∑ x ∈ A, y x ^ 2⟩) (y x) := by
    intro A x hx
    have := key A x hx st0 one_pos
    simp only [hmdef]
    rw [Finset.sum_insert hx (f := fun x => uniNormLpdf st0 (y x))]
    linarith
  have hempty : m ∅ = 0 := by simp [hmdef, hz]
  refine ⟨m, ⟨fun x => ?_, fun A x _ hx => ?_⟩, ?_⟩
  · have := hstep ∅ x (by simp)
    simpa [hempty, hz] using this
  · rw [hstep A x hx]
    simp [nnigEnv, Prod.fst_sum, Prod.snd_sum]
  · intro A st hv
    induction A using Finset.induction_on with
    | empty => simp [hempty, hz]
    | insert x A hx ih =>
      have := key A x hx st hv
      rw [hstep A x hx, Finset.sum_insert hx (f := fun x => uniNormLpdf st (y x))]
      linarith

open Bayesmix.Hierarchies in
/-- The hypotheses of the balance theorems are met together: NNIG hierarchy, three rows in one
cluster, Dirichlet process with total mass 2. -/
example (y : ℕ → ℝ) (draw : NIG → ℕ → UniLS) (hyp : NIG → List (UniLS × ℤ) → ℕ → NIG)
    (z : MHNoise) (r : ℕ → ℕ) (zi : InitNoise) (o : Hier (ℝ × ℝ) NIG UniLS)
    (ho : o.saved = false) (θ0 : UniLS) :
    ∃ s m L L' rate s' q,
      initAlloc (nnigEnv y draw hyp) true 1 3 ⟨0, 1, 2, 1⟩ θ0 zi [o] = .ok s ∧
      MargLik (nnigEnv y draw hyp) (dpScores (fun h x => nnigMargLpdf h (y x)) ⟨2, 0⟩) s.hyp m ∧
      Reverse (nnigEnv y draw hyp) (dpScores (fun h x => nnigMargLpdf h (y x)) ⟨2, 0⟩) 5 3 0 1 z
        s s' L L' r rate q ∧
      dpPosterior 2 m s.alloc * Real.exp q * min 1 (Real.exp rate) ≠
        dpPosterior 2 m s'.alloc * min 1 (Real.exp (-rate)) := by
  obtain ⟨s, e, hs, hlen, hh, -⟩ := initAlloc_ok (E := nnigEnv y draw hyp) (upd := true) (K := 1)
    (n := 3) (h0 := ⟨0, 1, 2, 1⟩) (θ0 := θ0) zi (o := o) (by simp [CanSave, nnigEnv]) one_pos (by omega)
    (by simp [Hier.CacheOk, ho])
  obtain ⟨m, hm, -⟩ := c83_nnig_marginal y draw hyp
    (dpScores (fun h x => nnigMargLpdf h (y x)) ⟨2, 0⟩).exist
    (dpScores (fun h x => nnigMargLpdf h (y x)) ⟨2, 0⟩).fresh s.hyp (by rw [hh]; norm_num)
    (by rw [hh]; norm_num) (by rw [hh]; norm_num)
  have htog : together s.alloc 0 1 := by
    obtain ⟨a, ha, hal⟩ := hs.cons.on.labelled 0 (by simp)
    obtain ⟨b, hb, hbl⟩ := hs.cons.on.labelled 1 (by simp)
    have : a = b := by omega
    rw [together, ha, hb, this]
  have hk : (nnigEnv y draw hyp).kind ≠ .other := by simp [nnigEnv]
  obtain ⟨L, L', rate, s', hL, hA, hP⟩ := split_exists (nnigEnv y draw hyp)
    (dpScores (fun h x => nnigMargLpdf h (y x)) ⟨2, 0⟩) 5 hk 3 s hs.cons 0 1 (by omega) (by omega)
    (by omega) htog z r
  have hdp : DPRun (.fixed 2) ⟨2, 0⟩ := .init (by norm_num [dpInit, dpFresh])
  obtain ⟨q, h1, h2⟩ := c83_dirichlet_violated (nnigEnv y draw hyp)
    (fun h x => nnigMargLpdf h (y x)) hdp (by norm_num) 5 hk 3 s hs.cons hs.noEmpty 0 1 (by omega)
    (by omega) (by omega) z r m hm L L' rate s' hL hA hP
  exact ⟨s, m, L, L', rate, s', q, e, hm, h1, h2⟩

end Bayesmix.SplitMerge
