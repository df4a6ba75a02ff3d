import Verif.Algo.SemiHdpInv
import Mathlib.Tactic.IntervalCases

/-! Runs of the semi-HDP sampler. -/

namespace Bayesmix.SemiHdp

variable {g : ℕ} {T : Type}

/-- No table and no shared value is unused, and the counts are right. -/
structure Tidy (s : State g T) : Prop where
  used : ∀ r, ∀ k : ℕ, k < (s.rest r).length → Used s r k
  sharedUsed : ∀ k : ℕ, k < s.shared.length → SharedUsed s k
  nByTable : ∀ r, s.nByTable r = (List.range (s.rest r).length).map fun k : ℕ =>
    ∑ i, if s.restAllocs i = r then ((s.allocs i).count (k : ℤ) : ℤ) else 0
  cntShared : s.cntShared = (List.range s.shared.length).map fun k : ℕ =>
    ∑ r, ((s.toShared r).count (k : ℤ) : ℤ)

theorem relabel_ok {s : State g T} (h : Wf s) (hne : ∀ i, s.allocs i ≠ []) :
    ∃ s', relabel s = .ok s' ∧ Wf s' ∧ SameSeats s s' ∧ Tidy s' := by
  obtain ⟨s₁, h1, hw1, hs1, -, -, hu1⟩ := relabelRests_ok (List.finRange g) h hne
  obtain ⟨used, s₂, h2, h3, hw2, hs2, hr2, ha2, hu2⟩ := relabelShared_ok hw1
  obtain ⟨N, hN⟩ : ∃ N : Fin g → List ℤ, N = fun r => (List.range (s₂.rest r).length).map
      fun k : ℕ => ((groupsOf s₂ r).map fun i => ((s₂.allocs i).count (k : ℤ) : ℤ)).sum := ⟨_, rfl⟩
  obtain ⟨C, hC⟩ : ∃ C : List ℤ, C = (List.range s₂.shared.length).map
      fun k : ℕ => ∑ r, ((s₂.toShared r).count (k : ℤ) : ℤ) := ⟨_, rfl⟩
  refine ⟨{ s₂ with nByTable := N, cntShared := C }, ?_, wf_counts hw2 _ _,
    (hs1.trans hs2).trans ⟨rfl, rfl, fun _ => rfl, fun _ _ => rfl,
    fun _ _ => rfl, fun _ _ => rfl⟩, ?_, hu2, ?_, hC⟩
  · unfold relabel
    rw [h1, ok_bind, h2, ok_bind, h3, ok_bind, countN_ok hw2, ok_bind,
      countM_ok (wf_counts hw2 _ s₂.cntShared), hN, hC]
  · intro r k hk
    dsimp only at hk
    rw [hr2] at hk
    obtain ⟨i, hi, hm⟩ := hu1 r (List.mem_finRange r) k hk
    refine ⟨i, ?_, ?_⟩
    · dsimp only
      rw [hs2.restAllocs]
      exact hi
    · dsimp only
      rw [ha2]
      exact hm
  · intro r
    dsimp only
    rw [hN]
    exact List.map_congr_left fun k _ => sum_groupsOf s₂ r _

theorem Seating.pobs {n : Fin g → ℕ} {s s' : State g T} (h : Seating n s s') :
    ∀ i j o, privateOf s' i j = some o → tableOf s' i j = some o := by
  intro i j o ho
  unfold privateOf at ho
  unfold tableOf
  rw [Option.bind_eq_some_iff] at ho
  obtain ⟨a, ha, ho⟩ := ho
  rw [Option.bind_eq_some_iff] at ho
  obtain ⟨p, hp, ho⟩ := ho
  split at ho
  · rename_i hp0
    rw [ha, Option.bind_some, h.link _ _ p hp hp0, ho]
  · simp at ho

/-- A step that begins in a state between steps ends in one; nothing goes wrong on the way. -/
theorem step_ok {n : Fin g → ℕ} {s : State g T} (h : Inv n s) (hn : ∀ i, 0 < n i) (adapt : Bool)
    (d : StepDraws g T) (hps : adapt = false → PseudoOk d.pseudo) :
    ∃ s', step adapt d s = .ok s' ∧ Inv n s' ∧ Tidy s' ∧
      ∀ i j o, privateOf s' i j = some o → tableOf s' i j = some o := by
  obtain ⟨rest, u, h1, hlen, hpl, -, -, -⟩ := updateUniqueVals_ok h.wf
  have hinv1 : Inv n { s with rest := rest } :=
    ⟨fun r => (h.wf r).congr (hlen r) rfl rfl rfl le_rfl (by
        intro i hi a ha
        dsimp only
        rw [hlen]
        exact (h.wf r).seats i hi a ha), h.number, h.usedRest,
      fun r => by dsimp only; rw [hlen]; exact h.counts r⟩
  obtain ⟨s₂, h2, hinv2, hp2⟩ : ∃ s₂, (if adapt then .ok { s with rest := rest }
      else updateRestAllocs d.pseudo d.choice d.seat { s with rest := rest }) = .ok s₂ ∧
      Inv n s₂ ∧ PLinked s₂ := by
    cases adapt with
    | true => exact ⟨_, rfl, hinv1, hpl⟩
    | false => exact updateRestAllocs_ok hinv1 hpl hn (hps rfl) _ _
  obtain ⟨s₃, h3, hR⟩ := updateToShared_ok hinv2.wf d.link d.linkNew
  obtain ⟨s₄, h4, hS⟩ := updateTableAllocs_ok (hR.inv hinv2) (hR.pLinked hp2) d.table
  obtain ⟨s₅, h5, hw, hss, ht⟩ := relabel_ok hS.wf (fun i hi => by
    have h0 := hS.number i
    have h1 := hn i
    rw [hi] at h0
    simp at h0
    omega)
  refine ⟨s₅, ?_, ⟨hw, ?_, ?_, ?_⟩, ht, ?_⟩
  · unfold step
    rw [h1, ok_bind]
    cases adapt with
    | true =>
      simp only [if_true] at h2
      simp only [if_true]
      rw [h2, ok_bind, h3, ok_bind, h4, ok_bind, h5]
    | false =>
      simp only [Bool.false_eq_true, if_false] at h2
      simp only [Bool.false_eq_true, if_false]
      rw [h2, ok_bind, h3, ok_bind, h4, ok_bind, h5]
  · intro i
    rw [hss.number, hS.number]
  · intro r
    rw [hss.isUsedRest, hS.isUsedRest, hss.restAllocs, hS.restAllocs]
    exact (hR.inv hinv2).usedRest r
  · intro r
    rw [ht.nByTable r]
    simp
  · intro i j o ho
    rw [hss.priv] at ho
    rw [hss.table]
    exact hS.pobs i j o ho

theorem initState_ok (n : Fin g → ℕ) (hn : ∀ i, 5 ≤ n i) (sh : ℕ → T) (pr : Fin g → ℕ → T)
    (draw : Fin g → ℕ → ℕ) : ∃ s, initState n sh pr draw = .ok s ∧ Inv n s := by
  unfold initState
  rw [if_neg (by push Not; exact hn)]
  refine ⟨_, rfl, ?_, fun i => by simp, fun r => by simp, fun r => by simp⟩
  intro r
  have key : ∀ (l : ℕ) p, ([0, 1, 2, 3, 4, -1, -1, -1, -1, -1] : List ℤ)[l]? = some p →
      (l < 5 ∧ p = l) ∨ (5 ≤ l ∧ p = -1) := by
    intro l p hp
    have hl := (List.getElem?_eq_some_iff.mp hp).1
    simp only [List.length_cons, List.length_nil] at hl
    interval_cases l <;> simp at hp <;> omega
  have key' : ∀ (l : ℕ) p, ([-1, -1, -1, -1, -1, 0, 1, 2, 3, 4] : List ℤ)[l]? = some p →
      (l < 5 ∧ p = -1) ∨ (5 ≤ l ∧ 0 ≤ p ∧ p < 5) := by
    intro l p hp
    have hl := (List.getElem?_eq_some_iff.mp hp).1
    simp only [List.length_cons, List.length_nil] at hl
    interval_cases l <;> simp at hp <;> omega
  refine ⟨by simp, by simp, ?_, ?_, ?_, ?_, ?_, ?_⟩
  · intro l p t hp ht
    rcases key l p hp with h1 | h1 <;> rcases key' l t ht with h2 | h2 <;> omega
  · intro l p hp
    simp only [List.length_map, List.length_range]
    rcases key l p hp with h1 | h1 <;> omega
  · intro l l' p hp hp' h0
    rcases key l p hp with h1 | h1 <;> rcases key l' p hp' with h2 | h2 <;> omega
  · intro k hk
    simp only [List.length_map, List.length_range] at hk
    refine ⟨k, ?_⟩
    dsimp only
    interval_cases k <;> rfl
  · intro l t ht
    simp only [List.length_map, List.length_range]
    rcases key' l t ht with h1 | h1 <;> omega
  · intro i hi a ha
    simp only [List.mem_map, List.mem_range] at ha
    obtain ⟨j, hj, rfl⟩ := ha
    simp only [List.length_append, List.length_map, List.length_range]
    split
    · omega
    · have := Nat.mod_lt (draw i j) (y := 5) (by omega)
      omega

theorem readRows_ok (rows : ℕ) : readRows rows 1 = .ok () := by
  unfold readRows
  refine forM_ok _ _ fun j hj => ?_
  simp only [List.mem_range, Nat.mul_one] at hj
  rw [if_pos hj]

theorem forM_error {α : Type} (l : List α) (f : α → Except Fault Unit) (e : Fault)
    (h : ∀ a ∈ l, f a = .ok () ∨ f a = .error e) {a : α} (ha : a ∈ l) (hfa : f a = .error e) :
    l.forM f = .error e := by
  induction l with
  | nil => simp at ha
  | cons b l ih =>
    show (f b >>= fun _ => l.forM f) = _
    rcases h b (by simp) with hb | hb
    · rw [hb, ok_bind]
      refine ih (fun c hc => h c (by simp [hc])) ?_
      rcases List.mem_cons.mp ha with rfl | ha
      · rw [hb] at hfa
        cases hfa
      · exact ha
    · rw [hb, error_bind]

theorem readRows_error {rows cols : ℕ} (hr : 0 < rows) (hc : 2 ≤ cols) :
    readRows rows cols = .error .assertFail := by
  unfold readRows
  refine forM_error _ _ _ (fun j _ => ?_) (a := rows) ?_ ?_
  · by_cases hj : j < rows
    · exact Or.inl (by rw [if_pos hj])
    · exact Or.inr (by rw [if_neg hj])
  · rw [List.mem_range]
    calc rows < rows * 2 := by omega
      _ ≤ rows * cols := Nat.mul_le_mul_left _ hc
  · rw [if_neg (by omega)]

/-! ### Collecting -/

/-- The states of a run: `traj k` is the state after `k` steps. -/
theorem collectLoop_ok {S : Type} (step : ℕ → S → Except Fault S) (iter thin : ℕ) (ht : thin ≠ 0)
    (traj : ℕ → S) (h : ∀ k, k < iter → step k (traj k) = .ok (traj (k + 1))) :
    collectLoop step iter thin (traj 0) =
      .ok (traj iter, if thin ∣ iter then (List.range iter).map (fun k => traj (k + 1)) else []) := by
  have key : ∀ m, m ≤ iter →
      (List.range m).foldlM (fun (p : S × List S) i => do
        let s ← step i p.1
        if thin = 0 then .error .ub
        else if iter % thin = 0 then .ok (s, p.2 ++ [s]) else .ok (s, p.2)) (traj 0, []) =
      (.ok (traj m, if thin ∣ iter then (List.range m).map (fun k => traj (k + 1)) else []) :
        Except Fault (S × List S)) := by
    intro m
    induction m with
    | zero => intro _; simp
    | succ m ih =>
      intro hm
      rw [List.range_succ, List.foldlM_append, ih (by omega), ok_bind, List.foldlM_cons]
      dsimp only
      rw [h m (by omega), ok_bind, if_neg ht]
      by_cases hd : thin ∣ iter
      · rw [if_pos (Nat.mod_eq_zero_of_dvd hd)]
        simp [hd]
      · rw [if_neg (fun h => hd (Nat.dvd_of_mod_eq_zero h))]
        simp [hd]
  exact key iter le_rfl

/-- An invariant gives a trajectory. -/
theorem exists_traj {S : Type} (step : ℕ → S → Except Fault S) (P Q : S → Prop)
    (h : ∀ k s, P s → ∃ s', step k s = .ok s' ∧ P s' ∧ Q s') (s : S) (hs : P s) :
    ∃ traj : ℕ → S, traj 0 = s ∧ (∀ k, step k (traj k) = .ok (traj (k + 1))) ∧
      (∀ k, P (traj k)) ∧ ∀ k, Q (traj (k + 1)) := by
  choose! f hf using h
  refine ⟨fun k => Nat.rec s (fun k s => f k s) k, rfl, ?_, ?_, ?_⟩
  all_goals
    have hP : ∀ k, P (Nat.rec s (fun k s => f k s) k) := by
      intro k
      induction k with
      | zero => exact hs
      | succ k ih => exact (hf k _ ih).2.1
  · intro k
    exact (hf k _ (hP k)).1
  · exact hP
  · intro k
    exact (hf k _ (hP k)).2.2

/-- The counts of a restaurant add up to the number of its observations. -/
theorem sum_counts {s : State g T} {r : Fin g} (hi : RestOk s r) :
    ((List.range (s.rest r).length).map fun k : ℕ =>
      ∑ i, if s.restAllocs i = r then ((s.allocs i).count (k : ℤ) : ℤ) else 0).sum =
      ∑ i, if s.restAllocs i = r then ((s.allocs i).length : ℤ) else 0 := by
  have hswap : ∀ m : ℕ, ((List.range m).map fun k : ℕ =>
      ∑ i, if s.restAllocs i = r then ((s.allocs i).count (k : ℤ) : ℤ) else 0).sum =
      ∑ i, if s.restAllocs i = r then
        ((List.range m).map fun k : ℕ => ((s.allocs i).count (k : ℤ) : ℤ)).sum else 0 := by
    intro m
    induction m with
    | zero => simp
    | succ m ih =>
      rw [List.range_succ, List.map_append, List.sum_append, ih, List.map_singleton,
        List.sum_singleton, ← Finset.sum_add_distrib]
      refine Finset.sum_congr rfl fun i _ => ?_
      split <;> simp
  rw [hswap]
  refine Finset.sum_congr rfl fun i _ => ?_
  split
  · rename_i hir
    have hseat := hi.seats i hir
    generalize s.allocs i = al at hseat
    generalize (s.rest r).length = m at hseat
    induction al with
    | nil => simp
    | cons a al ih =>
      have ha := hseat a (by simp)
      have hone : ((List.range m).map fun k : ℕ => ((if a = (k : ℤ) then 1 else 0 : ℕ) : ℤ)).sum
          = 1 := by
        obtain ⟨b, rfl⟩ := Int.eq_ofNat_of_zero_le ha.1
        have hb : b < m := by omega
        clear ih hseat ha
        induction m with
        | zero => omega
        | succ m ihm =>
          rw [List.range_succ, List.map_append, List.sum_append]
          by_cases hbm : b < m
          · rw [ihm hbm]
            simp
            omega
          · have : b = m := by omega
            subst this
            have h0 : ((List.range b).map fun k : ℕ =>
                ((if ((b : ℕ) : ℤ) = (k : ℤ) then 1 else 0 : ℕ) : ℤ)) =
                (List.range b).map fun _ => (0 : ℤ) := by
              refine List.map_congr_left fun k hk => ?_
              simp only [List.mem_range] at hk
              rw [if_neg (by omega)]
              rfl
            rw [h0]
            simp
      have := ih (fun b hb => hseat b (by simp [hb]))
      rw [List.length_cons, Nat.cast_succ, ← this, ← hone, ← List.sum_map_add]
      congr 1
      refine List.map_congr_left fun k _ => ?_
      rw [List.count_cons]
      simp only [beq_iff_eq]
      push_cast
      rfl
  · rfl

/-- What is guaranteed of a collected state. -/
structure Collected (n : Fin g → ℕ) (s : State g T) : Prop where
  inv : Inv n s
  tidy : Tidy s
  priv : ∀ i j o, privateOf s i j = some o → tableOf s i j = some o

theorem run_ok (rows cols : Fin g → ℕ) (hrows : ∀ i, 5 ≤ rows i) (hcols : ∀ i, cols i = 1)
    (sh : ℕ → T) (pr : Fin g → ℕ → T) (draw : Fin g → ℕ → ℕ) (draws : ℕ → StepDraws g T)
    (adaptIter burnin iter thin : ℕ) (hthin : thin ≠ 0)
    (hps : ∀ k, adaptIter ≤ k → PseudoOk (draws k).pseudo) :
    ∃ traj : ℕ → State g T,
      (∀ k, step false (draws (adaptIter + burnin + k)) (traj k) = .ok (traj (k + 1))) ∧
      (∀ k, Collected rows (traj (k + 1))) ∧
      run rows cols sh pr draw draws adaptIter burnin iter thin =
        .ok (traj iter,
          if thin ∣ iter then (List.range iter).map (fun k => traj (k + 1)) else []) := by
  have hn : (fun i => rows i * cols i) = rows := by
    funext i
    rw [hcols, Nat.mul_one]
  have hpos : ∀ i, 0 < rows i := fun i => by have := hrows i; omega
  obtain ⟨s₀, h0, hi0⟩ := initState_ok rows hrows sh pr draw
  obtain ⟨rest, u, h1, hlen, -⟩ := updateUniqueVals_ok hi0.wf
  have hi1 : Inv rows { s₀ with rest := rest } :=
    ⟨fun r => (hi0.wf r).congr (hlen r) rfl rfl rfl le_rfl (by
        intro i hi a ha
        dsimp only
        rw [hlen]
        exact (hi0.wf r).seats i hi a ha), hi0.number, hi0.usedRest,
      fun r => by dsimp only; rw [hlen]; exact hi0.counts r⟩
  obtain ⟨s₂, h2, hi2⟩ := foldlM_range_inv (fun s k => step true (draws k) s)
    (fun _ s => Inv rows s) adaptIter (fun k s _ hs => by
      obtain ⟨s', e, hi, -⟩ := step_ok hs hpos true (draws k) (by simp)
      exact ⟨s', e, hi⟩) { s₀ with rest := rest } hi1
  obtain ⟨s₃, h3, hi3⟩ := foldlM_range_inv (fun s k => step false (draws (adaptIter + k)) s)
    (fun _ s => Inv rows s) burnin (fun k s _ hs => by
      obtain ⟨s', e, hi, -⟩ := step_ok hs hpos false (draws (adaptIter + k))
        (fun _ => hps _ (by omega))
      exact ⟨s', e, hi⟩) s₂ hi2
  obtain ⟨traj, t0, t1, t2, t3⟩ := exists_traj
    (fun k s => step false (draws (adaptIter + burnin + k)) s) (Inv rows) (Collected rows)
    (fun k s hs => by
      obtain ⟨s', e, hi, ht, hp⟩ := step_ok hs hpos false (draws (adaptIter + burnin + k))
        (fun _ => hps _ (by omega))
      exact ⟨s', e, hi, hi, ht, hp⟩) s₃ hi3
  refine ⟨traj, t1, t3, ?_⟩
  unfold run
  rw [hn, h0, ok_bind, forM_ok _ _ (fun i _ => by rw [hcols]; exact readRows_ok _), ok_bind, h1,
    ok_bind, h2, ok_bind, h3, ok_bind, ← t0]
  exact collectLoop_ok _ iter thin hthin traj fun k _ => t1 k

end Bayesmix.SemiHdp
