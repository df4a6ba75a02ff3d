import Verif.Algo.SemiHdpWeights
import Verif.Algo.SemiHdpRun
import Mathlib.Analysis.SpecialFunctions.Pow.Real
import Mathlib.Analysis.Complex.ExponentialBounds
import Mathlib.Tactic.FinCases

/-!
# Properties of the weights of the semi-HDP sampler

C88 (tables are weighted by their counts), C89 (the counts of shared values), C90 (the weight of a new
shared value), C91 (the counts after a group has moved), C92 (the weight and the restaurant
probabilities are drawn from their full conditionals).
-/

namespace Bayesmix.SemiHdp

variable {g : ℕ} {T D : Type}

/-! ## C88 -/

theorem logInt_ok {n : ℤ} (hn : 0 < n) : logInt n = .ok ⌊Real.log n⌋ := by
  unfold logInt
  rw [if_neg (by omega)]

theorem logCounts_ok (v : List ℤ) (hv : ∀ n ∈ v, 0 < n) :
    logCounts v = .ok (v.map fun n : ℤ => ⌊Real.log (n : ℝ)⌋) := by
  unfold logCounts
  induction v with
  | nil => rfl
  | cons a v ih =>
    rw [List.mapM_cons, logInt_ok (hv a (by simp)), ok_bind, ih fun n hn => hv n (by simp [hn])]
    rfl

theorem logCounts_zero (v : List ℤ) (h0 : (0 : ℤ) ∈ v) : logCounts v = .error .ub := by
  unfold logCounts
  induction v with
  | nil => simp at h0
  | cons a v ih =>
    rw [List.mapM_cons]
    by_cases ha : a ≤ 0
    · rw [show logInt a = .error .ub from by unfold logInt; rw [if_pos ha]]
      rfl
    · rw [logInt_ok (by omega), ok_bind, ih ?_]
      · rfl
      · rcases List.mem_cons.mp h0 with h | h
        · omega
        · exact h

/-- **C88, the part that holds.** If no table is empty, the weight of a table in the draw is at most
count times likelihood and more than that divided by `e`. -/
theorem c88_table_weight_partial (counts : List ℤ) (hc : ∀ n ∈ counts, 0 < n) (lik : List ℝ)
    (hl : lik.length = counts.length) :
    ∃ logN, logCounts counts = .ok logN ∧
      (tableLogProbas logN lik).length = counts.length ∧
      ∀ (k : ℕ) n x w, counts[k]? = some n → lik[k]? = some x →
        (tableLogProbas logN lik)[k]? = some w →
        Real.exp w ≤ n * Real.exp x ∧ n * Real.exp x < Real.exp 1 * Real.exp w := by
  refine ⟨_, logCounts_ok counts hc, by simp [tableLogProbas, hl], ?_⟩
  intro k n x w hn hx hw
  unfold tableLogProbas at hw
  rw [List.getElem?_zipWith, List.getElem?_map, hn, hx] at hw
  simp only [Option.map_some, Option.some.injEq] at hw
  subst hw
  have hn0 : 0 < n := hc n (List.mem_of_getElem? hn)
  have hnr : (0 : ℝ) < n := by exact_mod_cast hn0
  have hn' : (n : ℝ) = Real.exp (Real.log n) := (Real.exp_log hnr).symm
  constructor
  · rw [Real.exp_add]
    refine mul_le_mul_of_nonneg_right ?_ (Real.exp_pos x).le
    conv_rhs => rw [hn']
    exact Real.exp_le_exp.mpr (Int.floor_le _)
  · rw [Real.exp_add, ← mul_assoc, ← Real.exp_add]
    refine mul_lt_mul_of_pos_right ?_ (Real.exp_pos x)
    conv_lhs => rw [hn']
    refine Real.exp_lt_exp.mpr ?_
    have := Int.lt_floor_add_one (Real.log n)
    linarith

theorem floor_log_eq {n : ℕ} {k : ℤ} (hn : 0 < n) (h1 : Real.exp k ≤ n) (h2 : n < Real.exp (k + 1)) :
    ⌊Real.log n⌋ = k := by
  have hnr : (0 : ℝ) < n := by exact_mod_cast hn
  rw [Int.floor_eq_iff]
  exact ⟨(Real.le_log_iff_exp_le hnr).mpr h1, (Real.log_lt_iff_lt_exp hnr).mpr h2⟩

/-- **C88, violated.** The counts only enter through their truncated logarithms: for every count there
is a different one such that two tables with these counts and the same likelihood get the same weight
(1 and 2, for example). -/
theorem c88_table_weight_violated (n : ℕ) (hn : 0 < n) :
    ∃ m : ℕ, 0 < m ∧ m ≠ n ∧ ∀ x : ℝ, ∃ logN w, logCounts [(n : ℤ), (m : ℤ)] = .ok logN ∧
      tableLogProbas logN [x, x] = [w, w] := by
  suffices H : ∃ m : ℕ, 0 < m ∧ m ≠ n ∧ ⌊Real.log (m : ℝ)⌋ = ⌊Real.log (n : ℝ)⌋ by
    obtain ⟨m, hm, hne, hf⟩ := H
    refine ⟨m, hm, hne, fun x => ⟨_, (⌊Real.log (n : ℝ)⌋ : ℝ) + x, logCounts_ok _ ?_, ?_⟩⟩
    · intro a ha
      simp only [List.mem_cons, List.not_mem_nil, or_false] at ha
      omega
    · simp [tableLogProbas, hf]
  have hnr : (0 : ℝ) < n := by exact_mod_cast hn
  have hn1 : (1 : ℝ) ≤ n := by exact_mod_cast hn
  obtain ⟨k, hk⟩ : ∃ k, k = ⌊Real.log (n : ℝ)⌋ := ⟨_, rfl⟩
  have hk0 : 0 ≤ k := by
    rw [hk]
    exact Int.floor_nonneg.mpr (Real.log_nonneg hn1)
  have h1 : Real.exp k ≤ n := by
    rw [hk]
    exact (Real.le_log_iff_exp_le hnr).mp (Int.floor_le _)
  have h2 : (n : ℝ) < Real.exp (k + 1) := by
    rw [hk]
    exact (Real.log_lt_iff_lt_exp hnr).mp (Int.lt_floor_add_one _)
  by_cases h3 : ((n + 1 : ℕ) : ℝ) < Real.exp (k + 1)
  · refine ⟨n + 1, by omega, by omega, ?_⟩
    rw [← hk]
    exact floor_log_eq (by omega) (h1.trans (by push_cast; linarith)) h3
  · have he := Real.exp_one_gt_d9
    have he' := Real.exp_one_lt_d9
    have h4 : Real.exp (k + 1) = Real.exp k * Real.exp 1 := Real.exp_add _ _
    push_cast at h3
    rw [not_lt, h4] at h3
    have hk1 : (1 : ℝ) ≤ Real.exp k := Real.one_le_exp (by exact_mod_cast hk0)
    have hn2 : 1 < n := by
      have : (1 : ℝ) < n := by nlinarith
      exact_mod_cast this
    refine ⟨n - 1, by omega, by omega, ?_⟩
    rw [← hk]
    have hcast : ((n - 1 : ℕ) : ℝ) = n - 1 := by
      rw [Nat.cast_sub (by omega)]
      simp
    refine floor_log_eq (by omega) ?_ ?_
    · rw [hcast]
      rcases hk0.eq_or_lt with h0 | h0
      · rw [← h0]
        have : (2 : ℝ) ≤ n := by exact_mod_cast hn2
        simp
        linarith
      · have : Real.exp 1 ≤ Real.exp k := Real.exp_le_exp.mpr (by exact_mod_cast h0)
        nlinarith
    · rw [hcast]
      linarith

/-- **C88, violated** in the first step of every adaptation phase: after `initialize` no observation
sits at the tables with shared values, so `update_table_allocs` converts the logarithm of zero to
`int`, which is undefined behaviour. -/
theorem c88_first_step_violated (n : Fin g → ℕ) (hn : ∀ i, 5 ≤ n i) (sh : ℕ → T)
    (pr : Fin g → ℕ → T) (draw : Fin g → ℕ → ℕ) (link : Fin g → ℕ → ℕ) (linkNew : Fin g → ℕ → T)
    (r : Fin g) :
    ∃ s₀ s₁ u s₂ s₃ s₄, initState n sh pr draw = .ok s₀ ∧ updateUniqueVals s₀ = .ok (s₁, u) ∧
      updateToShared link linkNew s₁ = .ok s₂ ∧ countM s₂ = .ok s₃ ∧ countN s₃ = .ok s₄ ∧
      logCounts (s₄.nByTable r) = .error .ub := by
  obtain ⟨s₀, h0, hi⟩ := initState_ok n hn sh pr draw
  obtain ⟨rest, u, h1, hlen, -⟩ := updateUniqueVals_ok hi.wf
  have hw1 : Wf { s₀ with rest := rest } := fun r => (hi.wf r).congr (hlen r) rfl rfl rfl le_rfl (by
        intro i hi' a ha
        dsimp only
        rw [hlen]
        exact (hi.wf r).seats i hi' a ha)
  obtain ⟨s₂, h2, hR⟩ := updateToShared_ok hw1 link linkNew
  obtain ⟨c, h3, -⟩ := countM_len hR.wf
  refine ⟨s₀, _, u, s₂, _, _, h0, h1, h2, h3, countN_ok (wf_counts hR.wf s₂.nByTable c), ?_⟩
  refine logCounts_zero _ ?_
  dsimp only
  rw [List.mem_map]
  have hlen10 : (s₂.rest r).length = 10 := by
    rw [hR.rest]
    dsimp only
    rw [hlen]
    unfold initState at h0
    rw [if_neg (by push Not; exact hn)] at h0
    rw [← Except.ok.inj h0]
    simp
  refine ⟨5, by rw [List.mem_range, hlen10]; omega, ?_⟩
  refine List.sum_eq_zero fun x hx => ?_
  rw [List.mem_map] at hx
  obtain ⟨i, -, rfl⟩ := hx
  rw [Nat.cast_eq_zero, List.count_eq_zero]
  have hal : s₂.allocs i = s₀.allocs i := by rw [hR.allocs]
  rw [hal]
  unfold initState at h0
  rw [if_neg (by push Not; exact hn)] at h0
  rw [← Except.ok.inj h0]
  simp only [List.mem_map, List.mem_range, not_exists, not_and]
  intro j hj
  split
  · omega
  · have := Nat.mod_lt (draw i j) (y := 5) (by omega)
    omega

example : ∃ logN w, logCounts [1, 2] = .ok logN ∧ tableLogProbas logN [-3, -3] = [w, w] := by
  have h2 : ⌊Real.log ((2 : ℤ) : ℝ)⌋ = 0 := by
    have he := Real.exp_one_gt_d9
    have := floor_log_eq (n := 2) (k := 0) (by omega) (by simp) (by norm_num; linarith)
    simpa using this
  have h2' : ⌊Real.log (2 : ℝ)⌋ = 0 := by simpa using h2
  exact ⟨_, -3, logCounts_ok _ (by simp), by simp [tableLogProbas, h2']⟩

/-! ## C89 -/

/-- **C89, violated.** When an observation leaves a table linked to shared value `h`, the stored
logarithm of the number of tables of this value becomes that of its index: it is the same whatever the
number of tables is, and for `h = 0` the assignment is undefined behaviour. -/
theorem c89_log_m_violated (cnt logM : List ℤ) (h : ℕ) (hc : h < cnt.length) (hl : h < logM.length) :
    (h = 0 → leaveShared cnt logM h = .error .ub) ∧
    (0 < h → ∃ cnt', leaveShared cnt logM h = .ok (cnt', logM.set h ⌊Real.log (h : ℝ)⌋)) := by
  obtain ⟨cnt', h1, -⟩ := decr_ok (u := cnt) (a := (h : ℤ)) (by omega) (by omega)
  constructor
  · rintro rfl
    unfold leaveShared
    rw [h1, ok_bind]
    simp [logInt]
  · intro h0
    refine ⟨cnt', ?_⟩
    unfold leaveShared
    rw [h1, ok_bind, logInt_ok (by omega), ok_bind, iset_ok (by omega) (by omega)]
    simp

example : ∃ cnt', leaveShared [3, 4] [1, 1] 1 = .ok (cnt', [1, 0]) := by
  obtain ⟨cnt', h⟩ := (c89_log_m_violated [3, 4] [1, 1] 1 (by simp) (by simp)).2 (by omega)
  exact ⟨cnt', by simpa using h⟩

/-- **C89, violated.** An observation that moves from a table with a shared value to another existing
table changes `cnt_shared_tables` although no table is created, removed or relinked: if the count was
right before, it is wrong after. -/
theorem c89_cnt_violated (s s' : State g T) (d : SeatDraw T) (i : Fin g) (j : ℕ) (a h : ℕ)
    (ha : (s.allocs i)[j]? = some (a : ℤ))
    (hh : (s.toShared (s.restAllocs i))[a]? = some (h : ℤ)) (c : ℤ)
    (hc : s.cntShared[h]? = some c)
    (hold : c = ∑ r, ((s.toShared r).count (h : ℤ) : ℤ))
    (hd : d.table % ((s.rest (s.restAllocs i)).length + 1) < (s.rest (s.restAllocs i)).length)
    (hs : seatDatum d i s j = .ok s') :
    s'.toShared = s.toShared ∧ s'.rest = s.rest ∧
      ∃ c', s'.cntShared[h]? = some c' ∧ c' ≠ ∑ r, ((s'.toShared r).count (h : ℤ) : ℤ) := by
  have hdec : decr s.cntShared h = .ok (s.cntShared.set h (c - 1)) := by
    unfold decr
    rw [iget_ok (by omega) (by simpa using hc), ok_bind, iset_ok (by omega)
      (by have := (List.getElem?_eq_some_iff.mp hc).1; omega)]
    simp
  unfold seatDatum at hs
  dsimp only at hs
  rw [vget_ok ha, ok_bind] at hs
  cases hn : decr (s.nByTable (s.restAllocs i)) a with
  | error e => rw [hn] at hs; cases hs
  | ok n =>
    rw [hn, ok_bind, iget_ok (a := (h : ℤ)) (by omega) (by simpa using hh), ok_bind,
      show decrShared s.cntShared h = .ok (s.cntShared.set h (c - 1)) from by
        unfold decrShared; rw [if_pos (by omega), hdec], ok_bind] at hs
    split at hs
    · cases hs
    · rw [categorical_ok _ (by omega), ok_bind] at hs
      cases hv : vset (s.allocs i) j
          ((d.table % ((s.rest (s.restAllocs i)).length + 1) : ℕ) : ℤ) with
      | error e => rw [hv] at hs; cases hs
      | ok al =>
        rw [hv, ok_bind, if_pos hd] at hs
        simp only [Function.update_self] at hs
        cases hi : incr n ((d.table % ((s.rest (s.restAllocs i)).length + 1) : ℕ) : ℤ) with
        | error e => rw [hi] at hs; cases hs
        | ok n' =>
          rw [hi, ok_bind] at hs
          have := Except.ok.inj hs
          subst this
          refine ⟨rfl, rfl, c - 1, ?_, ?_⟩
          · simp [(List.getElem?_eq_some_iff.mp hc).1]
          · dsimp only
            omega

/-- One restaurant with a shared and a private table, two observations at the shared one. -/
def exShared : State 1 ℕ where
  rest := fun _ => [20, 10]
  priv := fun _ => [10]
  shared := [20]
  nByTable := fun _ => [2, 1]
  allocs := fun _ => [0, 0, 1]
  restAllocs := fun _ => 0
  isUsedRest := fun _ => true
  toShared := fun _ => [0, -1]
  toPrivate := fun _ => [-1, 0]
  cntShared := [1]

/-- The first observation moves to the private table; the count of the shared value drops to zero
although its table still has an observation. -/
example : ∃ s', seatDatum ⟨1, false, 0, 0⟩ 0 exShared 0 = .ok s' ∧ s'.cntShared = [0] ∧
    s'.allocs 0 = [1, 0, 1] ∧ s'.toShared 0 = [0, -1] := ⟨_, rfl, rfl, rfl, rfl⟩

/-! ## C90 -/

/-- **C90, violated.** In `update_to_shared` the weight of a new shared value is the total mass
whatever the data at the table are; it is not the total mass times the prior predictive density of the
data, unless that happens to be one. With the data as first argument of `prior_pred_lpdf_grid` it
would be. -/
theorem c90_violated (totalmass : ℝ) (hM : 0 < totalmass) (marg : D → ℝ) (data : List D) :
    Real.exp (relinkNew totalmass marg data) = totalmass ∧
      ((data.map marg).sum ≠ 0 →
        Real.exp (relinkNew totalmass marg data) ≠
          totalmass * (data.map fun x => Real.exp (marg x)).prod) ∧
      Real.exp (Real.log totalmass + (priorPredGrid marg data []).sum) =
        totalmass * (data.map fun x => Real.exp (marg x)).prod := by
  have h1 : Real.exp (relinkNew totalmass marg data) = totalmass := by
    unfold relinkNew priorPredGrid
    simp [Real.exp_log hM]
  have hprod : (data.map fun x => Real.exp (marg x)).prod = Real.exp (data.map marg).sum := by
    clear h1
    induction data with
    | nil => simp
    | cons a l ih => simp [Real.exp_add, ih]
  refine ⟨h1, fun hne heq => hne ?_, by
    rw [Real.exp_add, Real.exp_log hM, hprod, priorPredGrid]⟩
  rw [h1, hprod] at heq
  have : Real.exp (data.map marg).sum = 1 := by
    have := mul_left_cancel₀ hM.ne' (heq.symm.trans (mul_one totalmass).symm)
    exact this
  exact Real.exp_eq_one_iff _ |>.mp this

example : Real.exp (relinkNew 2 (fun x : ℝ => -x ^ 2) [1, 3]) ≠
    2 * ([1, 3].map fun x : ℝ => Real.exp (-x ^ 2)).prod :=
  (c90_violated 2 (by norm_num) (fun x : ℝ => -x ^ 2) [1, 3]).2.1 (by norm_num)

/-! ## C91 -/

/-- The counts of all restaurants are those of the observations at their tables. -/
def CountsRight (s : State g T) : Prop :=
  ∀ r, s.nByTable r = (List.range (s.rest r).length).map fun k : ℕ =>
    ∑ i, if s.restAllocs i = r then ((s.allocs i).count (k : ℤ) : ℤ) else 0

/-- **C91, violated.** Moving a group to another restaurant leaves `n_by_table` as it was: if the
counts were right before the move, those of the restaurant that the group has left are wrong after it
(and the groups that follow are reassigned with them). -/
theorem c91_stale_counts_violated (n : Fin g → ℕ) (s : State g T) (ps : Pseudo g T) (h : Inv n s)
    (hn : ∀ i, 0 < n i) (hps : ∀ r, ps.tables r ≠ [] ∧ (ps.counts r).length = (ps.tables r).length)
    (hlink : PLinked s) (hc : CountsRight s) (i new : Fin g) (hnew : new ≠ s.restAllocs i)
    (seat : ℕ → ℕ) :
    ∃ s', reassignGroup ps s i new seat = .ok s' ∧ ¬ CountsRight s' ∧
      s'.nByTable (s.restAllocs i) = s.nByTable (s.restAllocs i) := by
  obtain ⟨s', h1, hi', -⟩ := reassignGroup_ok h hlink hn hps i new hnew seat
  have hkeep : s'.nByTable (s.restAllocs i) = s.nByTable (s.restAllocs i) ∧
      s'.restAllocs = Function.update s.restAllocs i new := by
    have h2 := h1
    unfold reassignGroup at h2
    simp only [Function.update_of_ne hnew] at h2
    by_cases hu : s.isUsedRest new = true
    · simp only [hu, if_true] at h2
      cases hal : (List.range (s.allocs i).length).mapM fun j =>
          if (s.nByTable new).length < (s.rest new).length then (.error .ub : Except Fault ℤ)
          else do
            let a ← categorical (s.rest new).length (seat j)
            .ok (a : ℤ) with
      | error e => rw [hal] at h2; cases h2
      | ok al =>
        rw [hal, ok_bind] at h2
        have := Except.ok.inj h2
        subst this
        exact ⟨rfl, rfl⟩
    · have hu' : s.isUsedRest new = false := by simpa using hu
      simp only [hu', Bool.false_eq_true, if_false, Function.update_self] at h2
      cases hal : (List.range (s.allocs i).length).mapM fun j =>
          if (ps.counts new).length < (ps.tables new).length then (.error .ub : Except Fault ℤ)
          else do
            let a ← categorical (ps.tables new).length (seat j)
            .ok (a : ℤ) with
      | error e => rw [hal] at h2; cases h2
      | ok al =>
        rw [hal, ok_bind] at h2
        have := Except.ok.inj h2
        subst this
        exact ⟨Function.update_of_ne hnew.symm _ _, rfl⟩
  refine ⟨s', h1, fun hc' => ?_, hkeep.1⟩
  obtain ⟨r, hr⟩ : ∃ r, r = s.restAllocs i := ⟨_, rfl⟩
  rw [← hr] at hkeep hnew
  have e1 : (s.nByTable r).sum = ∑ k, if s.restAllocs k = r then (n k : ℤ) else 0 := by
    rw [hc r, sum_counts (h.wf r)]
    exact Finset.sum_congr rfl fun k _ => by rw [h.number]
  have e2 : (s'.nByTable r).sum = ∑ k, if s'.restAllocs k = r then (n k : ℤ) else 0 := by
    rw [hc' r, sum_counts (hi'.wf r)]
    exact Finset.sum_congr rfl fun k _ => by rw [hi'.number]
  rw [hkeep.1, e1, hkeep.2] at e2
  have hlt : ∑ k, (if Function.update s.restAllocs i new k = r then (n k : ℤ) else 0) <
      ∑ k, if s.restAllocs k = r then (n k : ℤ) else 0 := by
    refine Finset.sum_lt_sum (fun k _ => ?_) ⟨i, Finset.mem_univ i, ?_⟩
    · by_cases hk : k = i
      · subst hk
        rw [Function.update_self, if_neg hnew]
        split <;> omega
      · rw [Function.update_of_ne hk]
    · rw [Function.update_self, if_neg hnew, if_pos hr.symm]
      have := hn i
      omega
  omega

/-- The state after `initialize` meets the hypotheses, for two groups of five and a move of group 0 to
restaurant 1. -/
example : ∃ s : State 2 ℕ, Inv (fun _ => 5) s ∧ PLinked s ∧ CountsRight s ∧
    (1 : Fin 2) ≠ s.restAllocs 0 := by
  obtain ⟨s, hs, hi⟩ := initState_ok (g := 2) (fun _ => 5) (fun _ => le_rfl) (fun l => 50 + l)
    (fun r l => 10 * r + l) (fun _ _ => 0)
  refine ⟨s, hi, ?_, ?_, ?_⟩ <;> obtain rfl := Except.ok.inj hs
  · intro r l p hp hp0
    have hl := (List.getElem?_eq_some_iff.mp hp).1
    simp only [List.length_cons, List.length_nil] at hl
    interval_cases l <;> simp at hp <;> subst hp <;> first | rfl | omega
  · intro r
    fin_cases r <;> rfl
  · exact Fin.zero_ne_one.symm

/-- **C91, violated.** In the reassignment an empty table of the new restaurant gets a larger weight
than a table with one observation. -/
theorem c91_empty_table_violated :
    Real.exp (reassignLogN 1) = 1 ∧ 1 < Real.exp (reassignLogN 0) := by
  unfold reassignLogN
  constructor
  · simp
  · rw [if_neg (by omega)]
    exact Real.one_lt_exp_iff.mpr (by norm_num)

/-! ## C92 -/

theorem weight_rest (l : List ℤ) (c : ℕ × ℕ) :
    l.foldl (fun (c : ℕ × ℕ) p => (if 0 ≤ p then c.1 + 1 else c.1, c.2 + 1)) c =
      (c.1 + l.countP (fun p => 0 ≤ p), c.2 + l.length) := by
  induction l generalizing c with
  | nil => simp
  | cons p l ih =>
    rw [List.foldl_cons, ih, List.countP_cons, List.length_cons]
    by_cases hp : 0 ≤ p
    · simp only [hp, if_true, decide_true]
      ext <;> simp <;> omega
    · simp only [hp, if_false, decide_false, Bool.false_eq_true]
      ext <;> simp <;> omega

theorem weight_table (l : List ℤ) (w : ℝ) (hw : 0 < w) (hw1 : w < 1) (a b : ℝ) (cnt tot : ℕ) :
    w ^ (a + ((cnt + l.countP (fun p => 0 ≤ p) : ℕ) : ℝ) - 1) *
      (1 - w) ^ (b + ((tot + l.length : ℕ) : ℝ) - ((cnt + l.countP (fun p => 0 ≤ p) : ℕ) : ℝ) - 1) =
    w ^ (a + (cnt : ℝ) - 1) * (1 - w) ^ (b + (tot : ℝ) - (cnt : ℝ) - 1) *
      (l.map fun p => if 0 ≤ p then w else 1 - w).prod := by
  have hw' : 0 < 1 - w := by linarith
  induction l generalizing cnt tot with
  | nil => simp
  | cons p l ih =>
    rw [List.countP_cons, List.length_cons, List.map_cons, List.prod_cons]
    by_cases hp : 0 ≤ p
    · have := ih (cnt + 1) (tot + 1)
      simp only [hp, if_true, decide_true]
      rw [show cnt + (l.countP (fun p => 0 ≤ p) + 1) = cnt + 1 + l.countP (fun p => 0 ≤ p) by omega,
        show tot + (l.length + 1) = tot + 1 + l.length by omega, this]
      push_cast
      rw [show a + ((cnt : ℝ) + 1) - 1 = (a + cnt - 1) + 1 by ring, Real.rpow_add_one hw.ne',
        show b + ((tot : ℝ) + 1) - ((cnt : ℝ) + 1) - 1 = b + tot - cnt - 1 by ring]
      ring
    · have := ih cnt (tot + 1)
      simp only [hp, if_false, decide_false, Bool.false_eq_true, Nat.add_zero]
      rw [show tot + (l.length + 1) = tot + 1 + l.length by omega, this]
      push_cast
      rw [show b + ((tot : ℝ) + 1) - (cnt : ℝ) - 1 = (b + tot - cnt - 1) + 1 by ring,
        Real.rpow_add_one hw'.ne']
      ring

/-- **C92.** The semi-HDP weight is drawn from its full conditional: the kernel of the beta density
with the parameters that are used is the prior kernel times, for every table of every restaurant in
use, the probability `w` of a private value or `1 - w` of a shared one. -/
theorem c92_weight (s : State g T) (a b w : ℝ) (hw : 0 < w) (hw1 : w < 1) :
    w ^ ((weightParams a b s).1 - 1) * (1 - w) ^ ((weightParams a b s).2 - 1) =
      w ^ (a - 1) * (1 - w) ^ (b - 1) *
        ∏ r, if ∃ i, s.restAllocs i = r then
          ((s.toPrivate r).map fun p => if 0 ≤ p then w else 1 - w).prod else 1 := by
  have key : ∀ (l : List (Fin g)) (c : ℕ × ℕ),
      w ^ (a + ((l.foldl (fun c r =>
        if ∃ i, s.restAllocs i = r then
          (s.toPrivate r).foldl (fun c p => (if 0 ≤ p then c.1 + 1 else c.1, c.2 + 1)) c
        else c) c).1 : ℝ) - 1) *
      (1 - w) ^ (b + ((l.foldl (fun c r =>
        if ∃ i, s.restAllocs i = r then
          (s.toPrivate r).foldl (fun c p => (if 0 ≤ p then c.1 + 1 else c.1, c.2 + 1)) c
        else c) c).2 : ℝ) - ((l.foldl (fun c r =>
        if ∃ i, s.restAllocs i = r then
          (s.toPrivate r).foldl (fun c p => (if 0 ≤ p then c.1 + 1 else c.1, c.2 + 1)) c
        else c) c).1 : ℝ) - 1) =
      w ^ (a + (c.1 : ℝ) - 1) * (1 - w) ^ (b + (c.2 : ℝ) - (c.1 : ℝ) - 1) *
        (l.map fun r => if ∃ i, s.restAllocs i = r then
          ((s.toPrivate r).map fun p => if 0 ≤ p then w else 1 - w).prod else 1).prod := by
    intro l
    induction l with
    | nil => intro c; simp
    | cons r l ih =>
      intro c
      rw [List.foldl_cons, ih, List.map_cons, List.prod_cons, ← mul_assoc]
      congr 1
      by_cases hr : ∃ i, s.restAllocs i = r
      · rw [if_pos hr, if_pos hr, weight_rest]
        exact weight_table _ w hw hw1 a b c.1 c.2
      · rw [if_neg hr, if_neg hr, mul_one]
  have := key (List.finRange g) (0, 0)
  unfold weightParams weightCounts
  dsimp only
  rw [this]
  simp only [Nat.cast_zero, add_zero, sub_zero]
  rw [← List.prod_ofFn, List.ofFn_eq_map]

/-- **C92.** The restaurant probabilities are drawn from their full conditional: the kernel of the
Dirichlet density with the parameters that are used is the prior kernel times the probability of the
restaurant of every group. -/
theorem c92_dirichlet (s : State g T) (conc : ℝ) (ω : Fin g → ℝ) (hω : ∀ r, 0 < ω r) :
    ∏ r, ω r ^ (dirichletParams conc s r - 1) =
      (∏ r, ω r ^ (conc - 1)) * ∏ i, ω (s.restAllocs i) := by
  have key : ∀ (l : List (Fin g)) (c : Fin g → ℝ),
      ∏ r, ω r ^ ((l.foldl (fun c i =>
        Function.update c (s.restAllocs i) (c (s.restAllocs i) + 1)) c) r + conc - 1) =
      (∏ r, ω r ^ (c r + conc - 1)) * (l.map fun i => ω (s.restAllocs i)).prod := by
    intro l
    induction l with
    | nil => intro c; simp
    | cons i l ih =>
      intro c
      rw [List.foldl_cons, ih, List.map_cons, List.prod_cons, ← mul_assoc]
      congr 1
      have hmul : ∀ r, ω r ^ (Function.update c (s.restAllocs i) (c (s.restAllocs i) + 1) r + conc - 1)
          = ω r ^ (c r + conc - 1) * if r = s.restAllocs i then ω r else 1 := by
        intro r
        by_cases hr : r = s.restAllocs i
        · subst hr
          rw [Function.update_self, if_pos rfl,
            show c (s.restAllocs i) + 1 + conc - 1 = (c (s.restAllocs i) + conc - 1) + 1 by ring,
            Real.rpow_add_one (hω _).ne']
        · rw [Function.update_of_ne hr, if_neg hr, mul_one]
      rw [Finset.prod_congr rfl fun r _ => hmul r, Finset.prod_mul_distrib, Finset.prod_ite_eq']
      simp
  have := key (List.finRange g) (fun _ => 0)
  unfold dirichletParams
  simp only [Pi.add_apply]
  rw [this, ← List.ofFn_eq_map, List.prod_ofFn]
  simp

example : weightCounts exShared = (1, 2) := by decide

example : dirichletParams 3 exShared 0 = 4 := by
  have : dirichletParams 3 exShared = fun _ => 0 + 1 + 3 := by
    funext r
    fin_cases r
    simp [dirichletParams, exShared, List.finRange]
  rw [this]
  norm_num

end Bayesmix.SemiHdp
