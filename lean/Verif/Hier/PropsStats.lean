import Verif.Hier.StatsLemmas

/-! # Properties of membership and summary statistics (C34, C44) -/

namespace Bayesmix.Hierarchies

open Real

variable {D S P : Type}

/-- An arbitrary state for the examples. -/
noncomputable def exCluster {S : Type} (s : S) : Cluster S Unit := ⟨7, 0, {4, 5}, s, ()⟩

/-! ### C34 -/

/-- **C34, members.** After any sequence of calls that did not fail an assertion on a cleared
object, the stored indexes are exactly those inserted once more than removed, and no index was
inserted more than once more than it was removed. -/
theorem c34_members (upd : S → D → Bool → S) (data : ℤ → D) (zero : S) (c0 c : Cluster S P)
    (ops : List DataOp) (hrun : runOps upd data (clearAll zero c0) ops = .ok c) (id : ℤ) :
    ops.count (.add id) = ops.count (.remove id) + (if id ∈ c.idx then 1 else 0) := by
  have key : ∀ (ops : List DataOp) (c1 c2 : Cluster S P), runOps upd data c1 ops = .ok c2 →
      (if id ∈ c1.idx then 1 else 0) + ops.count (.add id) =
        ops.count (.remove id) + (if id ∈ c2.idx then 1 else 0) := by
    intro ops
    induction ops with
    | nil => intro c1 c2 h; cases h; simp
    | cons op ops ih =>
      intro c1 c2 h
      rw [runOps_cons] at h
      cases op with
      | add k =>
        cases h1 : addDatum upd c1 k (data k) with
        | error e => simp only [runOp, h1, error_bind] at h; cases h
        | ok c3 =>
          simp only [runOp, h1, ok_bind] at h
          have := ih c3 c2 h
          obtain ⟨hk, rfl⟩ := addDatum_ok h1
          by_cases hki : k = id
          · subst hki
            simp only [Finset.mem_insert, true_or, if_true, hk, if_false,
              List.count_cons_self] at this ⊢
            rw [List.count_cons_of_ne (by simp)]
            omega
          · have hne : ¬ (id = k) := fun h => hki h.symm
            simp only [Finset.mem_insert, hne, false_or] at this
            rw [List.count_cons_of_ne (by simpa using hki), List.count_cons_of_ne (by simp)]
            exact this
      | remove k =>
        cases h1 : removeDatum upd c1 k (data k) with
        | error e => simp only [runOp, h1, error_bind] at h; cases h
        | ok c3 =>
          simp only [runOp, h1, ok_bind] at h
          have := ih c3 c2 h
          obtain ⟨hk, rfl⟩ := removeDatum_ok h1
          by_cases hki : k = id
          · subst hki
            simp only [Finset.mem_erase, ne_eq, not_true_eq_false, false_and, if_false, hk,
              if_true, List.count_cons_self] at this ⊢
            rw [List.count_cons_of_ne (by simp)]
            omega
          · have hne : id ≠ k := fun h => hki h.symm
            simp only [Finset.mem_erase, hne, ne_eq, not_false_eq_true, true_and] at this
            rw [List.count_cons_of_ne (by simp), List.count_cons_of_ne (by simpa using hki)]
            exact this
  have := key ops _ c hrun
  simpa [clearAll] using this

/-- **C34, legality.** On a cleared object a sequence of calls fails no assertion exactly when
every insertion is of an index currently out and every removal of an index currently in. -/
theorem c34_legal_iff (upd : S → D → Bool → S) (data : ℤ → D) (zero : S) (c0 : Cluster S P)
    (ops : List DataOp) :
    (∃ c, runOps upd data (clearAll zero c0) ops = .ok c) ↔
      ∀ p q id,
        (ops = p ++ .add id :: q → p.count (.add id) = p.count (.remove id)) ∧
        (ops = p ++ .remove id :: q → p.count (.add id) = p.count (.remove id) + 1) := by
  have happ : ∀ (p q : List DataOp) (c : Cluster S P), runOps upd data c (p ++ q) =
      runOps upd data c p >>= fun c' => runOps upd data c' q := by
    intro p q c
    unfold runOps
    rw [List.foldlM_append]
  constructor
  · rintro ⟨c, hc⟩ p q id
    constructor
    · rintro rfl
      rw [happ] at hc
      cases h1 : runOps upd data (clearAll zero c0) p with
      | error e => rw [h1, error_bind] at hc; cases hc
      | ok c1 =>
        rw [h1, ok_bind, runOps_cons] at hc
        have hm := c34_members upd data zero c0 c1 p h1 id
        by_cases hi : id ∈ c1.idx
        · simp only [runOp, addDatum, if_pos hi, error_bind] at hc
          cases hc
        · simpa [hi] using hm
    · rintro rfl
      rw [happ] at hc
      cases h1 : runOps upd data (clearAll zero c0) p with
      | error e => rw [h1, error_bind] at hc; cases hc
      | ok c1 =>
        rw [h1, ok_bind, runOps_cons] at hc
        have hm := c34_members upd data zero c0 c1 p h1 id
        by_cases hi : id ∈ c1.idx
        · simpa [hi] using hm
        · simp only [runOp, removeDatum, if_neg hi, error_bind] at hc
          cases hc
  · intro h
    have key : ∀ n, n ≤ ops.length →
        ∃ c, runOps upd data (clearAll zero c0) (ops.take n) = .ok c := by
      intro n
      induction n with
      | zero => intro _; exact ⟨_, rfl⟩
      | succ n ih =>
        intro hn
        obtain ⟨c, hc⟩ := ih (by omega)
        have hlt : n < ops.length := by omega
        have hsplit : ops = ops.take n ++ ops[n] :: ops.drop (n + 1) := by
          rw [List.getElem_cons_drop, List.take_append_drop]
        rw [← List.take_append_getElem hlt, happ, hc, ok_bind, runOps_cons]
        have hm := fun id => c34_members upd data zero c0 c (ops.take n) hc id
        cases hop : ops[n] with
        | add id =>
          rw [hop] at hsplit
          have := (h _ _ id).1 hsplit
          have hi : id ∉ c.idx := by
            intro hi
            have := hm id
            rw [if_pos hi] at this
            omega
          exact ⟨_, by simp only [runOp, addDatum_of_notMem _ _ _ _ hi, ok_bind]; rfl⟩
        | remove id =>
          rw [hop] at hsplit
          have := (h _ _ id).2 hsplit
          have hi : id ∈ c.idx := by
            by_contra hi
            have := hm id
            rw [if_neg hi] at this
            omega
          exact ⟨_, by simp only [runOp, removeDatum_of_mem _ _ _ _ hi, ok_bind]; rfl⟩
    obtain ⟨c, hc⟩ := key ops.length (le_refl _)
    rw [List.take_length] at hc
    exact ⟨c, hc⟩

/-- A legal sequence, used in the examples: rows 3 and 5 in, row 3 out, row 9 in. -/
def exOps : List DataOp := [.add 3, .add 5, .remove 3, .add 9]

theorem exOps_run (upd : S → D → Bool → S) (data : ℤ → D) (zero : S) (c0 : Cluster S P) :
    ∃ c, runOps upd data (clearAll zero c0) exOps = .ok c ∧ c.idx = {5, 9} := by
  simp only [exOps, runOps_cons, runOp, addDatum, removeDatum, clearAll]
  simp only [Finset.notMem_empty, if_false, ok_bind]
  simp
  refine ⟨_, rfl, ?_⟩
  show insert (9 : ℤ) (({5, 3} : Finset ℤ).erase 3) = {5, 9}
  decide

example : ∃ c, runOps uniNormUpd (fun i => (i : ℝ)) (clearAll uniNormZero (exCluster ⟨1, 2⟩))
    exOps = .ok c ∧ exOps.count (.add 9) = exOps.count (.remove 9) + 1 := by
  obtain ⟨c, hc, hi⟩ := exOps_run uniNormUpd (fun i => (i : ℝ)) uniNormZero (exCluster ⟨1, 2⟩)
  have := c34_members uniNormUpd _ _ _ c exOps hc 9
  rw [hi] at this
  exact ⟨c, hc, by simpa using this⟩

example : ∃ c, runOps uniNormUpd (fun i => (i : ℝ)) (clearAll uniNormZero (exCluster ⟨1, 2⟩))
    [.add 3, .remove 3, .add 3] = .ok c := by
  rw [c34_legal_iff]
  intro p q id
  constructor
  · intro h
    rcases p with _ | ⟨a, _ | ⟨b, _ | ⟨e, p⟩⟩⟩
    · rfl
    · simp at h
    · simp at h
      obtain ⟨rfl, rfl, rfl, -⟩ := h
      decide
    · simp at h
  · intro h
    rcases p with _ | ⟨a, _ | ⟨b, _ | ⟨e, p⟩⟩⟩
    · simp at h
    · simp at h
      obtain ⟨rfl, rfl, -⟩ := h
      decide
    · simp at h
    · simp at h

/-- **C34, cardinality.** Cardinality and its logarithm are those of the index set, and the
parameters are untouched. -/
theorem c34_cardinality (upd : S → D → Bool → S) (data : ℤ → D) (zero : S) (c0 c : Cluster S P)
    (ops : List DataOp) (hrun : runOps upd data (clearAll zero c0) ops = .ok c) :
    c.card = c.idx.card ∧
    (c.idx = ∅ → c.logCard = ⊥) ∧
    (c.idx ≠ ∅ → c.logCard = ((Real.log c.idx.card : ℝ) : EReal)) ∧
    c.state = c0.state := by
  obtain ⟨h1, h2, h3⟩ := runOps_card upd data zero c0 c ops hrun
  refine ⟨h1, ?_, ?_, h3⟩
  · intro h; rw [h2, h]; simp [logCardOf]
  · intro h
    rw [h2]
    have : (c.idx.card : ℤ) ≠ 0 := by
      simpa using h
    unfold logCardOf
    rw [if_neg this]
    simp

example : ∃ c, runOps uniNormUpd (fun i => (i : ℝ)) (clearAll uniNormZero (exCluster ⟨1, 2⟩))
    exOps = .ok c ∧ c.card = 2 := by
  obtain ⟨c, hc, hi⟩ := exOps_run uniNormUpd (fun i => (i : ℝ)) uniNormZero (exCluster ⟨1, 2⟩)
  exact ⟨c, hc, by rw [(c34_cardinality _ _ _ _ c exOps hc).1, hi]; decide⟩

/-- **C34, univariate Normal.** The stored statistics are the sum and the sum of squares of
the current members. -/
theorem c34_uni_norm (data : ℤ → ℝ) (c0 c : Cluster UniNormStats P) (ops : List DataOp)
    (hrun : runOps uniNormUpd data (clearAll uniNormZero c0) ops = .ok c) :
    c.stats.dataSum = ∑ i ∈ c.idx, data i ∧
    c.stats.dataSumSquares = ∑ i ∈ c.idx, data i ^ 2 := by
  constructor
  · exact runOps_stat uniNormUpd data (fun s => s.dataSum) (fun y => y) uniNormZero rfl
      (fun s y => rfl) (fun s y => rfl) c0 c ops hrun
  · have := runOps_stat uniNormUpd data (fun s => s.dataSumSquares) (fun y => y * y) uniNormZero
      rfl (fun s y => rfl) (fun s y => rfl) c0 c ops hrun
    simpa only [sq] using this

example : ∃ c, runOps uniNormUpd (fun i => (i : ℝ)) (clearAll uniNormZero (exCluster ⟨1, 2⟩))
    exOps = .ok c ∧ c.stats.dataSum = 14 ∧ c.stats.dataSumSquares = 106 := by
  obtain ⟨c, hc, hi⟩ := exOps_run uniNormUpd (fun i => (i : ℝ)) uniNormZero (exCluster ⟨1, 2⟩)
  obtain ⟨h1, h2⟩ := c34_uni_norm (fun i => (i : ℝ)) _ c exOps hc
  rw [hi] at h1 h2
  refine ⟨c, hc, ?_, ?_⟩
  · rw [h1]; norm_num
  · rw [h2]; norm_num

/-- **C34, multivariate Normal.** -/
theorem c34_multi_norm {d : ℕ} (data : ℤ → Fin d → ℝ) (c0 c : Cluster (MultiNormStats d) P)
    (ops : List DataOp)
    (hrun : runOps multiNormUpd data (clearAll (multiNormZero d) c0) ops = .ok c) :
    (∀ j, c.stats.dataSum j = ∑ i ∈ c.idx, data i j) ∧
    (∀ j k, c.stats.dataSumSquares j k = ∑ i ∈ c.idx, data i j * data i k) := by
  constructor
  · intro j
    exact runOps_stat multiNormUpd data (fun s => s.dataSum j) (fun y => y j) (multiNormZero d)
      rfl (fun s y => rfl) (fun s y => rfl) c0 c ops hrun
  · intro j k
    exact runOps_stat multiNormUpd data (fun s => s.dataSumSquares j k) (fun y => y j * y k)
      (multiNormZero d) rfl (fun s y => rfl) (fun s y => rfl) c0 c ops hrun

example : ∃ c, runOps multiNormUpd (fun i => ![(i : ℝ), 1])
    (clearAll (multiNormZero 2) (exCluster ⟨1, 2⟩)) exOps = .ok c ∧
    c.stats.dataSumSquares 0 1 = 14 := by
  obtain ⟨c, hc, hi⟩ := exOps_run multiNormUpd (fun i => ![(i : ℝ), 1]) (multiNormZero 2)
    (exCluster ⟨1, 2⟩)
  have := (c34_multi_norm _ _ c exOps hc).2 0 1
  rw [hi] at this
  exact ⟨c, hc, by rw [this]; norm_num⟩

/-- **C34, linear regression.** -/
theorem c34_lin_reg {d : ℕ} (data : ℤ → ℝ × (Fin d → ℝ)) (c0 c : Cluster (LinRegStats d) P)
    (ops : List DataOp)
    (hrun : runOps linRegUpd data (clearAll (linRegZero d) c0) ops = .ok c) :
    c.stats.dataSumSquares = ∑ i ∈ c.idx, (data i).1 ^ 2 ∧
    (∀ j k, c.stats.covarSumSquares j k = ∑ i ∈ c.idx, (data i).2 j * (data i).2 k) ∧
    (∀ j, c.stats.mixedProd j = ∑ i ∈ c.idx, (data i).1 * (data i).2 j) := by
  refine ⟨?_, ?_, ?_⟩
  · have := runOps_stat linRegUpd data (fun s => s.dataSumSquares) (fun y => y.1 * y.1)
      (linRegZero d) rfl (fun s y => rfl) (fun s y => rfl) c0 c ops hrun
    simpa only [sq] using this
  · intro j k
    exact runOps_stat linRegUpd data (fun s => s.covarSumSquares j k) (fun y => y.2 j * y.2 k)
      (linRegZero d) rfl (fun s y => rfl) (fun s y => rfl) c0 c ops hrun
  · intro j
    exact runOps_stat linRegUpd data (fun s => s.mixedProd j) (fun y => y.1 * y.2 j)
      (linRegZero d) rfl (fun s y => rfl) (fun s y => rfl) c0 c ops hrun

example : ∃ c, runOps linRegUpd (fun i => ((i : ℝ), ![(2 : ℝ)]))
    (clearAll (linRegZero 1) (exCluster ⟨1, 2, 3⟩)) exOps = .ok c ∧
    c.stats.mixedProd 0 = 28 := by
  obtain ⟨c, hc, hi⟩ := exOps_run linRegUpd (fun i => ((i : ℝ), ![(2 : ℝ)])) (linRegZero 1)
    (exCluster ⟨1, 2, 3⟩)
  have := (c34_lin_reg _ _ c exOps hc).2.2 0
  rw [hi] at this
  exact ⟨c, hc, by rw [this]; norm_num⟩

/-- **C34, factor analyzers.** -/
theorem c34_fa {d : ℕ} (data : ℤ → Fin d → ℝ) (c0 c : Cluster (Fin d → ℝ) P)
    (ops : List DataOp) (hrun : runOps faUpd data (clearAll (faZero d) c0) ops = .ok c) (j : Fin d) :
    c.stats j = ∑ i ∈ c.idx, data i j :=
  runOps_stat faUpd data (fun s => s j) (fun y => y j) (faZero d)
    rfl (fun s y => rfl) (fun s y => rfl) c0 c ops hrun

example : ∃ c, runOps faUpd (fun i => ![(i : ℝ)]) (clearAll (faZero 1) (exCluster ![3])) exOps =
    .ok c ∧ c.stats 0 = 14 := by
  obtain ⟨c, hc, hi⟩ := exOps_run faUpd (fun i => ![(i : ℝ)]) (faZero 1) (exCluster ![3])
  have := c34_fa _ _ c exOps hc 0
  rw [hi] at this
  exact ⟨c, hc, by rw [this]; norm_num⟩

/-- **C34, Gamma example.** The separately kept number of data agrees with the index set. -/
theorem c34_gamma (data : ℤ → ℝ) (c0 c : Cluster GammaStats P) (ops : List DataOp)
    (hrun : runOps gammaUpd data (clearAll gammaZero c0) ops = .ok c) :
    c.stats.dataSum = ∑ i ∈ c.idx, data i ∧ c.stats.ndata = c.idx.card := by
  constructor
  · exact runOps_stat gammaUpd data (fun s => s.dataSum) (fun y => y) gammaZero rfl
      (fun s y => rfl) (fun s y => rfl) c0 c ops hrun
  · have := runOps_stat gammaUpd data (fun s => s.ndata) (fun _ => 1) gammaZero rfl
      (fun s y => rfl) (fun s y => rfl) c0 c ops hrun
    rw [this]
    simp

example : ∃ c, runOps gammaUpd (fun i => (i : ℝ)) (clearAll gammaZero (exCluster ⟨1, 2⟩)) exOps =
    .ok c ∧ c.stats.ndata = 2 := by
  obtain ⟨c, hc, hi⟩ := exOps_run gammaUpd (fun i => (i : ℝ)) gammaZero (exCluster ⟨1, 2⟩)
  have := (c34_gamma _ _ c exOps hc).2
  rw [hi] at this
  exact ⟨c, hc, by rw [this]; decide⟩

/-- Inserting a row and then removing it restores cardinality, indexes, statistics and
parameters. -/
def InsertThenRemoveIsIdentity (upd : S → D → Bool → S) : Prop :=
  ∀ (c c1 : Cluster S Unit) (id : ℤ) (y : D), addDatum upd c id y = .ok c1 →
    ∃ c2, removeDatum upd c1 id y = .ok c2 ∧ c2.card = c.card ∧ c2.idx = c.idx ∧
      c2.stats = c.stats ∧ c2.state = c.state

private theorem undo_of (upd : S → D → Bool → S) (h : ∀ s y, upd (upd s y true) y false = s) :
    InsertThenRemoveIsIdentity upd := by
  intro c c1 id y hc
  obtain ⟨hid, rfl⟩ := addDatum_ok hc
  refine ⟨⟨c.card, logCardOf (c.card + 1 - 1), c.idx, c.stats, c.state⟩, ?_, rfl, rfl, rfl, rfl⟩
  simp [removeDatum, Finset.erase_insert hid, h]

/-- **C34, undo.** For every likelihood. -/
theorem c34_insert_remove_identity (d : ℕ) :
    InsertThenRemoveIsIdentity uniNormUpd ∧ InsertThenRemoveIsIdentity laplaceUpd ∧
    InsertThenRemoveIsIdentity (multiNormUpd (d := d)) ∧
    InsertThenRemoveIsIdentity (linRegUpd (d := d)) ∧
    InsertThenRemoveIsIdentity (faUpd (d := d)) ∧ InsertThenRemoveIsIdentity gammaUpd := by
  refine ⟨undo_of _ ?_, undo_of _ ?_, undo_of _ ?_, undo_of _ ?_, undo_of _ ?_, undo_of _ ?_⟩
  · intro s y; simp [uniNormUpd]
  · intro s y; rfl
  · intro s y; simp [multiNormUpd]
  · intro s y; simp [linRegUpd]
  · intro s y; simp [faUpd]
  · intro s y; simp [gammaUpd]

example : ∃ c1 c2 : Cluster UniNormStats Unit, addDatum uniNormUpd (exCluster ⟨1, 2⟩) 8 3 = .ok c1 ∧
    removeDatum uniNormUpd c1 8 3 = .ok c2 ∧ c2.stats = ⟨1, 2⟩ := by
  have h : (8 : ℤ) ∉ (exCluster (⟨1, 2⟩ : UniNormStats)).idx := by simp [exCluster]
  have h1 := addDatum_of_notMem uniNormUpd (exCluster ⟨1, 2⟩) 8 3 h
  obtain ⟨c2, h2, -, -, h3, -⟩ := (c34_insert_remove_identity 1).1 _ _ 8 3 h1
  exact ⟨_, c2, h1, h2, h3⟩

/-- **C34, clones.** A clone has the parameters of the original, no data, and the statistics of
an empty cluster. -/
theorem c34_clone (zero : S) (c : Cluster S P) :
    (cloneLike zero c).state = c.state ∧ (cloneLike zero c).idx = ∅ ∧
    (cloneLike zero c).card = 0 ∧ (cloneLike zero c).logCard = ⊥ ∧
    (cloneLike zero c).stats = zero := by
  refine ⟨rfl, rfl, rfl, ?_, rfl⟩
  simp [cloneLike, clearAll, logCardOf]

example : (cloneLike uniNormZero (exCluster ⟨1, 2⟩)).stats = ⟨0, 0⟩ :=
  (c34_clone uniNormZero (exCluster ⟨1, 2⟩)).2.2.2.2

/-! ### C44 -/

/-- **C44.** The log likelihood of a whole cluster computed from its statistics is the sum of
the log likelihoods of its members. -/
theorem c44_cluster_lpdf (data : ℤ → ℝ) (c0 c : Cluster UniNormStats P) (ops : List DataOp)
    (hrun : runOps uniNormUpd data (clearAll uniNormZero c0) ops = .ok c) (x0 x1 : ℝ) :
    uniNormClusterLpdf c x0 x1 = ∑ i ∈ c.idx, uniNormLpdf ⟨x0, exp x1⟩ (data i) := by
  obtain ⟨h1, h2⟩ := c34_uni_norm data c0 c ops hrun
  have h3 := (c34_cardinality uniNormUpd data uniNormZero c0 c ops hrun).1
  have hterm : ∀ y, uniNormLpdf ⟨x0, exp x1⟩ y =
      -(1 / 2) * log (2 * π * exp x1) - (y ^ 2 - 2 * x0 * y + x0 * x0) / (2 * exp x1) := by
    intro y
    have hp := Real.pi_pos
    have he := exp_pos x1
    have hs : sqrt (exp x1) ^ 2 = exp x1 := Real.sq_sqrt he.le
    simp only [uniNormLpdf, normalLpdf]
    rw [log_mul (x := 2 * π) (y := exp x1) (by positivity) (by positivity), Real.log_sqrt he.le,
      div_pow, hs]
    field_simp
    ring
  simp only [hterm]
  rw [Finset.sum_sub_distrib, Finset.sum_const, ← Finset.sum_div, Finset.sum_add_distrib,
    Finset.sum_sub_distrib, ← Finset.mul_sum, Finset.sum_const]
  simp only [uniNormClusterLpdf, h1, h2, h3, nsmul_eq_mul]
  push_cast
  ring

example : ∃ c, runOps uniNormUpd (fun i => (i : ℝ)) (clearAll uniNormZero (exCluster ⟨1, 2⟩))
    exOps = .ok c ∧ uniNormClusterLpdf c 1 0 =
      uniNormLpdf ⟨1, 1⟩ 5 + uniNormLpdf ⟨1, 1⟩ 9 := by
  obtain ⟨c, hc, hi⟩ := exOps_run uniNormUpd (fun i => (i : ℝ)) uniNormZero (exCluster ⟨1, 2⟩)
  have := c44_cluster_lpdf (fun i => (i : ℝ)) _ c exOps hc 1 0
  rw [hi] at this
  refine ⟨c, hc, ?_⟩
  rw [this]
  norm_num

/-- **C44, Laplace.** -/
theorem c44_cluster_lpdf_laplace (data : ℤ → ℝ) (c : Cluster S P) (x0 x1 : ℝ) :
    laplaceClusterLpdf data c x0 x1 = ∑ i ∈ c.idx, laplaceLpdf ⟨x0, exp x1⟩ (data i) := rfl

end Bayesmix.Hierarchies
