import Verif.Hier.ConjLemmas
import Verif.Hier.PropsStats

/-!
# C35, C36, C39: the scalar (semi)conjugate updates
-/

namespace Bayesmix.Hierarchies

open Real

variable {P : Type}

/-! ### C35 -/

/-- **C35, one datum.** Likelihood times prior is marginal times posterior (logarithms), for
all hyperparameters that initialization accepts. -/
theorem c35_bayes_rule (p : NIGPrior) (h : NIG) (hp : nigInit p = .ok h) (y : ℝ) (st : UniLS)
    (hv : 0 < st.var) :
    uniNormLpdf st y + nigLpdf h st =
      nnigMargLpdf h y + nigLpdf (nnigPosterior h 1 ⟨y, y ^ 2⟩) st := by
  obtain ⟨hl, ha, hb⟩ := nigInit_pos hp
  have := nnig_bayes h hl ha hb y st hv
  simpa [uniNormUpd, uniNormZero, sq] using this

example : uniNormLpdf ⟨1, 2⟩ 5 + nigLpdf ⟨3, 1, 2, 4⟩ ⟨1, 2⟩ =
    nnigMargLpdf ⟨3, 1, 2, 4⟩ 5 + nigLpdf (nnigPosterior ⟨3, 1, 2, 4⟩ 1 ⟨5, 5 ^ 2⟩) ⟨1, 2⟩ :=
  c35_bayes_rule (.fixed 3 1 2 4) _ (nigInit_fixed (by norm_num) (by norm_num) (by norm_num)) 5 _
    (by norm_num)

/-- **C35, batch and sequential.** Updating with all data at once, given their number, sum and
sum of squares, equals updating one datum at a time. -/
theorem c35_batch_eq_sequential (p : NIGPrior) (h : NIG) (hp : nigInit p = .ok h)
    (ys : List ℝ) :
    nnigPosterior h ys.length ⟨ys.sum, (ys.map (· ^ 2)).sum⟩ =
      ys.foldl (fun h y => nnigPosterior h 1 ⟨y, y ^ 2⟩) h :=
  nnig_batch_eq_foldl h (nigInit_pos hp).1 ys

example : nnigPosterior ⟨3, 1, 2, 4⟩ 2 ⟨7, 29⟩ =
    nnigPosterior (nnigPosterior ⟨3, 1, 2, 4⟩ 1 ⟨5, 5 ^ 2⟩) 1 ⟨2, 2 ^ 2⟩ := by
  have := c35_batch_eq_sequential (.fixed 3 1 2 4) _
    (nigInit_fixed (by norm_num) (by norm_num) (by norm_num)) [5, 2]
  simp only [List.foldl] at this
  rw [← this]
  norm_num

/-- **C35, order.** Sequential updates do not depend on the order of the data. -/
theorem c35_order_independent (p : NIGPrior) (h : NIG) (hp : nigInit p = .ok h)
    (ys zs : List ℝ) (hperm : ys.Perm zs) :
    ys.foldl (fun h y => nnigPosterior h 1 ⟨y, y ^ 2⟩) h =
      zs.foldl (fun h y => nnigPosterior h 1 ⟨y, y ^ 2⟩) h := by
  rw [← c35_batch_eq_sequential p h hp, ← c35_batch_eq_sequential p h hp, hperm.length_eq,
    hperm.sum_eq, (hperm.map _).sum_eq]

example : nnigPosterior (nnigPosterior ⟨3, 1, 2, 4⟩ 1 ⟨5, 5 ^ 2⟩) 1 ⟨2, 2 ^ 2⟩ =
    nnigPosterior (nnigPosterior ⟨3, 1, 2, 4⟩ 1 ⟨2, 2 ^ 2⟩) 1 ⟨5, 5 ^ 2⟩ :=
  c35_order_independent (.fixed 3 1 2 4) _
    (nigInit_fixed (by norm_num) (by norm_num) (by norm_num)) [5, 2] [2, 5]
    (List.Perm.swap _ _ _)

/-- The posterior of a cluster is the sequential posterior of its members in some order. -/
theorem nnig_cluster_eq_foldl (h : NIG) (hl : 0 < h.varScaling) (data : ℤ → ℝ)
    (c0 c : Cluster UniNormStats P) (ops : List DataOp)
    (hrun : runOps uniNormUpd data (clearAll uniNormZero c0) ops = .ok c) :
    nnigPosterior h c.card c.stats =
      (c.idx.toList.map data).foldl (fun h y => nnigPosterior h 1 ⟨y, y ^ 2⟩) h := by
  obtain ⟨h1, h2⟩ := c34_uni_norm data c0 c ops hrun
  have h3 := (c34_cardinality uniNormUpd data uniNormZero c0 c ops hrun).1
  rw [← nnig_batch_eq_foldl h hl]
  have e1 : (c.idx.toList.map data).sum = c.stats.dataSum := by rw [Finset.sum_map_toList, h1]
  have e2 : ((c.idx.toList.map data).map (· ^ 2)).sum = c.stats.dataSumSquares := by
    rw [List.map_map, Finset.sum_map_toList, h2]; rfl
  rw [e1, e2, List.length_map, Finset.length_toList, h3]

/-- **C35, clusters.** For a cluster reached by any sequence of insertions and removals,
likelihood of the members times prior is proportional to the density with the posterior
hyperparameters; the constant does not depend on the parameters. -/
theorem c35_cluster_bayes (p : NIGPrior) (h : NIG) (hp : nigInit p = .ok h) (data : ℤ → ℝ)
    (c0 c : Cluster UniNormStats P) (ops : List DataOp)
    (hrun : runOps uniNormUpd data (clearAll uniNormZero c0) ops = .ok c) :
    ∃ k : ℝ, ∀ st : UniLS, 0 < st.var →
      (∑ i ∈ c.idx, uniNormLpdf st (data i)) + nigLpdf h st =
        k + nigLpdf (nnigPosterior h c.card c.stats) st := by
  obtain ⟨hl, ha, hb⟩ := nigInit_pos hp
  rw [nnig_cluster_eq_foldl h hl data c0 c ops hrun]
  have key : ∀ (ys : List ℝ) (h : NIG), 0 < h.varScaling → 0 < h.shape → 0 < h.scale →
      ∃ k : ℝ, ∀ st : UniLS, 0 < st.var →
        (ys.map (uniNormLpdf st)).sum + nigLpdf h st =
          k + nigLpdf (ys.foldl (fun h y => nnigPosterior h 1 ⟨y, y ^ 2⟩) h) st := by
    intro ys
    induction ys with
    | nil => intro h _ _ _; exact ⟨0, fun st _ => by simp⟩
    | cons y ys ih =>
      intro h hl ha hb
      obtain ⟨a', b', c'⟩ := nnigPosterior_one_pos h hl ha hb y
      obtain ⟨k, hk⟩ := ih _ a' b' c'
      refine ⟨k + nnigMargLpdf h y, fun st hv => ?_⟩
      have h1 := hk st hv
      have h2 := nnig_bayes h hl ha hb y st hv
      simp only [uniNormUpd, uniNormZero, if_true, zero_add, ← sq] at h2
      rw [List.map_cons, List.sum_cons, List.foldl_cons]
      linarith
  obtain ⟨k, hk⟩ := key (c.idx.toList.map data) h hl ha hb
  refine ⟨k, fun st hv => ?_⟩
  rw [← hk st hv, List.map_map, Finset.sum_map_toList]
  rfl

example : ∃ c, runOps uniNormUpd (fun i => (i : ℝ)) (clearAll uniNormZero (exCluster ⟨1, 2⟩))
    exOps = .ok c ∧ ∃ k : ℝ, ∀ st : UniLS, 0 < st.var →
      (uniNormLpdf st 5 + uniNormLpdf st 9) + nigLpdf ⟨3, 1, 2, 4⟩ st =
        k + nigLpdf (nnigPosterior ⟨3, 1, 2, 4⟩ c.card c.stats) st := by
  obtain ⟨c, hc, hi⟩ := exOps_run uniNormUpd (fun i => (i : ℝ)) uniNormZero (exCluster ⟨1, 2⟩)
  obtain ⟨k, hk⟩ := c35_cluster_bayes (.fixed 3 1 2 4) _
    (nigInit_fixed (by norm_num) (by norm_num) (by norm_num)) _ _ c exOps hc
  refine ⟨c, hc, k, fun st hv => ?_⟩
  rw [← hk st hv, hi]
  norm_num

/-- **C35, predictive.** Adding a datum to a cluster multiplies the constant of
`c35_cluster_bayes` by the marginal density at the posterior hyperparameters, which is what
the conditional predictive density evaluates. -/
theorem c35_predictive (p : NIGPrior) (h : NIG) (hp : nigInit p = .ok h) (data : ℤ → ℝ)
    (c0 c c' : Cluster UniNormStats P) (ops : List DataOp)
    (hrun : runOps uniNormUpd data (clearAll uniNormZero c0) ops = .ok c) (id : ℤ)
    (hadd : addDatum uniNormUpd c id (data id) = .ok c') (st : UniLS) (hv : 0 < st.var) :
    uniNormLpdf st (data id) + nigLpdf (nnigPosterior h c.card c.stats) st =
      nnigMargLpdf (nnigPosterior h c.card c.stats) (data id) +
        nigLpdf (nnigPosterior h c'.card c'.stats) st := by
  obtain ⟨hl, ha, hb⟩ := nigInit_pos hp
  have e := nnig_cluster_eq_foldl h hl data c0 c ops hrun
  obtain ⟨a', b', d'⟩ := foldl_nnig_pos (c.idx.toList.map data) h hl ha hb
  rw [← e] at a' b' d'
  have hb2 := nnig_bayes _ a' b' d' (data id) st hv
  have hc' : c'.card = c.card + 1 ∧ c'.stats = uniNormUpd c.stats (data id) true := by
    unfold addDatum at hadd
    split at hadd
    · cases hadd
    · cases hadd; exact ⟨rfl, rfl⟩
  obtain ⟨h1, h2⟩ := c34_uni_norm data c0 c ops hrun
  have h3 := (c34_cardinality uniNormUpd data uniNormZero c0 c ops hrun).1
  rw [hb2, hc'.1, hc'.2, h3]
  congr 2
  have := nnigPosterior_add h hl c.idx.card c.stats (uniNormUpd uniNormZero (data id) true)
    (by
      intro h0
      have : c.idx = ∅ := Finset.card_eq_zero.1 h0
      rw [this] at h1 h2
      ext
      · simpa [uniNormZero] using h1
      · simpa [uniNormZero] using h2) 1 (by simp)
  simp only [Nat.cast_one] at this
  rw [this]
  simp [uniNormUpd, uniNormZero]

example : ∃ c c', runOps uniNormUpd (fun i => (i : ℝ)) (clearAll uniNormZero (exCluster ⟨1, 2⟩))
    exOps = .ok c ∧ addDatum uniNormUpd c 8 8 = .ok c' ∧
    uniNormLpdf ⟨1, 2⟩ 8 + nigLpdf (nnigPosterior ⟨3, 1, 2, 4⟩ c.card c.stats) ⟨1, 2⟩ =
      nnigMargLpdf (nnigPosterior ⟨3, 1, 2, 4⟩ c.card c.stats) 8 +
        nigLpdf (nnigPosterior ⟨3, 1, 2, 4⟩ c'.card c'.stats) ⟨1, 2⟩ := by
  obtain ⟨c, hc, hi⟩ := exOps_run uniNormUpd (fun i => (i : ℝ)) uniNormZero (exCluster ⟨1, 2⟩)
  have h1 := addDatum_of_notMem uniNormUpd c 8 8 (by rw [hi]; decide)
  refine ⟨c, _, hc, h1, ?_⟩
  have := c35_predictive (.fixed 3 1 2 4) _
    (nigInit_fixed (by norm_num) (by norm_num) (by norm_num)) (fun i => (i : ℝ)) _ c _ exOps hc 8
    (by push_cast; exact h1) ⟨1, 2⟩ (by norm_num)
  push_cast at this
  exact this

/-! ### C36 -/

/-- **C36, Normal inverse Gamma.** The posterior hyperparameters of every reachable cluster
pass the checks of initialization. -/
theorem c36_nig_valid (p : NIGPrior) (h : NIG) (hp : nigInit p = .ok h) (data : ℤ → ℝ)
    (c0 c : Cluster UniNormStats P) (ops : List DataOp)
    (hrun : runOps uniNormUpd data (clearAll uniNormZero c0) ops = .ok c) (q : NIG)
    (hq : q = nnigPosterior h c.card c.stats) :
    nigInit (.fixed q.mean q.varScaling q.shape q.scale) = .ok q := by
  obtain ⟨hl, ha, hb⟩ := nigInit_pos hp
  obtain ⟨a', b', d'⟩ := foldl_nnig_pos (c.idx.toList.map data) h hl ha hb
  rw [← nnig_cluster_eq_foldl h hl data c0 c ops hrun, ← hq] at a' b' d'
  exact nigInit_fixed a' b' d'

example : ∃ c, runOps uniNormUpd (fun i => (i : ℝ)) (clearAll uniNormZero (exCluster ⟨1, 2⟩))
    exOps = .ok c ∧ ∃ q, q = nnigPosterior ⟨3, 1, 2, 4⟩ c.card c.stats ∧
      nigInit (.fixed q.mean q.varScaling q.shape q.scale) = .ok q := by
  obtain ⟨c, hc, hi⟩ := exOps_run uniNormUpd (fun i => (i : ℝ)) uniNormZero (exCluster ⟨1, 2⟩)
  exact ⟨c, hc, _, rfl, c36_nig_valid (.fixed 3 1 2 4) _
    (nigInit_fixed (by norm_num) (by norm_num) (by norm_num)) _ _ c exOps hc _ rfl⟩

/-- **C36, Normal x inverse Gamma.** Likewise, whenever the current variance is positive. -/
theorem c36_nxig_valid (p : NxIGPrior) (h : NxIG) (hp : nxigInit p = .ok h) (data : ℤ → ℝ)
    (c0 c : Cluster UniNormStats P) (ops : List DataOp)
    (hrun : runOps uniNormUpd data (clearAll uniNormZero c0) ops = .ok c) (st : UniLS)
    (hv : 0 < st.var) (q : NxIG) (hq : q = nnxigPosterior h st c.card c.stats) :
    nxigInit (.fixed q.mean q.var q.shape q.scale) = .ok q := by
  obtain ⟨hl, ha, hb⟩ := nxigInit_pos hp
  rcases eq_or_ne c.card 0 with h0 | h0
  · have : q = h := by rw [hq, nnxigPosterior, if_pos h0]
    rw [this]
    exact nxigInit_fixed hl ha hb
  obtain ⟨h1, h2⟩ := c34_uni_norm data c0 c ops hrun
  have h3 := (c34_cardinality uniNormUpd data uniNormZero c0 c ops hrun).1
  have hcard : (0 : ℝ) ≤ c.card := by rw [h3]; positivity
  have hss : 0 ≤ c.stats.dataSumSquares - 2 * st.mean * c.stats.dataSum
      + c.card * st.mean * st.mean := by
    rw [h1, h2, h3, cluster_sum_sq]
    exact Finset.sum_nonneg (fun i _ => sq_nonneg _)
  unfold nnxigPosterior at hq
  rw [if_neg h0] at hq
  subst hq
  refine nxigInit_fixed ?_ ?_ ?_
  · positivity
  · positivity
  · show 0 < h.scale + 0.5 * _
    have := mul_nonneg (show (0 : ℝ) ≤ 0.5 by norm_num) hss
    linarith

example : ∃ c, runOps uniNormUpd (fun i => (i : ℝ)) (clearAll uniNormZero (exCluster ⟨1, 2⟩))
    exOps = .ok c ∧ ∃ q, q = nnxigPosterior ⟨3, 1, 2, 4⟩ ⟨0, 1⟩ c.card c.stats ∧
      nxigInit (.fixed q.mean q.var q.shape q.scale) = .ok q := by
  obtain ⟨c, hc, hi⟩ := exOps_run uniNormUpd (fun i => (i : ℝ)) uniNormZero (exCluster ⟨1, 2⟩)
  exact ⟨c, hc, _, rfl, c36_nxig_valid (.fixed 3 1 2 4) _
    (nxigInit_fixed (by norm_num) (by norm_num) (by norm_num)) _ _ c exOps hc ⟨0, 1⟩
    (by norm_num) _ rfl⟩

/-- **C36, Gamma.** Likewise for data in the support of the likelihood. -/
theorem c36_gamma_valid (shape ra rb : ℝ) (h : GammaHypers) (hp : gammaInit shape ra rb = .ok h)
    (data : ℤ → ℝ) (hdata : ∀ i, 0 < data i) (c0 c : Cluster GammaStats P) (ops : List DataOp)
    (hrun : runOps gammaUpd data (clearAll gammaZero c0) ops = .ok c) (q : GammaHypers)
    (hq : q = gammaPosterior shape h c.card c.stats) :
    gammaInit shape q.rateAlpha q.rateBeta = .ok q := by
  obtain ⟨hs, ha, hb⟩ := gammaInit_pos hp
  obtain ⟨h1, h2⟩ := c34_gamma data c0 c ops hrun
  unfold gammaPosterior at hq
  rcases eq_or_ne c.card 0 with h0 | h0
  · rw [if_pos h0] at hq
    subst hq
    exact gammaInit_of_pos hs ha hb
  · rw [if_neg h0] at hq
    subst hq
    have hn : (0 : ℝ) ≤ c.stats.ndata := by rw [h2]; positivity
    have hsum : 0 ≤ c.stats.dataSum := by
      rw [h1]; exact Finset.sum_nonneg (fun i _ => (hdata i).le)
    exact gammaInit_of_pos hs (by positivity) (by positivity)

example : ∃ c, runOps gammaUpd (fun i => (i : ℝ) ^ 2 + 1) (clearAll gammaZero (exCluster ⟨1, 2⟩))
    exOps = .ok c ∧ ∃ q, q = gammaPosterior 1 ⟨2, 3⟩ c.card c.stats ∧
      gammaInit 1 q.rateAlpha q.rateBeta = .ok q := by
  obtain ⟨c, hc, hi⟩ := exOps_run gammaUpd (fun i => (i : ℝ) ^ 2 + 1) gammaZero (exCluster ⟨1, 2⟩)
  exact ⟨c, hc, _, rfl, c36_gamma_valid 1 2 3 _
    (gammaInit_of_pos (by norm_num) (by norm_num) (by norm_num)) _ (fun i => by positivity) _ c
    exOps hc _ rfl⟩

/-! ### C39 -/

/-- **C39, the mean.** Given the variance, likelihood times prior is proportional, as a function
of the mean, to the Normal density with the returned mean and variance. -/
theorem c39_mean_conditional (p : NxIGPrior) (h : NxIG) (hp : nxigInit p = .ok h) (data : ℤ → ℝ)
    (c0 c : Cluster UniNormStats P) (ops : List DataOp)
    (hrun : runOps uniNormUpd data (clearAll uniNormZero c0) ops = .ok c) (st : UniLS)
    (hv : 0 < st.var) :
    ∃ k : ℝ, ∀ mu : ℝ,
      (∑ i ∈ c.idx, uniNormLpdf ⟨mu, st.var⟩ (data i)) + nxigLpdf h ⟨mu, st.var⟩ =
        k + normalLpdf mu (nnxigPosterior h st c.card c.stats).mean
          (sqrt (nnxigPosterior h st c.card c.stats).var) := by
  obtain ⟨hl, ha, hb⟩ := nxigInit_pos hp
  obtain ⟨h1, h2⟩ := c34_uni_norm data c0 c ops hrun
  have h3 := (c34_cardinality uniNormUpd data uniNormZero c0 c ops hrun).1
  have h3' : (c.card : ℝ) = (c.idx.card : ℝ) := by rw [h3]; push_cast; rfl
  rcases eq_or_ne c.card 0 with h0 | h0
  · have hempty : c.idx = ∅ := Finset.card_eq_zero.1 (by omega)
    refine ⟨invGammaLpdf st.var h.shape h.scale, fun mu => ?_⟩
    rw [nnxigPosterior, if_pos h0, hempty]
    simp [nxigLpdf, add_comm]
  have hcard : (0 : ℝ) ≤ c.card := by rw [h3']; positivity
  have hden : 0 < c.card * h.var + st.var := by positivity
  have hpv : 0 < st.var * h.var / (c.card * h.var + st.var) := by positivity
  obtain ⟨S, hS⟩ : ∃ S, S = c.stats.dataSum := ⟨_, rfl⟩
  obtain ⟨Q, hQ⟩ : ∃ Q, Q = c.stats.dataSumSquares := ⟨_, rfl⟩
  obtain ⟨n, hn⟩ : ∃ n : ℝ, n = c.card := ⟨_, rfl⟩
  obtain ⟨m0, v0, a0, b0⟩ := h
  obtain ⟨m, v⟩ := st
  simp only at hl ha hb hv hden hpv
  rw [← hn] at hden hcard hpv
  refine ⟨-(n / 2) * log (2 * π * v) - (1 / 2) * log v0 + invGammaLpdf v a0 b0
      + (1 / 2) * log (v * v0 / (n * v0 + v))
      - (Q / (2 * v) + m0 ^ 2 / (2 * v0)
        - ((v0 * S + v * m0) / (n * v0 + v)) ^ 2 / (2 * (v * v0 / (n * v0 + v)))), fun mu => ?_⟩
  rw [nnxigPosterior, if_neg h0, sum_uniNormLpdf _ _ _ hv, ← h1, ← h2, ← h3', ← hS, ← hQ, ← hn]
  simp only [nxigLpdf]
  rw [normalLpdf_sqrt _ _ _ hl, normalLpdf_sqrt _ _ _ hpv]
  field_simp
  ring

example : ∃ c, runOps uniNormUpd (fun i => (i : ℝ)) (clearAll uniNormZero (exCluster ⟨1, 2⟩))
    exOps = .ok c ∧ ∃ k : ℝ, ∀ mu : ℝ,
      (uniNormLpdf ⟨mu, 1⟩ 5 + uniNormLpdf ⟨mu, 1⟩ 9) + nxigLpdf ⟨3, 1, 2, 4⟩ ⟨mu, 1⟩ =
        k + normalLpdf mu (nnxigPosterior ⟨3, 1, 2, 4⟩ ⟨0, 1⟩ c.card c.stats).mean
          (sqrt (nnxigPosterior ⟨3, 1, 2, 4⟩ ⟨0, 1⟩ c.card c.stats).var) := by
  obtain ⟨c, hc, hi⟩ := exOps_run uniNormUpd (fun i => (i : ℝ)) uniNormZero (exCluster ⟨1, 2⟩)
  obtain ⟨k, hk⟩ := c39_mean_conditional (.fixed 3 1 2 4) _
    (nxigInit_fixed (by norm_num) (by norm_num) (by norm_num)) _ _ c exOps hc ⟨0, 1⟩ (by norm_num)
  refine ⟨c, hc, k, fun mu => ?_⟩
  rw [← hk mu, hi]
  norm_num

/-- **C39, the variance.** Given the mean, likelihood times prior is proportional, as a function
of the variance, to the inverse Gamma density with the returned shape and scale. -/
theorem c39_variance_conditional (p : NxIGPrior) (h : NxIG) (hp : nxigInit p = .ok h)
    (data : ℤ → ℝ) (c0 c : Cluster UniNormStats P) (ops : List DataOp)
    (hrun : runOps uniNormUpd data (clearAll uniNormZero c0) ops = .ok c) (st : UniLS) :
    ∃ k : ℝ, ∀ v : ℝ, 0 < v →
      (∑ i ∈ c.idx, uniNormLpdf ⟨st.mean, v⟩ (data i)) + nxigLpdf h ⟨st.mean, v⟩ =
        k + invGammaLpdf v (nnxigPosterior h st c.card c.stats).shape
          (nnxigPosterior h st c.card c.stats).scale := by
  obtain ⟨hl, ha, hb⟩ := nxigInit_pos hp
  obtain ⟨h1, h2⟩ := c34_uni_norm data c0 c ops hrun
  have h3 := (c34_cardinality uniNormUpd data uniNormZero c0 c ops hrun).1
  have h3' : (c.card : ℝ) = (c.idx.card : ℝ) := by rw [h3]; push_cast; rfl
  rcases eq_or_ne c.card 0 with h0 | h0
  · have hempty : c.idx = ∅ := Finset.card_eq_zero.1 (by omega)
    refine ⟨normalLpdf st.mean h.mean (sqrt h.var), fun v _ => ?_⟩
    rw [nnxigPosterior, if_pos h0, hempty]
    simp [nxigLpdf]
  obtain ⟨S, hS⟩ : ∃ S, S = c.stats.dataSum := ⟨_, rfl⟩
  obtain ⟨Q, hQ⟩ : ∃ Q, Q = c.stats.dataSumSquares := ⟨_, rfl⟩
  obtain ⟨n, hn⟩ : ∃ n : ℝ, n = c.card := ⟨_, rfl⟩
  obtain ⟨m0, v0, a0, b0⟩ := h
  obtain ⟨m, v1⟩ := st
  refine ⟨-(n / 2) * log (2 * π) + normalLpdf m m0 (sqrt v0)
      + a0 * log b0 - log (Gamma a0)
      - ((a0 + 0.5 * n) * log (b0 + 0.5 * (Q - 2 * m * S + n * m * m))
        - log (Gamma (a0 + 0.5 * n))), fun v hv => ?_⟩
  have hp := Real.pi_pos
  rw [nnxigPosterior, if_neg h0, sum_uniNormLpdf _ _ _ hv, ← h1, ← h2, ← h3', ← hS, ← hQ, ← hn]
  simp only [nxigLpdf, invGammaLpdf]
  rw [log_mul (x := 2 * π) (y := v) (by positivity) hv.ne']
  norm_num
  field_simp
  ring

example : ∃ c, runOps uniNormUpd (fun i => (i : ℝ)) (clearAll uniNormZero (exCluster ⟨1, 2⟩))
    exOps = .ok c ∧ ∃ k : ℝ, ∀ v : ℝ, 0 < v →
      (uniNormLpdf ⟨0, v⟩ 5 + uniNormLpdf ⟨0, v⟩ 9) + nxigLpdf ⟨3, 1, 2, 4⟩ ⟨0, v⟩ =
        k + invGammaLpdf v (nnxigPosterior ⟨3, 1, 2, 4⟩ ⟨0, 1⟩ c.card c.stats).shape
          (nnxigPosterior ⟨3, 1, 2, 4⟩ ⟨0, 1⟩ c.card c.stats).scale := by
  obtain ⟨c, hc, hi⟩ := exOps_run uniNormUpd (fun i => (i : ℝ)) uniNormZero (exCluster ⟨1, 2⟩)
  obtain ⟨k, hk⟩ := c39_variance_conditional (.fixed 3 1 2 4) _
    (nxigInit_fixed (by norm_num) (by norm_num) (by norm_num)) _ _ c exOps hc ⟨0, 1⟩
  refine ⟨c, hc, k, fun v hv => ?_⟩
  rw [← hk v hv, hi]
  norm_num

/-! ### C72 -/

/-- **C72, what holds.** The draw evaluates both full conditionals of C39 at the state before
the draw. -/
theorem c72_semi_conjugate_draw_partial (h : NxIG) (c : Cluster UniNormStats UniLS)
    (normalRng invGammaRng : ℝ → ℝ → ℝ) (hc : c.card ≠ 0) :
    (nnxigDraw h c normalRng invGammaRng).state.mean =
      normalRng (nnxigPosterior h c.state c.card c.stats).mean
        (sqrt (nnxigPosterior h c.state c.card c.stats).var) ∧
    (nnxigDraw h c normalRng invGammaRng).state.var =
      invGammaRng (nnxigPosterior h c.state c.card c.stats).shape
        (nnxigPosterior h c.state c.card c.stats).scale := by
  unfold nnxigDraw
  rw [if_neg hc]
  exact ⟨rfl, rfl⟩

example : (nnxigDraw ⟨0, 1, 2, 3⟩ ⟨1, 0, {4}, ⟨6, 36⟩, ⟨0, 1⟩⟩ (fun m _ => m)
    (fun _ b => b)).state.mean = 3 := by
  rw [(c72_semi_conjugate_draw_partial ⟨0, 1, 2, 3⟩ ⟨1, 0, {4}, ⟨6, 36⟩, ⟨0, 1⟩⟩ (fun m _ => m)
    (fun _ b => b) (by norm_num)).1]
  norm_num [nnxigPosterior]

/-- **C72, violated.** The draw is not a Gibbs sweep: there is a non-empty cluster reached from
the empty one for which neither the variance is drawn from its full conditional given the new
mean, nor the mean from its full conditional given the new variance. -/
theorem c72_semi_conjugate_draw_violated :
    ∃ (h : NxIG) (data : ℤ → ℝ) (c0 c : Cluster UniNormStats UniLS) (ops : List DataOp)
      (normalRng invGammaRng : ℝ → ℝ → ℝ),
      nxigInit (.fixed h.mean h.var h.shape h.scale) = .ok h ∧
      runOps uniNormUpd data (clearAll uniNormZero c0) ops = .ok c ∧ c.card ≠ 0 ∧
      0 < c.state.var ∧
      (nnxigDraw h c normalRng invGammaRng).state.var ≠
        invGammaRng
          (nnxigPosterior h (nnxigDraw h c normalRng invGammaRng).state c.card c.stats).shape
          (nnxigPosterior h (nnxigDraw h c normalRng invGammaRng).state c.card c.stats).scale ∧
      (nnxigDraw h c normalRng invGammaRng).state.mean ≠
        normalRng
          (nnxigPosterior h (nnxigDraw h c normalRng invGammaRng).state c.card c.stats).mean
          (sqrt (nnxigPosterior h (nnxigDraw h c normalRng invGammaRng).state c.card
            c.stats).var) := by
  obtain ⟨c, hc, hi⟩ : ∃ c, runOps uniNormUpd (fun _ => (6 : ℝ))
      (clearAll uniNormZero (⟨0, 0, ∅, ⟨0, 0⟩, ⟨0, 1⟩⟩ : Cluster UniNormStats UniLS))
      [.add 4] = .ok c ∧ c.card = 1 ∧ c.stats = ⟨6, 36⟩ ∧ c.state = ⟨0, 1⟩ := by
    refine ⟨_, rfl, ?_, ?_, rfl⟩
    · simp [clearAll]
    · simp [clearAll, uniNormUpd, uniNormZero]; norm_num
  refine ⟨⟨0, 1, 2, 3⟩, fun _ => 6, _, c, [.add 4], fun m _ => m, fun _ b => b,
    nxigInit_fixed (by norm_num) (by norm_num) (by norm_num), hc, by rw [hi.1]; decide,
    by rw [hi.2.2]; norm_num, ?_, ?_⟩
  · simp only [nnxigDraw, nnxigPosterior, nxigSample, hi.1, hi.2.1, hi.2.2]
    norm_num
  · simp only [nnxigDraw, nnxigPosterior, nxigSample, hi.1, hi.2.1, hi.2.2]
    norm_num

end Bayesmix.Hierarchies
