import Verif.Example.Gamma
import Verif.Algo.PropsNeal8Chain
import Verif.Algo.PropsAverage

/-!
# C126: the gamma-gamma hierarchy of the examples
-/

namespace Bayesmix.Example
open Bayesmix Chain Cond Gibbs SplitMerge Slice Mixing Density Hierarchies MeasureTheory ENNReal

/-- **C126, refusal.** Initialization accepts exactly positive parameters, keeps them, and otherwise
throws. -/
theorem c126_initialize_iff (shape alpha beta : ℝ) :
    (0 < shape ∧ 0 < alpha ∧ 0 < beta → gammaInit shape alpha beta = .ok ⟨alpha, beta⟩) ∧
    (¬ (0 < shape ∧ 0 < alpha ∧ 0 < beta) → gammaInit shape alpha beta = .error .throw) := by
  unfold gammaInit
  constructor
  · rintro ⟨h1, h2, h3⟩
    rw [if_neg (by linarith), if_neg (by linarith), if_neg (by linarith)]
  · intro h
    split
    · rfl
    · split
      · rfl
      · split
        · rfl
        · exact absurd ⟨by linarith, by linarith, by linarith⟩ h

/-- The defaults of the constructor are refused, the values of the example are accepted. -/
example : gammaInit (-1) (-1) (-1) = .error .throw ∧ gammaInit 1 2 2 = .ok ⟨2, 2⟩ :=
  ⟨(c126_initialize_iff _ _ _).2 (by norm_num), (c126_initialize_iff _ _ _).1 (by norm_num)⟩

/-- **C126, Bayes' rule for a cluster.** After any calls that add and remove positive data, the stored
statistics are the sum and the number of the members; the log likelihood of the members plus the log
prior density of a rate is a constant plus the log posterior density with the computed hyperparameters;
the constant is the logarithm of the marginal likelihood of the members. -/
theorem c126_cluster_bayes {P : Type} {shape alpha beta : ℝ} {h : GammaHypers}
    (hi : gammaInit shape alpha beta = .ok h) (data : ℤ → ℝ) (hd : ∀ i, 0 < data i)
    (c0 c : Cluster GammaStats P) (ops : List DataOp)
    (hrun : runOps gammaUpd data (clearAll gammaZero c0) ops = .ok c) :
    c.stats.dataSum = ∑ i ∈ c.idx, data i ∧ c.stats.ndata = c.idx.card ∧
    ∃ k : ℝ, (∀ r : ℝ, 0 < r →
        ∑ i ∈ c.idx, gammaLikeLpdf ⟨shape, r⟩ (data i) + gammaPriorLpdf h r =
          k + gammaPriorLpdf (gammaPosterior shape h c.card c.stats) r) ∧
      ∫⁻ r in Set.Ioi 0, ENNReal.ofReal (Real.exp (∑ i ∈ c.idx, gammaLikeLpdf ⟨shape, r⟩ (data i) +
        gammaPriorLpdf h r)) = ENNReal.ofReal (Real.exp k) := by
  obtain ⟨hs, ha, hb, rfl⟩ := gammaInit_ok hi
  have h1 : c.stats.dataSum = ∑ i ∈ c.idx, data i :=
    runOps_stat gammaUpd data (fun s => s.dataSum) (fun y => y) gammaZero rfl (fun s y => rfl)
      (fun s y => rfl) c0 c ops hrun
  have h2 : c.stats.ndata = c.idx.card := by
    have := runOps_stat gammaUpd data (fun s => s.ndata) (fun _ => (1 : ℤ)) gammaZero rfl
      (fun s y => rfl) (fun s y => rfl) c0 c ops hrun
    simpa using this
  have h3 := (c34_cardinality gammaUpd data gammaZero c0 c ops hrun).1
  refine ⟨h1, h2, ?_⟩
  have hpost : gammaPosterior shape ⟨alpha, beta⟩ c.card c.stats =
      ⟨alpha + shape * c.idx.card, beta + ∑ i ∈ c.idx, data i⟩ := by
    unfold gammaPosterior
    rw [h3, h1, h2]
    split
    · rename_i h0
      rw [Nat.cast_eq_zero, Finset.card_eq_zero] at h0
      simp [h0]
    · simp
  have key : ∀ D : Finset ℤ, ∃ k : ℝ, ∀ r : ℝ, 0 < r →
      ∑ i ∈ D, gammaLikeLpdf ⟨shape, r⟩ (data i) + gammaPriorLpdf ⟨alpha, beta⟩ r =
        k + gammaPriorLpdf ⟨alpha + shape * D.card, beta + ∑ i ∈ D, data i⟩ r := by
    intro D
    induction D using Finset.induction_on with
    | empty => exact ⟨0, fun r _ => by simp⟩
    | insert i D hi ih =>
      obtain ⟨k, hk⟩ := ih
      refine ⟨k + gammaPred shape ⟨alpha + shape * D.card, beta + ∑ i ∈ D, data i⟩ (data i),
        fun r hr => ?_⟩
      have e1 := hk r hr
      have e2 := gamma_bayes shape ⟨alpha + shape * D.card, beta + ∑ i ∈ D, data i⟩ (data i) r
      rw [Finset.sum_insert hi, Finset.sum_insert hi, Finset.card_insert_of_notMem hi]
      push_cast
      simp only [gammaLikeLpdf, gammaPriorLpdf] at e1 e2 ⊢
      rw [show alpha + shape * ((D.card : ℝ) + 1) = alpha + shape * D.card + shape by ring,
        show beta + (data i + ∑ i ∈ D, data i) = beta + ∑ i ∈ D, data i + data i by ring]
      linarith
  obtain ⟨k, hk⟩ := key c.idx
  rw [hpost]
  refine ⟨k, hk, ?_⟩
  have hpos : 0 < beta + ∑ i ∈ c.idx, data i := add_pos_of_pos_of_nonneg hb
    (Finset.sum_nonneg fun i _ => (hd i).le)
  have hL := lintegral_gammaLpdf (alpha + shape * c.idx.card) (beta + ∑ i ∈ c.idx, data i)
    (by positivity) hpos
  calc _ = ∫⁻ r in Set.Ioi 0, ENNReal.ofReal (Real.exp k) * ENNReal.ofReal (Real.exp
        (gammaLpdf r (alpha + shape * c.idx.card) (beta + ∑ i ∈ c.idx, data i))) := by
        refine setLIntegral_congr_fun measurableSet_Ioi fun r hr => ?_
        have hr : 0 < r := hr
        rw [hk r hr, Real.exp_add, ENNReal.ofReal_mul (Real.exp_pos _).le]
        rfl
    _ = _ := by
        have hm : Measurable fun r : ℝ => ENNReal.ofReal (Real.exp (gammaLpdf r
            (alpha + shape * c.idx.card) (beta + ∑ i ∈ c.idx, data i))) :=
          ENNReal.measurable_ofReal.comp (Real.measurable_exp.comp
            (measurable_gammaLpdf measurable_id measurable_const measurable_const))
        rw [lintegral_const_mul _ hm, hL, mul_one]

/-- Three data are added and one removed; the members are 5 and 9. -/
example : ∃ c, runOps gammaUpd (fun i => |(i : ℝ)| + 1) (clearAll gammaZero (exCluster ⟨1, 1⟩)) exOps =
    .ok c ∧ c.stats.dataSum = 16 ∧ c.stats.ndata = 2 := by
  obtain ⟨c, hc, hi⟩ := exOps_run gammaUpd (fun i => |(i : ℝ)| + 1) gammaZero (exCluster ⟨1, 1⟩)
  obtain ⟨h1, h2, -⟩ := c126_cluster_bayes (shape := 1) (alpha := 2) (beta := 2)
    ((c126_initialize_iff _ _ _).1 (by norm_num)) (fun i => |(i : ℝ)| + 1) (fun i => by positivity) _ c
    exOps hc
  rw [hi] at h1 h2
  refine ⟨c, hc, ?_, ?_⟩
  · rw [h1]; norm_num
  · rw [h2]; rfl

/-- **C126, messages.** A cluster written to a message and read into any other cluster gives the same
shape, rate and cardinality; hyperparameters written and read are unchanged; a draw from a message has
the configured shape and a rate drawn with the hyperparameters that were written. -/
theorem c126_messages (c d : Cluster GammaStats GammaState) (h : GammaHypers) (shape : ℝ)
    (draw : ℝ → ℝ → ℝ) :
    (∃ d', setStateFromProto gammaFromProto d (writeStateToProto gammaToProto c) true = .ok d' ∧
      d'.state = c.state ∧ d'.card = c.card ∧ d'.logCard = logCardOf c.card ∧ d'.idx = d.idx ∧
      d'.stats = d.stats) ∧
    gammaHypFromProto (gammaHypToProto h) = .ok h ∧
    gammaSampleMsg shape (gammaHypToProto h) draw = .ok ⟨shape, draw h.rateAlpha h.rateBeta⟩ :=
  ⟨⟨_, rfl, rfl, rfl, rfl, rfl, rfl⟩, rfl, rfl⟩

example : gammaHypFromProto (gammaHypToProto ⟨2, 3⟩) = .ok ⟨2, 3⟩ :=
  (c126_messages ⟨3, logCardOf 3, {1, 2, 5}, ⟨9, 3⟩, ⟨1, 4⟩⟩ ⟨0, ⊥, ∅, ⟨0, 0⟩, ⟨1, 1⟩⟩ ⟨2, 3⟩ 1
    (fun a _ => a)).2.1

/-! ### Runs -/

theorem gammaStart8_eq {shape alpha beta : ℝ} {h : GammaHypers} (hi : gammaInit shape alpha beta = .ok h)
    {K n nAux : ℕ} (hK : 0 < K) (hn : n ≠ 0) {y : ℕ → ℝ} {draw : ℝ → ℝ → ℕ → ℝ} {z : InitNoise}
    {o : Hier (ℝ × ℤ) GammaHypers GammaState} {s : Alg (ℝ × ℤ) GammaHypers GammaState}
    {p : Hier (ℝ × ℤ) GammaHypers GammaState} (hp : s.clus[0]? = some p)
    (he : initAlloc (gammaEnv shape y draw) false K n h (gammaInitState shape h) z [o] = .ok s) :
    gammaStart8 shape alpha beta K n nAux y draw z o = .ok ⟨s, List.replicate nAux p.clone⟩ := by
  obtain ⟨k, rfl⟩ : ∃ k, K = k + 1 := ⟨K - 1, by omega⟩
  have hk : (gammaEnv shape y draw).kind = .conjugate := rfl
  simp [gammaStart8, initAlgorithm8, initAlgorithm, checkSetup, checkHier, checkMix, numComponents,
    gammaSetup, hi, hn, hk, ok_bind, he, vget_ok hp]

theorem gammaStart2_eq {shape alpha beta : ℝ} {h : GammaHypers} (hi : gammaInit shape alpha beta = .ok h)
    {K n : ℕ} (hK : 0 < K) (hn : n ≠ 0) {y : ℕ → ℝ} {draw : ℝ → ℝ → ℕ → ℝ} {z : InitNoise}
    {o : Hier (ℝ × ℤ) GammaHypers GammaState} {s : Alg (ℝ × ℤ) GammaHypers GammaState}
    (he : initAlloc (gammaEnv shape y draw) false K n h (gammaInitState shape h) z [o] = .ok s) :
    gammaStart2 shape alpha beta K n y draw z o = .ok s := by
  obtain ⟨k, rfl⟩ : ∃ k, K = k + 1 := ⟨K - 1, by omega⟩
  have hk : (gammaEnv shape y draw).kind = .conjugate := rfl
  simp [gammaStart2, initAlgorithm, checkSetup, checkHier, checkMix, numComponents,
    gammaSetup, hi, hn, hk, ok_bind, he]

theorem gammaStart8_ok {shape alpha beta : ℝ} {h : GammaHypers} (hi : gammaInit shape alpha beta = .ok h)
    {K n nAux : ℕ} (hK : 0 < K) (hKn : K ≤ n) {y : ℕ → ℝ} {draw : ℝ → ℝ → ℕ → ℝ} {z : InitNoise}
    {o : Hier (ℝ × ℤ) GammaHypers GammaState} (ho : o.CacheOk) :
    ∃ s p, gammaStart8 shape alpha beta K n nAux y draw z o = .ok ⟨s, List.replicate nAux p⟩ ∧
      initAlloc (gammaEnv shape y draw) false K n h (gammaInitState shape h) z [o] = .ok s ∧
      MarginalOk (gammaEnv shape y draw).contrib n s := by
  obtain ⟨s, e, hm, -⟩ := initAlloc_ok (E := gammaEnv shape y draw) (upd := false) (h0 := h)
    (θ0 := gammaInitState shape h) z (canSave_false _) hK hKn ho
  obtain ⟨c, -, hlt⟩ := hm.cons.on.labelled 0 (Finset.mem_range.mpr (by omega))
  obtain ⟨p, hp⟩ : ∃ p, s.clus[0]? = some p := ⟨_, List.getElem?_eq_getElem (by omega)⟩
  exact ⟨s, p.clone, gammaStart8_eq hi hK (by omega) hp e, e, hm⟩

instance : Nonempty GammaState := ⟨⟨1, 1⟩⟩

/-- The state of the Dirichlet process in `run_gamma_gamma.cc`: total mass one. -/
theorem gamma_dp : DPRun (.fixed 1) ⟨1, 0⟩ := .init (by norm_num [dpInit, dpFresh])

/-- **C126, convergence.** With positive parameters and positive data the run starts, no iteration
fails, and whatever the noise of the start, the mean of any function of partition and states bounded
by one after `k + 1` iterations differs by at most `(1 - δ)^k` from its mean under the posterior of the
Dirichlet process mixture with total mass one, gamma data and gamma prior on the rates. -/
theorem c126_neal8_converges {shape alpha beta : ℝ} {h : GammaHypers}
    (hi : gammaInit shape alpha beta = .ok h) {y : ℕ → ℝ} (hy : ∀ i, 0 < y i)
    (draw : ℝ → ℝ → ℕ → ℝ) (K n m : ℕ) (hn : 2 ≤ n) (hK : 0 < K) (hKn : K ≤ n) :
    ∃ δ : ℝ, 0 < δ ∧ δ ≤ 1 ∧ ∀ (z : InitNoise) (o : Hier (ℝ × ℤ) GammaHypers GammaState), o.CacheOk →
      ∃ s0, gammaStart8 shape alpha beta K n (m + 1) y draw z o = .ok s0 ∧
        (∀ k, (neal8IterMean (gammaEnv shape y draw) (fun st i => gammaLikeLpdf st (y i))
          (dpScores (fun h i => gammaPred shape h (y i)) ⟨1, 0⟩) (gammaLaw shape) n)^[k]
            (fun _ => 1) s0 = 1) ∧
        ∀ φ : Setoid (Fin n) → (Fin n → GammaState) → ℝ≥0∞, (∀ σ, Measurable (φ σ)) →
          (∀ σ x, φ σ x ≤ 1) → ∀ k,
          |((neal8IterMean (gammaEnv shape y draw) (fun st i => gammaLikeLpdf st (y i))
            (dpScores (fun h i => gammaPred shape h (y i)) ⟨1, 0⟩) (gammaLaw shape) n)^[k + 1]
              (fun s => observe (gammaInitState shape h) φ s.base) s0).toReal -
            jointMean (dpPrior 1) (fun st i => gammaLikeLpdf st (y i)) (gammaLaw shape ⟨alpha, beta⟩) φ|
              ≤ (1 - δ) ^ k := by
  obtain ⟨hs, ha, hb, rfl⟩ := gammaInit_ok hi
  obtain ⟨δ, d0, d1, hδ⟩ := c115_neal8_dirichlet_partial (gammaEnv shape y draw) (fun _ _ _ => rfl) rfl
    _ _ (gammaLaw shape) GammaValid (gamma_conjugate hs hy draw) gamma_dp K n m hn hK hKn ⟨alpha, beta⟩
    ⟨ha, hb⟩ (gammaInitState shape ⟨alpha, beta⟩)
  refine ⟨δ, d0, d1, fun z o ho => ?_⟩
  obtain ⟨s, p, e1, e2, -⟩ := gammaStart8_ok (nAux := m + 1) (y := y) (draw := draw) (z := z) hi hK hKn ho
  obtain ⟨s', e3, h1, h2⟩ := hδ z o (List.replicate (m + 1) p) ho (by simp)
  rw [e2] at e3
  cases e3
  exact ⟨_, e1, h1, h2⟩

/-- With a parameter that is not positive the run does not start. -/
theorem c126_start_refused {shape alpha beta : ℝ} (hb : ¬ (0 < shape ∧ 0 < alpha ∧ 0 < beta))
    (K n nAux : ℕ) (hK : 0 < K) (y : ℕ → ℝ) (draw : ℝ → ℝ → ℕ → ℝ) (z : InitNoise)
    (o : Hier (ℝ × ℤ) GammaHypers GammaState) :
    gammaStart8 shape alpha beta K n nAux y draw z o = .error .throw := by
  obtain ⟨k, rfl⟩ : ∃ k, K = k + 1 := ⟨K - 1, by omega⟩
  have hi := (c126_initialize_iff shape alpha beta).2 hb
  by_cases hn : n = 0
  · simp [gammaStart8, initAlgorithm8, initAlgorithm, checkSetup, checkHier, gammaSetup, hn, error_bind]
  · have hk : (gammaEnv shape y draw).kind = .conjugate := rfl
    simp [gammaStart8, initAlgorithm8, initAlgorithm, checkSetup, checkHier, checkMix, numComponents,
      gammaSetup, hi, hn, hk, ok_bind, error_bind]

example (y : ℕ → ℝ) (draw : ℝ → ℝ → ℕ → ℝ) (z : InitNoise)
    (o : Hier (ℝ × ℤ) GammaHypers GammaState) : gammaStart8 1 2 0 10 50 1 y draw z o = .error .throw :=
  c126_start_refused (by norm_num) 10 50 1 (by omega) y draw z o

/-- The program of the example. -/
example (y : ℕ → ℝ) (hy : ∀ i, 0 < y i) (draw : ℝ → ℝ → ℕ → ℝ) (z : InitNoise)
    (o : Hier (ℝ × ℤ) GammaHypers GammaState) (ho : o.saved = false) :
    ∃ s0, gammaStart8 1 2 2 10 50 1 y draw z o = .ok s0 := by
  obtain ⟨δ, -, -, h⟩ := c126_neal8_converges (shape := 1) (alpha := 2) (beta := 2)
    ((c126_initialize_iff _ _ _).1 (by norm_num)) hy draw 10 50 0 (by omega) (by omega) (by omega)
  obtain ⟨s0, e, -⟩ := h z o (by simp [Hier.CacheOk, ho])
  exact ⟨s0, e⟩

/-- **C126, averages.** The average over the stored states of a bounded function of partition and
states, and of the density estimate at a positive grid point `y n`, is within `ε` of the posterior mean,
of the posterior predictive density, except with a probability that tends to zero with the number of
stored states. -/
theorem c126_averages {shape alpha beta : ℝ} {h : GammaHypers}
    (hi : gammaInit shape alpha beta = .ok h) {y : ℕ → ℝ} (hy : ∀ i, 0 < y i)
    (draw : ℝ → ℝ → ℕ → ℝ) (K n m : ℕ) (hn : 2 ≤ n) (hK : 0 < K) (hKn : K ≤ n)
    (φ : Setoid (Fin n) → (Fin n → GammaState) → ℝ≥0∞) (hφ : ∀ σ, Measurable (φ σ)) (M : ℝ≥0∞)
    (hM : M ≠ ∞) (hle : ∀ σ x, φ σ x ≤ M) :
    ∃ C : ℝ, 0 < C ∧ ∀ (z : InitNoise) (o : Hier (ℝ × ℤ) GammaHypers GammaState), o.CacheOk →
      ∃ s0, gammaStart8 shape alpha beta K n (m + 1) y draw z o = .ok s0 ∧
        ∀ maxiter burnin : ℕ, burnin < maxiter → ∀ ε : ℝ, 0 < ε →
          averageProb (neal8IterMean (gammaEnv shape y draw) (fun st i => gammaLikeLpdf st (y i))
              (dpScores (fun h i => gammaPred shape h (y i)) ⟨1, 0⟩) (gammaLaw shape) n)
            (Measure.dirac ()) (fun s _ => observe (gammaInitState shape h) φ s.base) maxiter burnin
            {t | ε ≤ |t - jointMean (dpPrior 1) (fun st i => gammaLikeLpdf st (y i))
              (gammaLaw shape ⟨alpha, beta⟩) φ|} s0 ≤
            ENNReal.ofReal (C / ((maxiter - burnin) * ε ^ 2)) ∧
          averageProb (neal8IterMean (gammaEnv shape y draw) (fun st i => gammaLikeLpdf st (y i))
              (dpScores (fun h i => gammaPred shape h (y i)) ⟨1, 0⟩) (gammaLaw shape) n)
            (valueDraws (gammaLaw shape)) (fun s => densityDraw8 dpOps (dpSetState 1)
              (fun st i => gammaLikeLpdf st (y i)) (m + 1) n s.base) maxiter burnin
            {t | ε ≤ |t - predictiveDens (dpPrior 1) (fun st i => gammaLikeLpdf st (y i))
              (gammaLaw shape ⟨alpha, beta⟩) n|} s0 ≤
            ENNReal.ofReal (C / ((maxiter - burnin) * ε ^ 2)) := by
  obtain ⟨hs, ha, hb, rfl⟩ := gammaInit_ok hi
  obtain ⟨⟨-, C1, c1, h1⟩, t, -, ⟨C2, c2, h2⟩, -, ht⟩ := c118_dirichlet_partial (gammaEnv shape y draw)
    (fun _ _ _ => rfl) rfl _ _ (gammaLaw shape) GammaValid (gamma_conjugate hs hy draw) gamma_dp K n m hn
    hK hKn ⟨alpha, beta⟩ ⟨ha, hb⟩ (gammaInitState shape ⟨alpha, beta⟩) φ hφ M hM hle
  have ht := ht rfl
  subst ht
  have hmono : ∀ {c : ℝ}, c ≤ max C1 C2 → ∀ maxiter burnin : ℕ, burnin < maxiter → ∀ ε : ℝ, 0 < ε →
      ENNReal.ofReal (c / ((maxiter - burnin) * ε ^ 2)) ≤
        ENNReal.ofReal (max C1 C2 / ((maxiter - burnin) * ε ^ 2)) := by
    intro c hc maxiter burnin hlt ε hε
    have : (0 : ℝ) < maxiter - burnin := sub_pos.mpr (by exact_mod_cast hlt)
    exact ENNReal.ofReal_le_ofReal (by gcongr)
  refine ⟨max C1 C2, lt_max_of_lt_left c1, fun z o ho => ?_⟩
  obtain ⟨s, p, e1, e2, -⟩ := gammaStart8_ok (nAux := m + 1) (y := y) (draw := draw) (z := z) hi hK hKn ho
  obtain ⟨s', e3, g1⟩ := h1 z o (List.replicate (m + 1) p) ho (by simp)
  obtain ⟨s'', e4, g2⟩ := h2 z o (List.replicate (m + 1) p) ho (by simp)
  rw [e2] at e3 e4
  cases e3
  cases e4
  exact ⟨_, e1, fun maxiter burnin hlt ε hε =>
    ⟨(g1 maxiter burnin hlt ε hε).trans (hmono (le_max_left _ _) _ _ hlt _ hε),
      (g2 maxiter burnin hlt ε hε).trans (hmono (le_max_right _ _) _ _ hlt _ hε)⟩⟩

/-- The program of the example: the event that the first two rows share a cluster, 1000 iterations
discarded of 2000. -/
example (y : ℕ → ℝ) (hy : ∀ i, 0 < y i) (draw : ℝ → ℝ → ℕ → ℝ) (z : InitNoise)
    (o : Hier (ℝ × ℤ) GammaHypers GammaState) (ho : o.saved = false) :
    ∃ C : ℝ, 0 < C ∧ ∃ s0, gammaStart8 1 2 2 10 50 1 y draw z o = .ok s0 ∧
      averageProb (neal8IterMean (gammaEnv 1 y draw) (fun st i => gammaLikeLpdf st (y i))
          (dpScores (fun h i => gammaPred 1 h (y i)) ⟨1, 0⟩) (gammaLaw 1) 50)
        (Measure.dirac ()) (fun s _ => observe (gammaInitState 1 ⟨2, 2⟩)
          (fun (σ : Setoid (Fin 50)) _ => open Classical in if σ 0 1 then 1 else 0) s.base) 2000 1000
        {t | 1 / 10 ≤ |t - jointMean (dpPrior 1) (fun st i => gammaLikeLpdf st (y i))
          (gammaLaw 1 ⟨2, 2⟩)
          (fun (σ : Setoid (Fin 50)) _ => open Classical in if σ 0 1 then 1 else 0)|} s0 ≤
        ENNReal.ofReal (C / ((2000 - 1000) * (1 / 10) ^ 2)) := by
  classical
  obtain ⟨C, c0, h⟩ := c126_averages (shape := 1) (alpha := 2) (beta := 2)
    ((c126_initialize_iff _ _ _).1 (by norm_num)) hy draw 10 50 0 (by omega) (by omega) (by omega)
    (fun (σ : Setoid (Fin 50)) _ => if σ 0 1 then 1 else 0) (fun σ => measurable_const) 1 (by simp)
    (fun σ x => by split <;> simp)
  obtain ⟨s0, e, h⟩ := h z o (by simp [Hier.CacheOk, ho])
  have := (h 2000 1000 (by norm_num) (1 / 10) (by norm_num)).1
  push_cast at this
  exact ⟨C, c0, s0, e, by simpa using this⟩

/-- **C126, the hierarchy and Neal2.** The hierarchy declares itself conjugate, so Neal2 accepts it at
initialization; the update of every row then throws. -/
theorem c126_neal2_throws {shape alpha beta : ℝ} {h : GammaHypers}
    (hi : gammaInit shape alpha beta = .ok h) (y : ℕ → ℝ) (draw : ℝ → ℝ → ℕ → ℝ) (K n : ℕ)
    (hn : 2 ≤ n) (hK : 0 < K) (hKn : K ≤ n) (z : InitNoise)
    (o : Hier (ℝ × ℤ) GammaHypers GammaState) (ho : o.CacheOk) :
    ∃ s, gammaStart2 shape alpha beta K n y draw z o = .ok s ∧ ∀ i < n,
      neal2RowLpdf (gammaEnv shape y draw) (fun st i => gammaLikeLpdf st (y i))
        (fun h i => gammaMargCall h (y i)) s i = .error .throw := by
  obtain ⟨s, -, -, e, hm⟩ := gammaStart8_ok (nAux := 1) (y := y) (draw := draw) (z := z) hi hK hKn ho
  refine ⟨s, gammaStart2_eq hi hK (by omega) e, fun i hin => ?_⟩
  obtain ⟨s1, p, e1, hr, -⟩ := detach_place (E := gammaEnv shape y draw) (canSave_false _) hm hin
  have hpos : 0 < s1.clus.length := by
    obtain ⟨j, hj, hji⟩ : ∃ j, j < n ∧ j ≠ i := by
      by_cases h0 : i = 0
      · exact ⟨1, by omega, by omega⟩
      · exact ⟨0, by omega, by omega⟩
    obtain ⟨c, hc, -⟩ := hr.lab j hj hji
    omega
  rw [neal2RowLpdf, e1, ok_bind]
  simp only
  rw [vget_ok (List.getElem?_eq_getElem hpos)]
  rfl

example (y : ℕ → ℝ) (draw : ℝ → ℝ → ℕ → ℝ) (z : InitNoise) (o : Hier (ℝ × ℤ) GammaHypers GammaState)
    (ho : o.saved = false) : ∃ s, gammaStart2 1 2 2 10 50 y draw z o = .ok s ∧
      neal2RowLpdf (gammaEnv 1 y draw) (fun st i => gammaLikeLpdf st (y i))
        (fun h i => gammaMargCall h (y i)) s 0 = .error .throw := by
  obtain ⟨s, e, h⟩ := c126_neal2_throws ((c126_initialize_iff 1 2 2).1 (by norm_num)) y draw 10 50
    (by omega) (by omega) (by omega) z o (by simp [Hier.CacheOk, ho])
  exact ⟨s, e, h 0 (by omega)⟩

end Bayesmix.Example
