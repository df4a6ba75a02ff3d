import Verif.Algo.BlockedStale

/-!
# C109, C110: runs of blocked Gibbs

Runs with fixed hyperparameters. `iterMean` is the mean over all draws of an iteration of the code,
infinite if the iteration fails; its iterates are the means after several iterations.
-/

namespace Bayesmix.Cond
open Bayesmix Mixing Slice Gibbs MeasureTheory ENNReal Hierarchies Chain

section general

variable {G H Θ : Type} [AddCommGroup G] [MeasurableSpace Θ] [Nonempty Θ]
  {E : Env G H Θ} {like : Θ → ℕ → ℝ} {ν : H → Measure Θ} {Q : ℕ → Option H} {h : H}
  {prior : SBPrior} {K : ℕ} {a b : Fin K → ℝ}

theorem kernelSum_fixed {n : ℕ} (S : RunSetup E like ν Q h prior a b) {F : ℝ → ℝ≥0∞} (hF : Measurable F)
    {φ : (Fin n → Fin K) → (Fin K → Θ) → (Fin K → ℝ) → ℝ}
    (hφ : ∀ c, Measurable fun x : (Fin K → Θ) × (Fin K → ℝ) => φ c x.1 x.2) (N : ℕ) :
    Meas fun c θ v => kernelSum like (drawLaws E ν Q h) a b F φ N 0 c θ v := fun c =>
  (kernelSum_measurable S hF hφ N c).comp
    ((measurable_const (a := (0 : ℝ))).prodMk measurable_id)

/-- Averages over a run, for any measurable event on which the average is off by `ε` or more. -/
theorem run_average {n : ℕ} (S : RunSetup E like ν Q h prior a b) {δ L : ℝ} (h0 : 0 < δ) (h1 : δ ≤ 1)
    {φ : List ℕ → List Θ → List ℝ → ℝ} (hφ : Observable n K φ) (L0 : 0 ≤ L) (L1 : L ≤ 1)
    (hlim : ∀ (c : Fin n → Fin K) (θ : Fin K → Θ) (v : Fin K → ℝ), (∀ k, 0 < v k ∧ v k ≤ 1) →
      ∀ k : ℕ, |((lawKernel like (drawLaws E ν Q h) a b)^[k + 1]
        (fun c θ v => ENNReal.ofReal (atParts φ c θ v)) c θ v).toReal - L| ≤ (1 - δ) ^ k)
    {c : Fin n → Fin K} {θ : Fin K → Θ} {v : Fin K → ℝ} {s : Alg G H Θ} {mix : SBState}
    (hs : BlockedState E prior Q c θ v h s mix) (hv : ∀ k, 0 < v k ∧ v k ≤ 1) (B : ℕ) {N : ℕ}
    (hN : 0 < N) {ε : ℝ} (hε : 0 < ε) {A : Set ℝ} (hA : MeasurableSet A)
    (hle : ∀ x ∈ A, ε ≤ |x / N - L|) :
    (iterMean E like ν prior K n)^[B] (sumMean E like ν prior K n (Set.indicator A 1) (observed φ) N 0)
      s mix ≤ ENNReal.ofReal (2 * (1 + 1 / δ) ^ 2 / (N * ε ^ 2)) := by
  have hF : Measurable (Set.indicator A (1 : ℝ → ℝ≥0∞)) := measurable_one.indicator hA
  rw [iterMean_iterate S (n := n) (kernelSum_fixed S hF hφ.meas N)
    (fun c θ v s mix hs hv => sumMean_eq S hF hφ.meas (fun c θ v s mix hs _ => observed_state hs) N 0
      c θ v s mix hs hv) B c θ v s mix hs hv]
  refine kernel_iterate_le S (fun c θ v hv => (kernelSum_mono S (fun x => ?_) _ N 0 c θ v).trans
    (kernelSum_average S h0 h1 hφ.meas (fun _ _ _ => hφ.nonneg _ _ _) (fun _ _ _ => hφ.le_one _ _ _)
      L0 L1 hlim hN hε c θ hv)) B c θ v hv
  by_cases hx : x ∈ A
  · simp [hx, hle x hx]
  · simp [hx]

/-- **C100, violated.** With a conjugate hierarchy, in the state that `BaseAlgorithm::initialize` leads
to, the first object has the prior's hyperparameters saved as its posterior ones. In the iteration that
follows, whatever its new labels, the value of the first component is drawn with the prior's
hyperparameters; all rows are in this component with positive probability. The state after the
iteration has the same saved hyperparameters, so this goes on. -/
theorem c100_blocked_stale_violated (hk : E.kind = .conjugate) (like : Θ → ℕ → ℝ) (hK : 0 < K) {n : ℕ}
    (hn : K ≤ n) (hsh : ∀ k : Fin K, betaParams prior K k = .ok (a k, b k)) (ha : ∀ k, 0 < a k)
    (hb : ∀ k, 0 < b k) (hchk : sbCheck prior K = .ok ()) (θ0 : Θ) (z : InitNoise) (o : Hier G H Θ)
    (ho : o.CacheOk) :
    ∃ s mix l, blockedInit E prior K n h θ0 z o = .ok (s, mix) ∧
      blockedLaw E like (fun _ => mix.logweights) K n s = .ok l ∧
      0 < l.prob (fun t => t.alloc = List.replicate n 0) ∧
      ∀ x ∈ l, ∀ (r : ℕ → ℕ) (rh : ℕ) (draws : ℕ → ℝ → ℝ → ℝ), ∃ s' mix',
        blockedRest E prior false r rh draws mix x.2 = .ok (s', mix') ∧
        (s'.clus.map Hier.state)[0]? = some (E.sample h (r 0)) ∧ CacheIs (firstSaved h) s'.clus := by
  obtain ⟨s, mix, e, c, θ, v, hs, hv⟩ := blockedInit_ok hk hK hn hsh ha hb hchk h θ0 z o ho
  obtain ⟨l, el, hp, hx⟩ := c100_blocked_step E (by rw [hk]; simp) like hK prior hsh ha hb hs hv
  refine ⟨s, mix, l, e, el, ?_, fun x hxl r rh draws => ?_⟩
  · have h0 : (List.replicate n 0 : List ℕ) = List.ofFn fun i : Fin n => ((fun _ => ⟨0, hK⟩ : Fin n →
        Fin K) i).val := by
      rw [List.ofFn_const]
    rw [h0, hp]
    refine div_pos (Finset.prod_pos fun i _ => mul_pos ?_ (Real.exp_pos _)) (totalWeight_pos hK θ hv)
    simpa [stickWeight] using (hv ⟨0, hK⟩).1
  · obtain ⟨c', -, hr⟩ := hx x hxl
    obtain ⟨s', mix', e', hs'⟩ := hr r rh draws
    refine ⟨s', mix', e', ?_, hs'.cache⟩
    rw [hs'.values, List.getElem?_ofFn]
    simp [hK, drawHyp, firstSaved]

/-- C100: ten rows, three components; the posterior hyperparameters of a component in use are never
those of the prior. -/
example (y : ℕ → ℝ) (draw : NIG → ℕ → UniLS) (θ0 : UniLS) (z : InitNoise) (c : Fin 10 → Fin 3)
    (k : Fin 3) (hc : cnt c k ≠ 0) :
    (∃ s mix l, blockedInit (SplitMerge.nnigEnv y draw fun h _ _ => h) (.dp 2) 3 10 ⟨0, 1, 2, 1⟩ θ0 z
        ⟨θ0, 0, ∅, 0, false, none⟩ = .ok (s, mix) ∧
      blockedLaw (SplitMerge.nnigEnv y draw fun h _ _ => h) (fun st i => uniNormLpdf st (y i))
        (fun _ => mix.logweights) 3 10 s = .ok l ∧
      0 < l.prob (fun t => t.alloc = List.replicate 10 0)) ∧
    condHyp (SplitMerge.nnigEnv y draw fun h _ _ => h) ⟨0, 1, 2, 1⟩ c k ≠ ⟨0, 1, 2, 1⟩ := by
  refine ⟨?_, fun hh => ?_⟩
  · have : Nonempty UniLS := ⟨θ0⟩
    obtain ⟨s, mix, l, e1, e2, e3, -⟩ := c100_blocked_stale_violated (h := ⟨0, 1, 2, 1⟩)
      (E := SplitMerge.nnigEnv y draw fun h _ _ => h) (prior := .dp 2) (K := 3) (a := fun _ => 1)
      (b := fun _ => 2) rfl (fun st i => uniNormLpdf st (y i)) (by omega) (n := 10) (by omega)
      (fun _ => rfl) (by simp) (by simp) (by norm_num [sbCheck]) θ0 z ⟨θ0, 0, ∅, 0, false, none⟩ (by simp [Hier.CacheOk])
    exact ⟨s, mix, l, e1, e2, e3⟩
  · rw [condHyp, if_neg hc] at hh
    have := congrArg NIG.varScaling hh
    simp [SplitMerge.nnigEnv, nnigPosterior, hc] at this

/-- **C109 (partial: the limit is the posterior only if no object has saved hyperparameters).** From
every state, and whatever the saved hyperparameters, runs of blocked Gibbs do not fail and the means of
every function of labels, values and sticks with values in the unit interval approach a limit
geometrically; the limit does not depend on the start. If nothing is saved, the limit is the posterior
mean. `BaseAlgorithm::initialize` saves hyperparameters in the first object if the hierarchy is
conjugate: see `c109_blocked_first_violated`. -/
theorem c109_blocked_converges_partial (S : RunSetup E like ν Q h prior a b) (n : ℕ) :
    ∃ δ : ℝ, 0 < δ ∧ δ ≤ 1 ∧ ∀ φ : List ℕ → List Θ → List ℝ → ℝ, Observable n K φ → ∃ L : ℝ,
      (Q = noneSaved → L = (posteriorMean like n a b (ν h) fun c θ v =>
        ENNReal.ofReal (atParts φ c θ v)).toReal) ∧
      ∀ (c : Fin n → Fin K) (θ : Fin K → Θ) (v : Fin K → ℝ) (s : Alg G H Θ) (mix : SBState),
        BlockedState E prior Q c θ v h s mix → (∀ k, 0 < v k ∧ v k ≤ 1) → ∀ k : ℕ,
        (iterMean E like ν prior K n)^[k] (fun _ _ => 1) s mix = 1 ∧
        |((iterMean E like ν prior K n)^[k + 1]
          (fun s mix => ENNReal.ofReal (observed φ s mix)) s mix).toReal - L| ≤ (1 - δ) ^ k := by
  obtain ⟨δ, h0, h1, hδ⟩ := kernel_limit S n
  refine ⟨δ, h0, h1, fun φ hφ => ?_⟩
  obtain ⟨L, -, -, hL, hlim⟩ := hδ _ hφ.toMeas hφ.le
  refine ⟨L, hL, fun c θ v s mix hs hv k => ⟨?_, ?_⟩⟩
  · rw [iterMean_iterate S (Φ := fun _ _ _ => 1) (fun _ => measurable_const)
      (fun _ _ _ _ _ _ _ => rfl) k c θ v s mix hs hv]
    exact kernel_iterate_const S (fun _ _ _ _ => rfl) k c θ v hv
  · rw [iterMean_iterate S hφ.toMeas (g := fun s mix => ENNReal.ofReal (observed φ s mix))
      (fun c θ v s mix hs _ => by rw [observed_state hs]) (k + 1) c θ v s mix hs hv]
    exact hlim c θ v hv k

/-- **C109 (partial), runs from initialization.** With a conjugate hierarchy initialization succeeds,
and from the state it leads to, whatever its draws, the run converges. -/
theorem c109_blocked_initialize_partial (hk : E.kind = .conjugate)
    (S : RunSetup E like ν (firstSaved h) h prior a b) {n : ℕ} (hn : K ≤ n)
    (hchk : sbCheck prior K = .ok ()) :
    ∃ δ : ℝ, 0 < δ ∧ δ ≤ 1 ∧ ∀ φ : List ℕ → List Θ → List ℝ → ℝ, Observable n K φ → ∃ L : ℝ,
      ∀ (θ0 : Θ) (z : InitNoise) (o : Hier G H Θ), o.CacheOk → ∃ s mix,
        blockedInit E prior K n h θ0 z o = .ok (s, mix) ∧ ∀ k : ℕ,
        (iterMean E like ν prior K n)^[k] (fun _ _ => 1) s mix = 1 ∧
        |((iterMean E like ν prior K n)^[k + 1]
          (fun s mix => ENNReal.ofReal (observed φ s mix)) s mix).toReal - L| ≤ (1 - δ) ^ k := by
  obtain ⟨δ, h0, h1, hδ⟩ := c109_blocked_converges_partial S n
  refine ⟨δ, h0, h1, fun φ hφ => ?_⟩
  obtain ⟨L, -, hL⟩ := hδ φ hφ
  refine ⟨L, fun θ0 z o ho => ?_⟩
  obtain ⟨s, mix, e, c, θ, v, hs, hv⟩ := blockedInit_ok hk S.some hn S.params S.apos S.bpos hchk h θ0
    z o ho
  exact ⟨s, mix, e, hL c θ v s mix hs hv⟩

/-- **C109, violated.** With a conjugate hierarchy and fixed hyperparameters, in every run of blocked
Gibbs, after every number of iterations and whatever the data, the value of the first component has the
law of the prior: its object keeps the prior's hyperparameters, saved as posterior ones by
`BaseHierarchy::initialize` (`src/hierarchies/base_hierarchy.h` 322-330), and draws from them. -/
theorem c109_blocked_first_violated (hk : E.kind = .conjugate)
    (S : RunSetup E like ν (firstSaved h) h prior a b) {n : ℕ} (hn : K ≤ n)
    (hchk : sbCheck prior K = .ok ()) (θ0 : Θ) (z : InitNoise) (o : Hier G H Θ) (ho : o.CacheOk) :
    ∃ s mix, blockedInit E prior K n h θ0 z o = .ok (s, mix) ∧
      ∀ ψ : Θ → ℝ, Measurable ψ → ∀ k : ℕ,
        (iterMean E like ν prior K n)^[k + 1]
          (fun s mix => ENNReal.ofReal (observed (firstValue ψ) s mix)) s mix =
          ∫⁻ x, ENNReal.ofReal (ψ x) ∂ν h := by
  obtain ⟨s, mix, e, c, θ, v, hs, hv⟩ := blockedInit_ok hk S.some hn S.params S.apos S.bpos hchk h θ0
    z o ho
  refine ⟨s, mix, e, fun ψ hψ k => ?_⟩
  have hm : Measurable fun x => ENNReal.ofReal (ψ x) := ENNReal.measurable_ofReal.comp hψ
  rw [iterMean_iterate S (n := n) (Φ := fun _ θ _ => ENNReal.ofReal (ψ (θ ⟨0, S.some⟩)))
    (fun c => hm.comp ((measurable_pi_apply _).comp measurable_fst))
    (g := fun s mix => ENNReal.ofReal (observed (firstValue ψ) s mix))
    (fun c θ v s mix hs _ => by rw [observed_state hs, atParts_first S.some]) (k + 1) c θ v s mix hs hv]
  exact kernel_first S hm k c θ hv

/-- **C110 (partial: as in C109).** The probability that the average of a function of labels, values
and sticks over `N` stored iterations, after `B` iterations of burn-in, is off its limit by `ε` or more
is at most a constant divided by `N ε²`, from every state. If nothing is saved, the limit is the
posterior mean. -/
theorem c110_blocked_average_partial (S : RunSetup E like ν Q h prior a b) (n : ℕ) :
    ∃ C : ℝ, 0 < C ∧ ∀ φ : List ℕ → List Θ → List ℝ → ℝ, Observable n K φ → ∃ L : ℝ,
      (Q = noneSaved → L = (posteriorMean like n a b (ν h) fun c θ v =>
        ENNReal.ofReal (atParts φ c θ v)).toReal) ∧
      ∀ (c : Fin n → Fin K) (θ : Fin K → Θ) (v : Fin K → ℝ) (s : Alg G H Θ) (mix : SBState),
        BlockedState E prior Q c θ v h s mix → (∀ k, 0 < v k ∧ v k ≤ 1) →
        ∀ (B N : ℕ), 0 < N → ∀ ε : ℝ, 0 < ε →
        (iterMean E like ν prior K n)^[B] (sumMean E like ν prior K n
          (Set.indicator {x : ℝ | ε ≤ |x / N - L|} 1) (observed φ) N 0) s mix ≤
          ENNReal.ofReal (C / (N * ε ^ 2)) := by
  obtain ⟨δ, h0, h1, hδ⟩ := kernel_limit S n
  refine ⟨2 * (1 + 1 / δ) ^ 2, by positivity, fun φ hφ => ?_⟩
  obtain ⟨L, L0, L1, hL, hlim⟩ := hδ _ hφ.toMeas hφ.le
  refine ⟨L, hL, fun c θ v s mix hs hv B N hN ε hε => ?_⟩
  exact run_average S h0 h1 hφ L0 L1 hlim hs hv B hN hε (measurableSet_le measurable_const
    (((measurable_id.div_const _).sub_const _).norm)) fun x hx => hx

/-- **C110, violated.** With a conjugate hierarchy and fixed hyperparameters, averages of a function
of the value of the first component over the stored iterations of a run of blocked Gibbs are
consistent for its mean under the prior, whatever the data: the probability of any event on which the
average is off this mean by `ε` or more is at most `8 / (N ε²)`. -/
theorem c110_blocked_first_violated (hk : E.kind = .conjugate)
    (S : RunSetup E like ν (firstSaved h) h prior a b) {n : ℕ} (hn : K ≤ n)
    (hchk : sbCheck prior K = .ok ()) (θ0 : Θ) (z : InitNoise) (o : Hier G H Θ) (ho : o.CacheOk) :
    ∃ s mix, blockedInit E prior K n h θ0 z o = .ok (s, mix) ∧
      ∀ ψ : Θ → ℝ, Measurable ψ → (∀ x, 0 ≤ ψ x) → (∀ x, ψ x ≤ 1) →
        ∀ (B N : ℕ), 0 < N → ∀ ε : ℝ, 0 < ε → ∀ A : Set ℝ, MeasurableSet A →
        (∀ x ∈ A, ε ≤ |x / N - (∫⁻ x, ENNReal.ofReal (ψ x) ∂ν h).toReal|) →
        (iterMean E like ν prior K n)^[B] (sumMean E like ν prior K n (Set.indicator A 1)
          (observed (firstValue ψ)) N 0) s mix ≤ ENNReal.ofReal (8 / (N * ε ^ 2)) := by
  obtain ⟨s, mix, e, c, θ, v, hs, hv⟩ := blockedInit_ok hk S.some hn S.params S.apos S.bpos hchk h θ0
    z o ho
  refine ⟨s, mix, e, fun ψ hψ ψ0 ψ1 B N hN ε hε A hA hle => ?_⟩
  have hφ := firstValue_observable (n := n) S.some hψ ψ0 ψ1
  obtain ⟨L, hL⟩ : ∃ L : ℝ, L = (∫⁻ x, ENNReal.ofReal (ψ x) ∂ν h).toReal := ⟨_, rfl⟩
  have hm : Measurable fun x => ENNReal.ofReal (ψ x) := ENNReal.measurable_ofReal.comp hψ
  have hp := S.bayes.prior
  have hone : ∫⁻ x, ENNReal.ofReal (ψ x) ∂ν h ≤ 1 := by
    refine (lintegral_mono (g := fun _ => 1) fun x => ?_).trans (by simp)
    rw [← ENNReal.ofReal_one]
    exact ENNReal.ofReal_le_ofReal (ψ1 x)
  have L0 : 0 ≤ L := hL ▸ ENNReal.toReal_nonneg
  have L1 : L ≤ 1 := hL ▸ ENNReal.toReal_le_of_le_ofReal zero_le_one (by rwa [ENNReal.ofReal_one])
  have hlim : ∀ (c : Fin n → Fin K) (θ : Fin K → Θ) (v : Fin K → ℝ), (∀ k, 0 < v k ∧ v k ≤ 1) →
      ∀ k : ℕ, |((lawKernel like (drawLaws E ν (firstSaved h) h) a b)^[k + 1]
        (fun c θ v => ENNReal.ofReal (atParts (firstValue ψ) c θ v)) c θ v).toReal - L| ≤
          (1 - 1) ^ k := by
    intro c θ v hv k
    simp only [atParts_first S.some]
    rw [kernel_first S hm k c θ hv, hL, sub_self, abs_zero]
    exact pow_nonneg (by norm_num) k
  have := run_average S one_pos le_rfl hφ L0 L1 hlim hs hv B hN hε hA fun x hx => hL ▸ hle x hx
  norm_num at this
  exact this

end general

/-! ### Hierarchies -/

instance : Nonempty UniLS := ⟨⟨0, 1⟩⟩

theorem nnig_setup (y : ℕ → ℝ) (draw : NIG → ℕ → UniLS) {h : NIG} (hv : NigValid h)
    {Q : ℕ → Option NIG} (hQ : ∀ k p, Q k = some p → NigValid p) {prior : SBPrior} {K : ℕ}
    (hK : 0 < K) {a b : Fin K → ℝ} (hsh : ∀ k : Fin K, betaParams prior K k = .ok (a k, b k))
    (ha : ∀ k, 0 < a k) (hb : ∀ k, 0 < b k) :
    RunSetup (SplitMerge.nnigEnv y draw fun h _ _ => h) (fun st i => uniNormLpdf st (y i)) nigLaw Q h
      prior a b :=
  ⟨by simp [SplitMerge.nnigEnv], fun i => measurable_uniNormLpdf (y i), nnig_bayesClusters y draw _ hv,
    fun k p hp => nigLaw_prob p (hQ k p hp).1 (hQ k p hp).2.1 (hQ k p hp).2.2, fun _ _ => rfl, hK, hsh,
    ha, hb⟩

theorem linReg_setup {d : ℕ} (y : ℕ → ℝ) (x : ℕ → Fin d → ℝ) (draw : MNIG d → ℕ → UniLinRegLS d)
    {h : MNIG d} (hv : MnigValid h) {Q : ℕ → Option (MNIG d)}
    (hQ : ∀ k p, Q k = some p → MnigValid p) {prior : SBPrior} {K : ℕ}
    (hK : 0 < K) {a b : Fin K → ℝ} (hsh : ∀ k : Fin K, betaParams prior K k = .ok (a k, b k))
    (ha : ∀ k, 0 < a k) (hb : ∀ k, 0 < b k) :
    RunSetup (linRegEnv y x draw fun h _ _ => h) (fun st i => linRegLpdf st (y i) (x i)) mnigLaw Q h
      prior a b :=
  ⟨by simp [linRegEnv], fun i => (measurable_linRegLpdf (x i)).comp
      (measurable_const.prodMk measurable_id), linReg_bayesClusters y x draw _ hv,
    fun k p hp => mnigLaw_prob p (hQ k p hp).1 (hQ k p hp).2.1 (hQ k p hp).2.2, fun _ _ => rfl, hK, hsh,
    ha, hb⟩

theorem firstSaved_valid {H : Type} {P : H → Prop} {h : H} (hP : P h) :
    ∀ k p, firstSaved h k = some p → P p := by
  intro k p hp
  unfold firstSaved at hp
  split at hp
  · rw [← Option.some.inj hp]
    exact hP
  · cases hp

/-- The setup of C109 and C110 is met, with the state after initialization. -/
example (y : ℕ → ℝ) (draw : NIG → ℕ → UniLS) :
    RunSetup (SplitMerge.nnigEnv y draw fun h _ _ => h) (fun st i => uniNormLpdf st (y i)) nigLaw
      (firstSaved ⟨0, 1, 2, 1⟩) ⟨0, 1, 2, 1⟩ (.dp 2) (K := 3) (fun _ => 1) (fun _ => 2) ∧
    sbCheck (.dp 2) 3 = .ok () ∧ (SplitMerge.nnigEnv y draw fun h _ _ => h).kind = .conjugate :=
  ⟨nnig_setup y draw (by norm_num [NigValid]) (firstSaved_valid (by norm_num [NigValid])) (by omega)
    (fun _ => rfl) (by simp) (by simp), by norm_num [sbCheck], rfl⟩

example (y : ℕ → ℝ) (x : ℕ → Fin 2 → ℝ) (draw : MNIG 2 → ℕ → UniLinRegLS 2) :
    RunSetup (linRegEnv y x draw fun h _ _ => h) (fun st i => linRegLpdf st (y i) (x i)) mnigLaw
      (firstSaved exMNIG) exMNIG (.py 1 (1 / 2)) (K := 3) (fun _ => 1 - 1 / 2)
      (fun k => 1 + (k.val : ℝ) * (1 / 2)) :=
  linReg_setup y x draw (mnigInit_pos exMNIG_valid) (firstSaved_valid (mnigInit_pos exMNIG_valid))
    (by omega) (fun _ => rfl) (fun _ => by norm_num) (fun k => by positivity)

/-- **C109, violated: the limit is not the posterior.** Normal - Normal-inverse-Gamma hierarchy, any
number of components, any number of rows, all equal to the prior mean: there is a set of values such
that in every run of blocked Gibbs, at every iteration, the probability that the value of the first
component is in the set is the same number, which is not the posterior probability. -/
theorem c109_blocked_nnig_violated {h : NIG} (hv : NigValid h) (draw : NIG → ℕ → UniLS) {n K : ℕ}
    (hK : 0 < K) (hn : K ≤ n) {prior : SBPrior} {a b : Fin K → ℝ}
    (hsh : ∀ k : Fin K, betaParams prior K k = .ok (a k, b k)) (ha : ∀ k, 0 < a k)
    (hb : ∀ k, 0 < b k) (hchk : sbCheck prior K = .ok ()) :
    ∃ A : Set UniLS, MeasurableSet A ∧ ∃ p : ℝ,
      p ≠ (posteriorMean (fun st _ => uniNormLpdf st h.mean) n a b (nigLaw h) fun c θ v =>
        ENNReal.ofReal (atParts (firstValue (A.indicator 1)) c θ v)).toReal ∧
      ∀ (θ0 : UniLS) (z : InitNoise) (o : Hier (ℝ × ℝ) NIG UniLS), o.CacheOk → ∃ s mix,
        blockedInit (SplitMerge.nnigEnv (fun _ => h.mean) draw fun h _ _ => h) prior K n h θ0 z o =
          .ok (s, mix) ∧
        ∀ k : ℕ, ((iterMean (SplitMerge.nnigEnv (fun _ => h.mean) draw fun h _ _ => h)
          (fun st _ => uniNormLpdf st h.mean) nigLaw prior K n)^[k + 1]
          (fun s mix => ENNReal.ofReal (observed (firstValue (A.indicator 1)) s mix)) s mix).toReal =
            p := by
  have S := nnig_setup (fun _ => h.mean) draw hv (firstSaved_valid hv) hK hsh ha hb
  obtain ⟨A, hA, hne⟩ := nnig_first_ne hv draw (n := n) (by omega) S
  have hind : ∀ x, ENNReal.ofReal (A.indicator (1 : UniLS → ℝ) x) = A.indicator 1 x := by
    intro x
    by_cases hx : x ∈ A <;> simp [hx]
  refine ⟨A, hA, (nigLaw h A).toReal, ?_, fun θ0 z o ho => ?_⟩
  · simp only [atParts_first hK, hind]
    exact hne
  · obtain ⟨s, mix, e, hr⟩ := c109_blocked_first_violated (by rfl) S hn hchk θ0 z o ho
    refine ⟨s, mix, e, fun k => ?_⟩
    rw [hr _ (measurable_one.indicator hA) k]
    simp only [hind]
    rw [lintegral_indicator_one hA]

/-- **C110, violated: the averages miss the posterior.** In the same runs, there is a positive `ε` such
that the probability that the average over `N` stored iterations is closer than `ε` to the posterior
probability vanishes as `N` grows. -/
theorem c110_blocked_nnig_violated {h : NIG} (hv : NigValid h) (draw : NIG → ℕ → UniLS) {n K : ℕ}
    (hK : 0 < K) (hn : K ≤ n) {prior : SBPrior} {a b : Fin K → ℝ}
    (hsh : ∀ k : Fin K, betaParams prior K k = .ok (a k, b k)) (ha : ∀ k, 0 < a k)
    (hb : ∀ k, 0 < b k) (hchk : sbCheck prior K = .ok ()) :
    ∃ A : Set UniLS, MeasurableSet A ∧ ∃ ε : ℝ, 0 < ε ∧
      ∀ (θ0 : UniLS) (z : InitNoise) (o : Hier (ℝ × ℝ) NIG UniLS), o.CacheOk → ∃ s mix,
        blockedInit (SplitMerge.nnigEnv (fun _ => h.mean) draw fun h _ _ => h) prior K n h θ0 z o =
          .ok (s, mix) ∧
        ∀ (B N : ℕ), 0 < N →
          (iterMean (SplitMerge.nnigEnv (fun _ => h.mean) draw fun h _ _ => h)
            (fun st _ => uniNormLpdf st h.mean) nigLaw prior K n)^[B]
            (sumMean (SplitMerge.nnigEnv (fun _ => h.mean) draw fun h _ _ => h)
              (fun st _ => uniNormLpdf st h.mean) nigLaw prior K n
              (Set.indicator {x : ℝ | |x / N - (posteriorMean (fun st _ => uniNormLpdf st h.mean) n a b
                (nigLaw h) fun c θ v => ENNReal.ofReal
                  (atParts (firstValue (A.indicator 1)) c θ v)).toReal| < ε} 1)
              (observed (firstValue (A.indicator 1))) N 0) s mix ≤
            ENNReal.ofReal (8 / (N * ε ^ 2)) := by
  have S := nnig_setup (fun _ => h.mean) draw hv (firstSaved_valid hv) hK hsh ha hb
  obtain ⟨A, hA, hne⟩ := nnig_first_ne hv draw (n := n) (by omega) S
  have hind : ∀ x, ENNReal.ofReal (A.indicator (1 : UniLS → ℝ) x) = A.indicator 1 x := by
    intro x
    by_cases hx : x ∈ A <;> simp [hx]
  obtain ⟨m, hm⟩ : ∃ m : ℝ, m = (posteriorMean (fun st _ => uniNormLpdf st h.mean) n a b (nigLaw h)
    (fun _ θ _ => A.indicator 1 (θ ⟨0, S.some⟩))).toReal := ⟨_, rfl⟩
  rw [← hm] at hne
  have hε : 0 < |(nigLaw h A).toReal - m| / 2 := half_pos (abs_pos.mpr (sub_ne_zero.mpr hne))
  refine ⟨A, hA, |(nigLaw h A).toReal - m| / 2, hε, fun θ0 z o ho => ?_⟩
  simp only [atParts_first hK, hind]
  rw [← hm]
  obtain ⟨s, mix, e, hr⟩ := c110_blocked_first_violated (by rfl) S hn hchk θ0 z o ho
  refine ⟨s, mix, e, fun B N hN => ?_⟩
  have hmean : ∫⁻ x, ENNReal.ofReal (A.indicator (1 : UniLS → ℝ) x) ∂nigLaw h = nigLaw h A := by
    simp only [hind]
    rw [lintegral_indicator_one hA]
  refine hr _ (measurable_one.indicator hA) (fun x => Set.indicator_nonneg (by simp) x)
    (fun x => Set.indicator_le_self' (by simp) x |>.trans (by simp)) B N hN _ hε _
    (measurableSet_lt ((measurable_id.div_const _).sub_const _).norm measurable_const) fun x hx => ?_
  rw [hmean]
  have hx' : |x / N - m| < |(nigLaw h A).toReal - m| / 2 := hx
  have := abs_sub_le (nigLaw h A).toReal (x / N) m
  rw [abs_sub_comm (nigLaw h A).toReal (x / N)] at this
  linarith

end Bayesmix.Cond
