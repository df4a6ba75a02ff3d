import Verif.Algo.BlockedDensAvg
import Verif.Algo.PropsBlockedDens

/-!
# C141: averages of the density estimates of blocked Gibbs

`Chain.averageProb` is the probability that the average of the estimates over the states stored by
`BaseAlgorithm::run` lies in a set; it is infinite if the run or an estimate fails.
-/

namespace Bayesmix.Cond
open Bayesmix Mixing Slice Gibbs MeasureTheory ENNReal Hierarchies Chain Density Filter Topology

section general

variable {G H Θ : Type} [AddCommGroup G] [MeasurableSpace Θ] [Nonempty Θ]
  {E : Env G H Θ} {like : Θ → ℕ → ℝ} {ν : H → Measure Θ} {Q : ℕ → Option H} {h : H}
  {prior : SBPrior} {K : ℕ} {a b : Fin K → ℝ} {pred : H → ℕ → ℝ} {V : H → Prop}

/-- The average of the density estimates at grid point `x` over the states stored by a run from `s` and
`mix` is close to `L` with high probability if many states are stored: for the given error and
probability, `N0` are enough. -/
def AverageNear (E : Env G H Θ) (like : Θ → ℕ → ℝ) (ν : H → Measure Θ) (prior : SBPrior) (K n x : ℕ)
    (L ε η : ℝ) (N0 : ℕ) (s : Alg G H Θ) (mix : SBState) : Prop :=
  ∀ maxiter burnin : ℕ, burnin + N0 ≤ maxiter → ∀ D : Set ℝ, MeasurableSet D →
    (∀ t ∈ D, ε ≤ |t - L|) →
    averageProb (blockedIter E like ν prior K n) (Measure.dirac ())
      (fun p _ => conditionalAt like x p.1 p.2) maxiter burnin D (s, mix) ≤ ENNReal.ofReal η

/-- The limit of means is the limit of averages. -/
theorem average_near (S : RunSetup E like ν Q h prior a b) (C : Conjugate E like pred ν V) (hv : V h)
    (hQ : ∀ k p, Q k = some p → V p) (n x : ℕ) :
    ∃ L : ℝ, (Q = noneSaved → stickPredictive like n a b (ν h) x = ENNReal.ofReal L) ∧
      (∀ (c : Fin n → Fin K) (θ : Fin K → Θ) (v : Fin K → ℝ) (s : Alg G H Θ) (mix : SBState),
        BlockedState E prior Q c θ v h s mix → (∀ k, 0 < v k ∧ v k ≤ 1) →
        Tendsto (fun k : ℕ => ((iterMean E like ν prior K n)^[k + 1]
          (conditionalAt like x) s mix).toReal) atTop (𝓝 L) ∧
        ∀ k, (iterMean E like ν prior K n)^[k + 1] (conditionalAt like x) s mix ≠ ∞) ∧
      ∀ ε : ℝ, 0 < ε → ∀ η : ℝ, 0 < η → ∃ N0 : ℕ,
        ∀ (c : Fin n → Fin K) (θ : Fin K → Θ) (v : Fin K → ℝ) (s : Alg G H Θ) (mix : SBState),
        BlockedState E prior Q c θ v h s mix → (∀ k, 0 < v k ∧ v k ≤ 1) →
        AverageNear E like ν prior K n x L ε η N0 s mix := by
  obtain ⟨δ, h0, h1, hδ⟩ := kernelSum_consistent S n
  have hΦ := stickDens_meas (n := n) (K := K) S.like_meas x
  have hfin : ∀ c, condMean (drawLaws E ν Q h) a b (fun (_ : Fin n → Fin K) θ v =>
      ENNReal.ofReal (stickDens like x θ v)) c ≠ ∞ := fun c =>
    condMean_pred_ne_top C hQ hv S.apos S.bpos x c
  obtain ⟨L, B, L0, hL, hlim, hav⟩ := hδ _ hΦ (fun _ _ _ => ofReal_ne_top) hfin
  refine ⟨L, fun hq => ?_, fun c θ v s mix hs hv' => ⟨?_, fun k => ?_⟩, fun ε hε η hη => ?_⟩
  · have hp := S.bayes.prior
    rw [hL hq, ← stickPredictive_eq S.like_meas S.apos S.bpos]
    subst hq
    obtain ⟨w, -, -, hw⟩ := labelPost_int S n
    exact (ENNReal.ofReal_toReal (hw _ hΦ hfin).1).symm
  · rw [tendsto_iff_norm_sub_tendsto_zero]
    have ht : Tendsto (fun k : ℕ => B * (1 - δ) ^ k) atTop (𝓝 (B * 0)) :=
      (_root_.tendsto_pow_atTop_nhds_zero_of_lt_one (by linarith) (by linarith)).const_mul _
    rw [mul_zero] at ht
    refine squeeze_zero (fun _ => norm_nonneg _) (fun k => ?_) ht
    rw [conditional_iterate S x (k + 1) hs hv', Real.norm_eq_abs]
    exact (hlim c θ v hv' k).2
  · rw [conditional_iterate S x (k + 1) hs hv']
    exact (hlim c θ v hv' k).1
  · obtain ⟨N0, hN⟩ := hav ε hε η hη
    refine ⟨N0, fun c θ v s mix hs hv' maxiter burnin hle D hD hDε => ?_⟩
    obtain ⟨N, rfl⟩ : ∃ N, maxiter = burnin + N := ⟨maxiter - burnin, by omega⟩
    have hF : Measurable (Set.indicator {t : ℝ | t / N ∈ D} (1 : ℝ → ℝ≥0∞)) :=
      measurable_one.indicator ((measurable_id.div_const _) hD)
    rw [averageProb_eq, blockedIter_iterate]
    have hm : Meas fun (c : Fin n → Fin K) θ v => kernelSum like (drawLaws E ν Q h) a b
        (Set.indicator {t : ℝ | t / N ∈ D} 1)
        (fun (_ : Fin n → Fin K) θ v => (ENNReal.ofReal (stickDens like x θ v)).toReal) N 0 c θ v :=
      kernelSum_fixed S hF (fun c => (hΦ c).ennreal_toReal) N
    rw [iterMean_iterate S hm (fun c θ v s mix hs hv => runSum_eq S hF hΦ (fun _ _ _ => ofReal_ne_top)
      (fun _ _ _ _ _ hs hv => conditionalAt_state hs S.some hv x) N 0 c θ v s mix hs hv) burnin c θ v s
      mix hs hv']
    refine kernel_iterate_le S (fun c θ v hv => (kernelSum_mono S (fun t => ?_) _ N 0 c θ v).trans
      (hN N (by omega) c θ v hv)) burnin c θ v hv'
    by_cases ht : t / N ∈ D
    · have : t ∈ {t : ℝ | t / N ∈ D} := ht
      have h2 : t ∈ {x : ℝ | ε ≤ |x / N - L|} := hDε _ ht
      rw [Set.indicator_of_mem this, Set.indicator_of_mem h2]
    · have : t ∉ {t : ℝ | t / N ∈ D} := ht
      rw [Set.indicator_of_notMem this]
      exact zero_le

/-- **C141 (partial: the limit is the posterior predictive density only if no object has saved
hyperparameters).** The average of the density estimates at every grid point over the stored states
converges in probability, uniformly in the state that the run starts from and in the burn-in. If nothing
is saved, the limit is the posterior predictive density. `BaseAlgorithm::initialize` saves
hyperparameters in the first object if the hierarchy is conjugate: see `c141_nnig_violated`. -/
theorem c141_blocked_average_partial (S : RunSetup E like ν Q h prior a b)
    (C : Conjugate E like pred ν V) (hv : V h) (hQ : ∀ k p, Q k = some p → V p) (n x : ℕ) :
    ∃ L : ℝ, (Q = noneSaved → stickPredictive like n a b (ν h) x = ENNReal.ofReal L) ∧
      ∀ ε : ℝ, 0 < ε → ∀ η : ℝ, 0 < η → ∃ N0 : ℕ,
        ∀ (c : Fin n → Fin K) (θ : Fin K → Θ) (v : Fin K → ℝ) (s : Alg G H Θ) (mix : SBState),
        BlockedState E prior Q c θ v h s mix → (∀ k, 0 < v k ∧ v k ≤ 1) →
        AverageNear E like ν prior K n x L ε η N0 s mix := by
  obtain ⟨L, h1, -, h2⟩ := average_near S C hv hQ n x
  exact ⟨L, h1, h2⟩

/-- **C141 (partial), runs from initialization.** -/
theorem c141_initialize_partial (hk : E.kind = .conjugate)
    (S : RunSetup E like ν (firstSaved h) h prior a b) (C : Conjugate E like pred ν V) (hv : V h)
    {n : ℕ} (hn : K ≤ n) (hchk : sbCheck prior K = .ok ()) (x : ℕ) :
    ∃ L : ℝ, ∀ ε : ℝ, 0 < ε → ∀ η : ℝ, 0 < η → ∃ N0 : ℕ,
      ∀ (θ0 : Θ) (z : InitNoise) (o : Hier G H Θ), o.CacheOk → ∃ s mix,
        blockedInit E prior K n h θ0 z o = .ok (s, mix) ∧
        AverageNear E like ν prior K n x L ε η N0 s mix := by
  obtain ⟨L, -, -, h2⟩ := average_near S C hv (firstSaved_valid hv) n x
  refine ⟨L, fun ε hε η hη => ?_⟩
  obtain ⟨N0, hN⟩ := h2 ε hε η hη
  refine ⟨N0, fun θ0 z o ho => ?_⟩
  obtain ⟨s, mix, e, c, θ, v, hs, hv'⟩ := blockedInit_ok hk S.some hn S.params S.apos S.bpos hchk h θ0
    z o ho
  exact ⟨s, mix, e, hN c θ v s mix hs hv'⟩

/-- **C141, violated: one component.** With one component the average converges to the predictive
density of the prior, whatever the data. -/
theorem c141_single_violated {a b : Fin 1 → ℝ} (hk : E.kind = .conjugate)
    (S : RunSetup E like ν (firstSaved h) h prior a b) (C : Conjugate E like pred ν V) (hv : V h)
    {n : ℕ} (hn : 1 ≤ n) (hchk : sbCheck prior 1 = .ok ()) (x : ℕ) :
    ∀ ε : ℝ, 0 < ε → ∀ η : ℝ, 0 < η → ∃ N0 : ℕ,
      ∀ (θ0 : Θ) (z : InitNoise) (o : Hier G H Θ), o.CacheOk → ∃ s mix,
        blockedInit E prior 1 n h θ0 z o = .ok (s, mix) ∧
        AverageNear E like ν prior 1 n x (Real.exp (pred h x)) ε η N0 s mix := by
  obtain ⟨L, -, h1, h2⟩ := average_near S C hv (firstSaved_valid hv) n x
  have hL : L = Real.exp (pred h x) := by
    obtain ⟨θ0⟩ := ‹Nonempty Θ›
    obtain ⟨z⟩ : Nonempty InitNoise := ⟨⟨id, id⟩⟩
    obtain ⟨s, mix, e, hr⟩ := c140_single_violated hk S C hv hn hchk θ0 z
      ⟨θ0, 0, ∅, 0, false, none⟩ (by simp [Hier.CacheOk])
    obtain ⟨s', mix', e', c, θ, v, hs, hv'⟩ := blockedInit_ok hk S.some hn S.params S.apos S.bpos hchk h
      θ0 z ⟨θ0, 0, ∅, 0, false, none⟩ (by simp [Hier.CacheOk])
    obtain ⟨rfl, rfl⟩ := Prod.mk.inj (Except.ok.inj (e.symm.trans e'))
    have ht := (h1 c θ v s mix hs hv').1
    simp only [hr x, ENNReal.toReal_ofReal (Real.exp_pos _).le] at ht
    exact tendsto_nhds_unique ht tendsto_const_nhds
  subst hL
  intro ε hε η hη
  obtain ⟨N0, hN⟩ := h2 ε hε η hη
  refine ⟨N0, fun θ0 z o ho => ?_⟩
  obtain ⟨s, mix, e, c, θ, v, hs, hv'⟩ := blockedInit_ok hk S.some hn S.params S.apos S.bpos hchk h θ0
    z o ho
  exact ⟨s, mix, e, hN c θ v s mix hs hv'⟩

end general

/-! ### Normal - Normal-inverse-Gamma hierarchy -/

/-- C141, partial: ten rows, three components, runs from initialization. -/
example (y : ℕ → ℝ) (draw : NIG → ℕ → UniLS) (x : ℕ) :
    ∃ L : ℝ, ∀ ε : ℝ, 0 < ε → ∀ η : ℝ, 0 < η → ∃ N0 : ℕ,
      ∀ (θ0 : UniLS) (z : InitNoise) (o : Hier (ℝ × ℝ) NIG UniLS), o.CacheOk → ∃ s mix,
        blockedInit (SplitMerge.nnigEnv y draw fun h _ _ => h) (.dp 2) 3 10 ⟨0, 1, 2, 1⟩ θ0 z o =
          .ok (s, mix) ∧
        AverageNear (SplitMerge.nnigEnv y draw fun h _ _ => h) (fun st i => uniNormLpdf st (y i)) nigLaw
          (.dp 2) 3 10 x L ε η N0 s mix :=
  have : Nonempty UniLS := ⟨⟨0, 1⟩⟩
  c141_initialize_partial rfl (nnig_setup y draw (by norm_num [NigValid])
    (firstSaved_valid (by norm_num [NigValid])) (a := fun _ => 1) (b := fun _ => 2) (by omega)
    (fun _ => rfl) (by simp) (by simp)) (nnig_conjugate y draw _) (by norm_num [NigValid]) (by omega)
    (by norm_num [sbCheck]) x

/-- **C141, violated: the limit is not the posterior predictive density.** In the setting of
`c140_nnig_violated`, far from the data, the probability that the average of the density estimates over
the stored states is within `ε` of the posterior predictive density vanishes as more states are stored:
the longer the run, the more surely the estimate is wrong. -/
theorem c141_nnig_violated {h : NIG} (hv : NigValid h) (draw : NIG → ℕ → UniLS) {n : ℕ} (hn : 2 ≤ n)
    {prior : SBPrior} {a b : Fin 2 → ℝ} (hsh : ∀ k : Fin 2, betaParams prior 2 k = .ok (a k, b k))
    (ha : ∀ k, 0 < a k) (hb : ∀ k, 0 < b k) (hchk : sbCheck prior 2 = .ok ()) (hab : b 0 ≤ a 0)
    {y : ℕ → ℝ} (hy : ∀ i < n, y i = h.mean) (hinf : Tendsto y atTop atTop) :
    ∀ᶠ x in atTop, ∃ ε : ℝ, 0 < ε ∧
      stickPredictive (fun st i => uniNormLpdf st (y i)) n a b (nigLaw h) x ≠ ∞ ∧
      ∀ η : ℝ, 0 < η → ∃ N0 : ℕ,
        ∀ (θ0 : UniLS) (z : InitNoise) (o : Hier (ℝ × ℝ) NIG UniLS), o.CacheOk → ∃ s mix,
          blockedInit (SplitMerge.nnigEnv y draw fun h _ _ => h) prior 2 n h θ0 z o = .ok (s, mix) ∧
          ∀ maxiter burnin : ℕ, burnin + N0 ≤ maxiter →
          averageProb (blockedIter (SplitMerge.nnigEnv y draw fun h _ _ => h)
            (fun st i => uniNormLpdf st (y i)) nigLaw prior 2 n) (Measure.dirac ())
            (fun p _ => conditionalAt (fun st i => uniNormLpdf st (y i)) x p.1 p.2) maxiter burnin
            {t | |t - (stickPredictive (fun st i => uniNormLpdf st (y i)) n a b (nigLaw h) x).toReal| ≤ ε}
            (s, mix) ≤ ENNReal.ofReal η := by
  have C := nnig_conjugate y draw fun h _ _ => h
  have S := nnig_setup y draw hv (firstSaved_valid hv) (by norm_num) hsh ha hb
  have hkind : (SplitMerge.nnigEnv y draw fun h _ _ => h).kind = .conjugate := rfl
  filter_upwards [c140_nnig_violated hv draw hn hsh ha hb hchk hab hy hinf] with x ⟨ε, hε, hfin, hx⟩
  obtain ⟨L, -, h1, h2⟩ := average_near S C hv (firstSaved_valid hv) n x
  obtain ⟨p, hp⟩ : ∃ p, p = (stickPredictive (fun st i => uniNormLpdf st (y i)) n a b
    (nigLaw h) x).toReal := ⟨_, rfl⟩
  have p0 : 0 ≤ p := hp ▸ ENNReal.toReal_nonneg
  have hL : p + ε ≤ L := by
    obtain ⟨z⟩ : Nonempty InitNoise := ⟨⟨id, id⟩⟩
    obtain ⟨s, mix, e, hr⟩ := hx ⟨0, 1⟩ z ⟨⟨0, 1⟩, 0, ∅, 0, false, none⟩ (by simp [Hier.CacheOk])
    obtain ⟨s', mix', e', c, θ, v, hs, hv'⟩ := blockedInit_ok hkind S.some hn S.params S.apos S.bpos
      hchk h ⟨0, 1⟩ z ⟨⟨0, 1⟩, 0, ∅, 0, false, none⟩ (by simp [Hier.CacheOk])
    obtain ⟨rfl, rfl⟩ := Prod.mk.inj (Except.ok.inj (e.symm.trans e'))
    obtain ⟨ht, hf⟩ := h1 c θ v s mix hs hv'
    refine ge_of_tendsto' ht fun k => ?_
    have := ENNReal.toReal_mono (hf k) (hr k)
    rwa [ENNReal.toReal_add hfin ENNReal.ofReal_ne_top, ENNReal.toReal_ofReal hε.le, ← hp] at this
  refine ⟨ε / 2, by positivity, hfin, fun η hη => ?_⟩
  obtain ⟨N0, hN⟩ := h2 (ε / 2) (by positivity) η hη
  refine ⟨N0, fun θ0 z o ho => ?_⟩
  obtain ⟨s, mix, e, c, θ, v, hs, hv'⟩ := blockedInit_ok hkind S.some hn S.params S.apos S.bpos hchk h
    θ0 z o ho
  refine ⟨s, mix, e, fun maxiter burnin hle => hN c θ v s mix hs hv' maxiter burnin hle _ ?_ ?_⟩
  · exact measurableSet_le (measurable_id.sub_const _).norm measurable_const
  · intro t ht
    simp only [Set.mem_setOf_eq] at ht
    rw [← hp] at ht
    rw [abs_le] at ht
    rw [abs_sub_comm, le_abs]
    left
    linarith [ht.2]

/-- C141: the setting of the example for `c140_nnig_violated`. -/
example (draw : NIG → ℕ → UniLS) :
    ∃ (x : ℕ) (ε : ℝ), 0 < ε ∧ ∀ η : ℝ, 0 < η → ∃ N0 : ℕ,
      ∀ (θ0 : UniLS) (z : InitNoise) (o : Hier (ℝ × ℝ) NIG UniLS), o.CacheOk → ∃ s mix,
        blockedInit (SplitMerge.nnigEnv (fun i => if i < 10 then 0 else i) draw fun h _ _ => h) (.dp 1) 2
          10 ⟨0, 1, 2, 1⟩ θ0 z o = .ok (s, mix) ∧
        ∀ maxiter burnin : ℕ, burnin + N0 ≤ maxiter →
        averageProb (blockedIter (SplitMerge.nnigEnv (fun i => if i < 10 then 0 else i) draw
            fun h _ _ => h) (fun st i => uniNormLpdf st (if i < 10 then 0 else i)) nigLaw (.dp 1) 2 10)
          (Measure.dirac ())
          (fun p _ => conditionalAt (fun st i => uniNormLpdf st (if i < 10 then 0 else i)) x p.1 p.2)
          maxiter burnin {t | |t - (stickPredictive (fun st i => uniNormLpdf st (if i < 10 then 0 else i))
            10 (fun _ : Fin 2 => 1) (fun _ => 1) (nigLaw ⟨0, 1, 2, 1⟩) x).toReal| ≤ ε} (s, mix) ≤
          ENNReal.ofReal η := by
  have hinf : Tendsto (fun i : ℕ => if i < 10 then (0 : ℝ) else i) atTop atTop := by
    refine (tendsto_natCast_atTop_atTop (R := ℝ)).congr' ?_
    filter_upwards [eventually_ge_atTop 10] with i hi
    rw [if_neg (by omega)]
  obtain ⟨x, ε, hε, -, hx⟩ := (c141_nnig_violated (h := ⟨0, 1, 2, 1⟩) (by norm_num [NigValid]) draw
    (n := 10) (by omega) (prior := .dp 1) (a := fun _ => 1) (b := fun _ => 1) (fun _ => rfl) (by simp)
    (by simp) (by norm_num [sbCheck]) le_rfl (fun i hi => by simp [hi]) hinf).exists
  exact ⟨x, ε, hε, hx⟩

end Bayesmix.Cond
