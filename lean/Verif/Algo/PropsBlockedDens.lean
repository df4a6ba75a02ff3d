import Verif.Algo.BlockedDensTail
import Verif.Algo.PropsBlockedConv

/-!
# C140: the density estimates of blocked Gibbs

`conditionalAt like x` is the exponential of what `ConditionalAlgorithm::lpdf_from_state` computes at
grid point `x`; `iterMean` is the mean over all draws of an iteration, infinite if the iteration fails.
-/

namespace Bayesmix.Cond
open Bayesmix Mixing Slice Gibbs MeasureTheory ENNReal Hierarchies Chain Density Filter Topology

section general

variable {G H Θ : Type} [AddCommGroup G] [MeasurableSpace Θ] [Nonempty Θ]
  {E : Env G H Θ} {like : Θ → ℕ → ℝ} {ν : H → Measure Θ} {Q : ℕ → Option H} {h : H}
  {prior : SBPrior} {K : ℕ} {a b : Fin K → ℝ} {pred : H → ℕ → ℝ} {V : H → Prop}

theorem conditional_iterate {n : ℕ} (S : RunSetup E like ν Q h prior a b) (x k : ℕ)
    {c : Fin n → Fin K} {θ : Fin K → Θ} {v : Fin K → ℝ} {s : Alg G H Θ} {mix : SBState}
    (hs : BlockedState E prior Q c θ v h s mix) (hv : ∀ k, 0 < v k ∧ v k ≤ 1) :
    (iterMean E like ν prior K n)^[k] (conditionalAt like x) s mix =
      (lawKernel like (drawLaws E ν Q h) a b)^[k]
        (fun _ θ v => ENNReal.ofReal (stickDens like x θ v)) c θ v :=
  iterMean_iterate S (stickDens_meas S.like_meas x)
    (fun _ _ _ _ _ hs hv => conditionalAt_state hs S.some hv x) k c θ v s mix hs hv

/-- **C140 (partial: the limit is the posterior predictive density only if no object has saved
hyperparameters).** From every state, and whatever the saved hyperparameters, the mean of the density
estimate at every grid point after `k + 1` iterations is finite and approaches a limit geometrically,
with a rate that is the same for all grid points; the limit does not depend on the start. If nothing is
saved, the limit is the posterior predictive density: the marginal density of the data together with
the grid point over that of the data. `BaseAlgorithm::initialize` saves hyperparameters in the first
object if the hierarchy is conjugate: see `c140_nnig_violated`. -/
theorem c140_blocked_density_partial (S : RunSetup E like ν Q h prior a b)
    (C : Conjugate E like pred ν V) (hv : V h) (hQ : ∀ k p, Q k = some p → V p) (n : ℕ) :
    ∃ δ : ℝ, 0 < δ ∧ δ ≤ 1 ∧ ∀ x : ℕ, ∃ L B : ℝ,
      (Q = noneSaved → stickPredictive like n a b (ν h) x = ENNReal.ofReal L) ∧
      ∀ (c : Fin n → Fin K) (θ : Fin K → Θ) (v : Fin K → ℝ) (s : Alg G H Θ) (mix : SBState),
        BlockedState E prior Q c θ v h s mix → (∀ k, 0 < v k ∧ v k ≤ 1) → ∀ k : ℕ,
        (iterMean E like ν prior K n)^[k + 1] (conditionalAt like x) s mix ≠ ∞ ∧
        |((iterMean E like ν prior K n)^[k + 1] (conditionalAt like x) s mix).toReal - L| ≤
          B * (1 - δ) ^ k := by
  obtain ⟨δ, h0, h1, hδ⟩ := kernel_limit_int S n
  refine ⟨δ, h0, h1, fun x => ?_⟩
  obtain ⟨L, B, L0, hL, hlim⟩ := hδ _ (stickDens_meas S.like_meas x) fun c =>
    condMean_pred_ne_top C hQ hv S.apos S.bpos x c
  refine ⟨L, B, fun hq => ?_, fun c θ v s mix hs hv' k => ?_⟩
  · have hp := S.bayes.prior
    rw [hL hq, ← stickPredictive_eq S.like_meas S.apos S.bpos]
    subst hq
    obtain ⟨w, -, -, hw⟩ := labelPost_int S n
    exact (ENNReal.ofReal_toReal (hw _ (stickDens_meas S.like_meas x) fun c =>
      condMean_pred_ne_top C hQ hv S.apos S.bpos x c).1).symm
  · rw [conditional_iterate S x (k + 1) hs hv']
    exact hlim c θ v hv' k

/-- **C140 (partial), runs from initialization.** With a conjugate hierarchy initialization succeeds,
and from the state it leads to, whatever its draws, the means of the density estimates converge. -/
theorem c140_initialize_partial (hk : E.kind = .conjugate)
    (S : RunSetup E like ν (firstSaved h) h prior a b) (C : Conjugate E like pred ν V) (hv : V h)
    {n : ℕ} (hn : K ≤ n) (hchk : sbCheck prior K = .ok ()) :
    ∃ δ : ℝ, 0 < δ ∧ δ ≤ 1 ∧ ∀ x : ℕ, ∃ L B : ℝ,
      ∀ (θ0 : Θ) (z : InitNoise) (o : Hier G H Θ), o.CacheOk → ∃ s mix,
        blockedInit E prior K n h θ0 z o = .ok (s, mix) ∧ ∀ k : ℕ,
        (iterMean E like ν prior K n)^[k + 1] (conditionalAt like x) s mix ≠ ∞ ∧
        |((iterMean E like ν prior K n)^[k + 1] (conditionalAt like x) s mix).toReal - L| ≤
          B * (1 - δ) ^ k := by
  obtain ⟨δ, h0, h1, hδ⟩ := c140_blocked_density_partial S C hv (firstSaved_valid hv) n
  refine ⟨δ, h0, h1, fun x => ?_⟩
  obtain ⟨L, B, -, hL⟩ := hδ x
  refine ⟨L, B, fun θ0 z o ho => ?_⟩
  obtain ⟨s, mix, e, c, θ, v, hs, hv'⟩ := blockedInit_ok hk S.some hn S.params S.apos S.bpos hchk h θ0
    z o ho
  exact ⟨s, mix, e, hL c θ v s mix hs hv'⟩

/-- **C140, violated: one component.** In every run with one component, at every iteration, the mean of
the density estimate at every grid point is the predictive density of the prior, whatever the data. -/
theorem c140_single_violated {a b : Fin 1 → ℝ} (hk : E.kind = .conjugate)
    (S : RunSetup E like ν (firstSaved h) h prior a b) (C : Conjugate E like pred ν V) (hv : V h)
    {n : ℕ} (hn : 1 ≤ n) (hchk : sbCheck prior 1 = .ok ()) (θ0 : Θ) (z : InitNoise) (o : Hier G H Θ)
    (ho : o.CacheOk) :
    ∃ s mix, blockedInit E prior 1 n h θ0 z o = .ok (s, mix) ∧ ∀ x k : ℕ,
      (iterMean E like ν prior 1 n)^[k + 1] (conditionalAt like x) s mix =
        ENNReal.ofReal (Real.exp (pred h x)) := by
  obtain ⟨s, mix, e, c, θ, v, hs, hv'⟩ := blockedInit_ok hk S.some hn S.params S.apos S.bpos hchk h θ0
    z o ho
  refine ⟨s, mix, e, fun x k => ?_⟩
  have hc : ∀ c : Fin n → Fin 1, condMean (drawLaws E ν (firstSaved h) h) a b
      (fun _ θ v => ENNReal.ofReal (stickDens like x θ v)) c =
        ENNReal.ofReal (Real.exp (pred h x)) := by
    intro c
    rw [condMean_pred C (firstSaved_valid hv) hv S.apos S.bpos x c]
    have hm := meanWeight_only (shape_pos S.apos (cnt c)) (shape_pos S.bpos (later c))
    have hd : drawHyp E (firstSaved h) h c 0 = h := by simp [drawHyp, firstSaved]
    rw [Fin.sum_univ_one, hm, hd, one_mul]
  have hμ := drawLaws_prob (n := n) (K := 1) S.bayes S.saved
  rw [conditional_iterate S x (k + 1) hs hv', lawKernel_labels hμ S.apos S.bpos]
  refine le_antisymm (kernel_iterate_le S (fun c _ _ _ => (hc c).le) (k + 1) c θ v hv')
    (kernel_iterate_ge S (fun c _ _ _ => (hc c).ge) (k + 1) c θ v hv')

/-- **C140, violated: more components.** In every run with two components or more, at every iteration,
the mean of the density estimate at every grid point is at least a fixed share of the predictive
density of the prior, whatever the data: the share that the first component has when it is empty. -/
theorem c140_share_violated (hk : E.kind = .conjugate)
    (S : RunSetup E like ν (firstSaved h) h prior a b) (C : Conjugate E like pred ν V) (hv : V h)
    (hK : 1 < K) {n : ℕ} (hn : K ≤ n) (hchk : sbCheck prior K = .ok ()) (θ0 : Θ) (z : InitNoise)
    (o : Hier G H Θ) (ho : o.CacheOk) :
    ∃ s mix, blockedInit E prior K n h θ0 z o = .ok (s, mix) ∧ ∀ x k : ℕ,
      ENNReal.ofReal (a ⟨0, S.some⟩ / (a ⟨0, S.some⟩ + b ⟨0, S.some⟩ + n) * Real.exp (pred h x)) ≤
        (iterMean E like ν prior K n)^[k + 1] (conditionalAt like x) s mix := by
  obtain ⟨s, mix, e, c, θ, v, hs, hv'⟩ := blockedInit_ok hk S.some hn S.params S.apos S.bpos hchk h θ0
    z o ho
  refine ⟨s, mix, e, fun x k => ?_⟩
  have hμ := drawLaws_prob (n := n) (K := K) S.bayes S.saved
  rw [conditional_iterate S x (k + 1) hs hv', lawKernel_labels hμ S.apos S.bpos]
  exact kernel_iterate_ge S (fun c _ _ _ => condMean_first_le C hv S.apos S.bpos hK x c) (k + 1) c θ v
    hv'

end general

/-! ### Normal - Normal-inverse-Gamma hierarchy -/

/-- C140, partial: ten rows, three components, runs from initialization. -/
example (y : ℕ → ℝ) (draw : NIG → ℕ → UniLS) :
    ∃ δ : ℝ, 0 < δ ∧ δ ≤ 1 ∧ ∀ x : ℕ, ∃ L B : ℝ,
      ∀ (θ0 : UniLS) (z : InitNoise) (o : Hier (ℝ × ℝ) NIG UniLS), o.CacheOk → ∃ s mix,
        blockedInit (SplitMerge.nnigEnv y draw fun h _ _ => h) (.dp 2) 3 10 ⟨0, 1, 2, 1⟩ θ0 z o =
          .ok (s, mix) ∧ ∀ k : ℕ,
        (iterMean (SplitMerge.nnigEnv y draw fun h _ _ => h) (fun st i => uniNormLpdf st (y i)) nigLaw
          (.dp 2) 3 10)^[k + 1] (conditionalAt (fun st i => uniNormLpdf st (y i)) x) s mix ≠ ∞ ∧
        |((iterMean (SplitMerge.nnigEnv y draw fun h _ _ => h) (fun st i => uniNormLpdf st (y i)) nigLaw
          (.dp 2) 3 10)^[k + 1] (conditionalAt (fun st i => uniNormLpdf st (y i)) x) s mix).toReal - L| ≤
          B * (1 - δ) ^ k :=
  c140_initialize_partial rfl (nnig_setup y draw (by norm_num [NigValid])
    (firstSaved_valid (by norm_num [NigValid])) (a := fun _ => 1) (b := fun _ => 2) (by omega)
    (fun _ => rfl) (by simp) (by simp)) (nnig_conjugate y draw _) (by norm_num [NigValid]) (by omega)
    (by norm_num [sbCheck])

/-- C140, one component: the data do not matter. -/
example (y : ℕ → ℝ) (draw : NIG → ℕ → UniLS) (θ0 : UniLS) (z : InitNoise) :
    ∃ s mix, blockedInit (SplitMerge.nnigEnv y draw fun h _ _ => h) (.dp 2) 1 10 ⟨0, 1, 2, 1⟩ θ0 z
        ⟨θ0, 0, ∅, 0, false, none⟩ = .ok (s, mix) ∧ ∀ x k : ℕ,
      (iterMean (SplitMerge.nnigEnv y draw fun h _ _ => h) (fun st i => uniNormLpdf st (y i)) nigLaw
        (.dp 2) 1 10)^[k + 1] (conditionalAt (fun st i => uniNormLpdf st (y i)) x) s mix =
        ENNReal.ofReal (Real.exp (nnigMargLpdf ⟨0, 1, 2, 1⟩ (y x))) :=
  c140_single_violated (pred := fun h i => nnigMargLpdf h (y i)) rfl (nnig_setup y draw
    (by norm_num [NigValid]) (firstSaved_valid (by norm_num [NigValid])) (a := fun _ => 1)
    (b := fun _ => 2) (by omega) (fun _ => rfl) (by simp) (by simp)) (nnig_conjugate y draw _)
    (by norm_num [NigValid]) (by omega) (by norm_num [sbCheck]) θ0 z _ (by simp [Hier.CacheOk])

/-- **C140, violated: the limit is not the posterior predictive density.** Normal -
Normal-inverse-Gamma hierarchy, two components, the first stick with a mean of at least one half, two
rows or more, all equal to the prior mean: far from the data, in every run and at every iteration, the
mean of the density estimate exceeds the posterior predictive density by a fixed amount. -/
theorem c140_nnig_violated {h : NIG} (hv : NigValid h) (draw : NIG → ℕ → UniLS) {n : ℕ} (hn : 2 ≤ n)
    {prior : SBPrior} {a b : Fin 2 → ℝ} (hsh : ∀ k : Fin 2, betaParams prior 2 k = .ok (a k, b k))
    (ha : ∀ k, 0 < a k) (hb : ∀ k, 0 < b k) (hchk : sbCheck prior 2 = .ok ()) (hab : b 0 ≤ a 0)
    {y : ℕ → ℝ} (hy : ∀ i < n, y i = h.mean) (hinf : Tendsto y atTop atTop) :
    ∀ᶠ x in atTop, ∃ ε : ℝ, 0 < ε ∧
      stickPredictive (fun st i => uniNormLpdf st (y i)) n a b (nigLaw h) x ≠ ∞ ∧
      ∀ (θ0 : UniLS) (z : InitNoise) (o : Hier (ℝ × ℝ) NIG UniLS), o.CacheOk → ∃ s mix,
        blockedInit (SplitMerge.nnigEnv y draw fun h _ _ => h) prior 2 n h θ0 z o = .ok (s, mix) ∧
        ∀ k : ℕ, stickPredictive (fun st i => uniNormLpdf st (y i)) n a b (nigLaw h) x +
            ENNReal.ofReal ε ≤
          (iterMean (SplitMerge.nnigEnv y draw fun h _ _ => h) (fun st i => uniNormLpdf st (y i)) nigLaw
            prior 2 n)^[k + 1] (conditionalAt (fun st i => uniNormLpdf st (y i)) x) s mix := by
  have C := nnig_conjugate y draw fun h _ _ => h
  have S := nnig_setup y draw hv (firstSaved_valid hv) (by norm_num) hsh ha hb
  have S0 := nnig_setup y draw (Q := noneSaved) hv (fun k p hp => by cases hp) (by norm_num) hsh ha hb
  obtain ⟨w, w0, w1, hw⟩ := labelPost_int S0 n
  obtain ⟨c1, hc1⟩ : ∃ c1 : Fin n → Fin 2, c1 = fun i => if i.val = 0 then 0 else 1 := ⟨_, rfl⟩
  have hc10 : cnt c1 0 ≠ 0 := by
    unfold cnt
    refine Finset.card_ne_zero.mpr ⟨⟨0, by omega⟩, ?_⟩
    simp [hc1]
  have hc11 : cnt c1 1 ≠ 0 := by
    unfold cnt
    refine Finset.card_ne_zero.mpr ⟨⟨1, by omega⟩, ?_⟩
    simp [hc1]
  obtain ⟨u, hu⟩ : ∃ u, u = a 0 / (a 0 + b 0 + n) := ⟨_, rfl⟩
  have u0 : 0 < u := by
    have := ha 0
    have := hb 0
    rw [hu]
    positivity
  have hq : 0 < u * w c1 / 2 := by
    have := w0 c1
    positivity
  have htail : ∀ (c : Fin n → Fin 2) (k : Fin 2), ∀ᶠ x in atTop, cnt c k ≠ 0 →
      Real.exp (nnigMargLpdf (condHyp (SplitMerge.nnigEnv y draw fun h _ _ => h) h c k) (y x)) ≤
        u * w c1 / 2 * Real.exp (nnigMargLpdf h (y x)) := by
    intro c k
    by_cases hc : cnt c k = 0
    · exact Eventually.of_forall fun x hx => absurd hc hx
    · rw [nnig_rows hv draw _ hy c k hc]
      have hpos : (0 : ℝ) < cnt c k := by exact_mod_cast Nat.pos_of_ne_zero hc
      obtain ⟨l1, a1, b1⟩ := hv
      have ht := nnig_tail (h := h)
        (g := ⟨h.mean, h.varScaling + cnt c k, h.shape + cnt c k / 2, h.scale⟩) ⟨l1, a1, b1⟩
        ⟨by positivity, by positivity, b1⟩ rfl rfl (by simp) (by simp [hpos]) hq
      filter_upwards [hinf.eventually ht] with x hx _
      exact hx.le
  have hall := eventually_all.mpr fun c => eventually_all.mpr fun k => htail c k
  filter_upwards [hall] with x hx
  obtain ⟨p, hp⟩ : ∃ p, p = Real.exp (nnigMargLpdf h (y x)) := ⟨_, rfl⟩
  have p0 : 0 < p := hp ▸ Real.exp_pos _
  have hpr := S.bayes.prior
  obtain ⟨hfin, heq⟩ := hw _ (stickDens_meas S.like_meas x) fun c =>
    condMean_pred_ne_top C (fun k p hp => by cases hp) hv ha hb x c
  rw [stickPredictive_eq S.like_meas ha hb] at hfin heq
  have hle : (stickPredictive (fun st i => uniNormLpdf st (y i)) n a b (nigLaw h) x).toReal ≤
      u * p - u * w c1 / 2 * p := by
    rw [heq]
    have hterm : ∀ c, w c * (condMean (drawLaws (SplitMerge.nnigEnv y draw fun h _ _ => h) nigLaw
        noneSaved h) a b (fun _ θ v => ENNReal.ofReal
          (stickDens (fun st i => uniNormLpdf st (y i)) x θ v)) c).toReal ≤
        w c * (u * w c1 / 2 * p + u * p) - if c = c1 then w c1 * (u * p) else 0 := by
      intro c
      have hb2 := two_bound C hv ha hb hab (by omega : 0 < n) hq c (hx c)
      rw [← hu, ← hp] at hb2
      by_cases hc : c = c1
      · subst hc
        rw [if_pos ⟨hc10, hc11⟩] at hb2
        rw [if_pos rfl]
        have := mul_le_mul_of_nonneg_left hb2 (w0 c).le
        linarith
      · rw [if_neg hc, sub_zero]
        refine mul_le_mul_of_nonneg_left (hb2.trans ?_) (w0 c).le
        have : 0 ≤ u * p := by positivity
        split <;> linarith
    refine (Finset.sum_le_sum fun c _ => hterm c).trans ?_
    rw [Finset.sum_sub_distrib, ← Finset.sum_mul, w1, one_mul, Finset.sum_ite_eq' Finset.univ c1]
    simp only [Finset.mem_univ, if_true]
    linarith
  refine ⟨u * w c1 / 2 * p, by positivity, hfin, fun θ0 z o ho => ?_⟩
  obtain ⟨s, mix, e, hr⟩ := c140_share_violated (pred := fun h i => nnigMargLpdf h (y i)) (by rfl) S C hv
    (by norm_num) hn hchk θ0 z o ho
  refine ⟨s, mix, e, fun k => le_trans ?_ (hr x k)⟩
  rw [← ENNReal.ofReal_toReal hfin, ← ENNReal.ofReal_add ENNReal.toReal_nonneg (by positivity)]
  refine ENNReal.ofReal_le_ofReal ?_
  have h0 : a ⟨0, S.some⟩ / (a ⟨0, S.some⟩ + b ⟨0, S.some⟩ + n) = u := hu.symm
  rw [h0, ← hp]
  linarith

/-- C140: ten rows at the prior mean, a Dirichlet process with total mass one, grid points further and
further away. -/
example (draw : NIG → ℕ → UniLS) :
    ∃ (x : ℕ) (ε : ℝ), 0 < ε ∧
      ∀ (θ0 : UniLS) (z : InitNoise) (o : Hier (ℝ × ℝ) NIG UniLS), o.CacheOk → ∃ s mix,
        blockedInit (SplitMerge.nnigEnv (fun i => if i < 10 then 0 else i) draw fun h _ _ => h) (.dp 1) 2
          10 ⟨0, 1, 2, 1⟩ θ0 z o = .ok (s, mix) ∧
        ∀ k : ℕ, stickPredictive (fun st i => uniNormLpdf st (if i < 10 then 0 else i)) 10
            (fun _ : Fin 2 => 1) (fun _ => 1) (nigLaw ⟨0, 1, 2, 1⟩) x + ENNReal.ofReal ε ≤
          (iterMean (SplitMerge.nnigEnv (fun i => if i < 10 then 0 else i) draw fun h _ _ => h)
            (fun st i => uniNormLpdf st (if i < 10 then 0 else i)) nigLaw (.dp 1) 2 10)^[k + 1]
            (conditionalAt (fun st i => uniNormLpdf st (if i < 10 then 0 else i)) x) s mix := by
  have hinf : Tendsto (fun i : ℕ => if i < 10 then (0 : ℝ) else i) atTop atTop := by
    refine (tendsto_natCast_atTop_atTop (R := ℝ)).congr' ?_
    filter_upwards [eventually_ge_atTop 10] with i hi
    rw [if_neg (by omega)]
  obtain ⟨x, ε, hε, -, hx⟩ := (c140_nnig_violated (h := ⟨0, 1, 2, 1⟩) (by norm_num [NigValid]) draw
    (n := 10) (by omega) (prior := .dp 1) (a := fun _ => 1) (b := fun _ => 1) (fun _ => rfl) (by simp)
    (by simp) (by norm_num [sbCheck]) le_rfl (fun i hi => by simp [hi]) hinf).exists
  exact ⟨x, ε, hε, hx⟩

end Bayesmix.Cond
