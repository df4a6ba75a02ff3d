import Verif.Algo.BlockedFirst
import Verif.Algo.DensRun

/-!
# Density estimates along runs of blocked Gibbs

`ConditionalAlgorithm::lpdf_from_state` on the states of a run. Grid points are rows: `like θ x` is
the log density of a component with value `θ` at grid point `x`. The estimate is not a bounded function
of the state, but its mean given the labels is bounded.
-/

namespace Bayesmix.Cond
open Bayesmix Mixing Slice Gibbs MeasureTheory ENNReal Hierarchies Chain Density

variable {G H Θ : Type} [AddCommGroup G]

/-- The exponential of the estimate that `lpdf_from_state` computes at grid point `x` for state `s`
and the stored sticks (`src/algorithms/conditional_algorithm.cc` 10-40): `set_state_from_proto` sets
the sticks and computes the log weights again (line 16). Infinite if something fails. -/
noncomputable def conditionalAt (like : Θ → ℕ → ℝ) (x : ℕ) (s : Alg G H Θ) (mix : SBState) : ℝ≥0∞ :=
  match (do
    let m ← sbSetSticks mix.sticks
    conditionalLpdf m.logweights s.clus.length s.clus.length (clusterLpdf like s) [x]) with
  | .ok [v] => ENNReal.ofReal (stdExp v)
  | _ => ∞

/-- The mixture density of the components. -/
noncomputable def stickDens (like : Θ → ℕ → ℝ) (x : ℕ) {K : ℕ} (θ : Fin K → Θ) (v : Fin K → ℝ) : ℝ :=
  ∑ k, stickWeight v k * Real.exp (like (θ k) x)

variable {E : Env G H Θ} {like : Θ → ℕ → ℝ} {Q : ℕ → Option H} {h : H}
  {prior : SBPrior} {n K : ℕ}

theorem conditionalAt_state {c : Fin n → Fin K} {θ : Fin K → Θ} {v : Fin K → ℝ} {s : Alg G H Θ}
    {mix : SBState} (hs : BlockedState E prior Q c θ v h s mix) (hK : 0 < K)
    (hv : ∀ k, 0 < v k ∧ v k ≤ 1) (x : ℕ) :
    conditionalAt like x s mix = ENNReal.ofReal (stickDens like x θ v) := by
  have hlen : s.clus.length = K := by
    have := congrArg List.length hs.values
    simpa using this
  have hval : ∀ k : Fin K, (s.clus[k.val]?).map Hier.state = some (θ k) := by
    intro k
    rw [← List.getElem?_map, hs.values, List.getElem?_ofFn]
    simp
  obtain ⟨dens, hd⟩ : ∃ dens : ℕ → ℕ → ℝ, dens = fun j x =>
    if hj : j < K then Real.exp (like (θ ⟨j, hj⟩) x) else 0 := ⟨_, rfl⟩
  have hl : ∀ j x, IsLogOf (clusterLpdf like s j x) (dens j x) := by
    intro j x
    rw [hd]
    unfold clusterLpdf
    by_cases hj : j < K
    · have := hval ⟨j, hj⟩
      simp only at this
      rcases hq : s.clus[j]? with _ | o
      · rw [hq] at this
        simp at this
      · rw [hq] at this
        simp only [Option.map_some, Option.some.injEq] at this
        simp only [hj, dif_pos, this]
        exact isLogOf_coe _
    · rw [List.getElem?_eq_none (by omega)]
      simp only [hj, dif_neg, not_false_eq_true]
      exact Or.inr ⟨rfl, rfl⟩
  have hst : ∀ u ∈ mix.sticks, 0 ≤ u ∧ u ≤ 1 := by
    rw [hs.sticks]
    intro u hu
    obtain ⟨k, rfl⟩ := (List.mem_ofFn' _ _).mp hu
    exact ⟨(hv k).1.le, (hv k).2⟩
  obtain ⟨m, F, e1, e2, e3⟩ := truncated_mix hst (nObjs := s.clus.length) (by omega) hl
  have hl2 : mix.sticks.length = s.clus.length := by rw [hs.sticks, hlen, List.length_ofFn]
  rw [hl2] at e2
  have hF : stdExp (F x) = stickDens like x θ v := by
    rw [stdExp_of_isLogOf (e3 x), mixture, hs.sticks, stickWeight_eq, List.length_ofFn, stickDens,
      Finset.sum_range]
    refine Finset.sum_congr rfl fun k _ => ?_
    rw [hd]
    simp [List.getD]
  unfold conditionalAt
  simp only [e1, ok_bind, e2, List.map_cons, List.map_nil, hF]

variable [MeasurableSpace Θ] {ν : H → Measure Θ} {a b : Fin K → ℝ}
  {μ : (Fin n → Fin K) → Fin K → Measure Θ}

theorem condMean_smul (φ : (Fin n → Fin K) → (Fin K → Θ) → (Fin K → ℝ) → ℝ≥0∞) {M : ℝ≥0∞}
    (hM : M ≠ ∞) (c : Fin n → Fin K) :
    condMean μ a b (fun c θ v => M * φ c θ v) c = M * condMean μ a b φ c := by
  unfold condMean
  rw [← lintegral_const_mul' _ _ hM]
  exact lintegral_congr fun θ => lintegral_const_mul' _ _ hM

theorem lawKernel_smul (φ : (Fin n → Fin K) → (Fin K → Θ) → (Fin K → ℝ) → ℝ≥0∞) {M : ℝ≥0∞}
    (hM : M ≠ ∞) (k : ℕ) : (lawKernel like μ a b)^[k] (fun c θ v => M * φ c θ v) =
      fun c θ v => M * (lawKernel like μ a b)^[k] φ c θ v := by
  induction k with
  | zero => rfl
  | succ k ih =>
    rw [Function.iterate_succ_apply', ih]
    funext c θ v
    rw [Function.iterate_succ_apply', lawKernel_apply, lawKernel_apply, Finset.mul_sum]
    refine Finset.sum_congr rfl fun c' _ => ?_
    rw [condMean_smul _ hM]
    ring

theorem condMean_label (hμ : ∀ c k, IsProbabilityMeasure (μ c k)) (ha : ∀ k, 0 < a k)
    (hb : ∀ k, 0 < b k) (g : (Fin n → Fin K) → ℝ≥0∞) (c : Fin n → Fin K) :
    condMean μ a b (fun c _ _ => g c) c = g c := by
  have h1 := hμ c
  have h2 := stickLaw_isProb (shape_pos ha (cnt c)) (shape_pos hb (later c))
  simp only [condMean, lintegral_const, measure_univ, mul_one]

/-- One step only sees the means given the labels. -/
theorem lawKernel_labels (hμ : ∀ c k, IsProbabilityMeasure (μ c k)) (ha : ∀ k, 0 < a k)
    (hb : ∀ k, 0 < b k) (φ : (Fin n → Fin K) → (Fin K → Θ) → (Fin K → ℝ) → ℝ≥0∞) (k : ℕ) :
    (lawKernel like μ a b)^[k + 1] φ =
      (lawKernel like μ a b)^[k + 1] fun c _ _ => condMean μ a b φ c := by
  rw [Function.iterate_succ_apply, Function.iterate_succ_apply]
  congr 1
  funext c θ v
  rw [lawKernel_apply, lawKernel_apply]
  refine Finset.sum_congr rfl fun c' _ => ?_
  congr 1
  rw [condMean_label hμ ha hb]

/-- The kernel has a limit also for unbounded functions with finite means given the labels. -/
theorem kernel_limit_int (S : RunSetup E like ν Q h prior a b) (n : ℕ) :
    ∃ δ : ℝ, 0 < δ ∧ δ ≤ 1 ∧
      ∀ φ : (Fin n → Fin K) → (Fin K → Θ) → (Fin K → ℝ) → ℝ≥0∞, Meas φ →
      (∀ c, condMean (drawLaws E ν Q h) a b φ c ≠ ∞) →
      ∃ L B : ℝ, 0 ≤ L ∧ (Q = noneSaved → L = (posteriorMean like n a b (ν h) φ).toReal) ∧
        ∀ (c : Fin n → Fin K) (θ : Fin K → Θ) (v : Fin K → ℝ), (∀ k, 0 < v k ∧ v k ≤ 1) → ∀ k : ℕ,
          (lawKernel like (drawLaws E ν Q h) a b)^[k + 1] φ c θ v ≠ ∞ ∧
          |((lawKernel like (drawLaws E ν Q h) a b)^[k + 1] φ c θ v).toReal - L| ≤ B * (1 - δ) ^ k := by
  obtain ⟨δ, h0, h1, hδ⟩ := kernel_limit S n
  refine ⟨δ, h0, h1, fun φ hφ hfin => ?_⟩
  have hμ := drawLaws_prob (n := n) (K := K) S.bayes S.saved
  obtain ⟨M, hM⟩ : ∃ M, M = 1 + ∑ c : Fin n → Fin K, condMean (drawLaws E ν Q h) a b φ c := ⟨_, rfl⟩
  have hMt : M ≠ ∞ := by
    rw [hM]
    exact ENNReal.add_ne_top.mpr ⟨one_ne_top, (ENNReal.sum_ne_top.mpr fun c _ => hfin c)⟩
  have hM0 : M ≠ 0 := by
    rw [hM]
    simp
  have hle : ∀ c, condMean (drawLaws E ν Q h) a b φ c / M ≤ 1 := by
    intro c
    refine ENNReal.div_le_of_le_mul ?_
    rw [one_mul, hM]
    exact (Finset.single_le_sum (f := fun c : Fin n → Fin K => condMean (drawLaws E ν Q h) a b φ c)
      (fun _ _ => zero_le) (Finset.mem_univ c)).trans le_add_self
  obtain ⟨ψ, hψ⟩ : ∃ ψ : (Fin n → Fin K) → (Fin K → Θ) → (Fin K → ℝ) → ℝ≥0∞,
    ψ = fun c _ _ => condMean (drawLaws E ν Q h) a b φ c / M := ⟨_, rfl⟩
  have hsplit : (fun (c : Fin n → Fin K) (_ : Fin K → Θ) (_ : Fin K → ℝ) =>
      condMean (drawLaws E ν Q h) a b φ c) = fun c θ v => M * ψ c θ v := by
    funext c θ v
    rw [hψ]
    exact (ENNReal.mul_div_cancel hM0 hMt).symm
  have hψm : Meas ψ := by
    rw [hψ]
    exact fun c => measurable_const
  have hψ1 : ∀ c θ v, ψ c θ v ≤ 1 := by
    rw [hψ]
    exact fun c _ _ => hle c
  obtain ⟨L, L0, -, hL, hlim⟩ := hδ ψ hψm hψ1
  refine ⟨M.toReal * L, M.toReal, mul_nonneg toReal_nonneg L0, fun hQ => ?_, fun c θ v hv k => ?_⟩
  · rw [hL hQ]
    subst hQ
    unfold posteriorMean
    have hcm : ∀ c, condMean (drawLaws E ν noneSaved h) a b φ c =
        M * condMean (drawLaws E ν noneSaved h) a b ψ c := by
      intro c
      rw [← condMean_smul _ hMt, ← hsplit, condMean_label hμ S.apos S.bpos]
    rw [posteriorAt_condMean S.like_meas S.bayes S.apos S.bpos hφ]
    simp only [hcm]
    rw [posteriorAt_condMean S.like_meas S.bayes S.apos S.bpos hψm, ← toReal_mul]
    congr 1
    rw [← mul_div_assoc, Finset.mul_sum]
    congr 1
    refine Finset.sum_congr rfl fun c _ => ?_
    ring
  · rw [lawKernel_labels hμ S.apos S.bpos, hsplit, lawKernel_smul _ hMt]
    have hk := hlim c θ v hv k
    have hone : (lawKernel like (drawLaws E ν Q h) a b)^[k + 1] ψ c θ v ≤ 1 :=
      kernel_iterate_le S (fun c θ v _ => hψ1 c θ v) (k + 1) c θ v hv
    refine ⟨ENNReal.mul_ne_top hMt (ne_top_of_le_ne_top one_ne_top hone), ?_⟩
    rw [toReal_mul, ← mul_sub, abs_mul, abs_of_nonneg toReal_nonneg]
    exact mul_le_mul_of_nonneg_left hk toReal_nonneg

/-! ### Means of the weights -/

/-- The mean weight of component `k`. -/
noncomputable def meanWeight (a b : Fin K → ℝ) (k : Fin K) : ℝ≥0∞ :=
  ∫⁻ v, ENNReal.ofReal (stickWeight v k) ∂stickLaw a b

omit [MeasurableSpace Θ] in
theorem sum_stickWeight_le {v : Fin K → ℝ} (hv : ∀ k, 0 < v k ∧ v k ≤ 1) :
    ∑ k, stickWeight v k ≤ 1 := by
  have h1 := stickWeights_sum (List.ofFn v)
  rw [stickWeight_eq, List.sum_ofFn] at h1
  rw [h1]
  have : 0 ≤ leftover (List.ofFn v) := by
    unfold leftover
    refine List.prod_nonneg fun u hu => ?_
    obtain ⟨w, hw, rfl⟩ := List.mem_map.mp hu
    obtain ⟨k, rfl⟩ := (List.mem_ofFn' _ _).mp hw
    linarith [(hv k).2]
  linarith

theorem measurable_ofReal_stick (k : Fin K) : Measurable fun v => ENNReal.ofReal (stickWeight v k) :=
  ENNReal.measurable_ofReal.comp (measurable_stickWeight k)

theorem sum_meanWeight_le (ha : ∀ k, 0 < a k) (hb : ∀ k, 0 < b k) : ∑ k, meanWeight a b k ≤ 1 := by
  have := stickLaw_isProb ha hb
  unfold meanWeight
  rw [← lintegral_finsetSum _ fun k _ => measurable_ofReal_stick k]
  calc ∫⁻ v, ∑ k, ENNReal.ofReal (stickWeight v k) ∂stickLaw a b ≤ ∫⁻ _, 1 ∂stickLaw a b := by
        refine lintegral_mono_ae ?_
        filter_upwards [stickLaw_ae ha hb] with v hv
        rw [← ENNReal.ofReal_sum_of_nonneg fun k _ => stickWeight_nonneg hv k, ← ENNReal.ofReal_one]
        exact ENNReal.ofReal_le_ofReal (sum_stickWeight_le hv)
    _ = 1 := by simp

theorem meanWeight_le (ha : ∀ k, 0 < a k) (hb : ∀ k, 0 < b k) (k : Fin K) : meanWeight a b k ≤ 1 :=
  (Finset.single_le_sum (f := meanWeight a b) (fun _ _ => zero_le) (Finset.mem_univ k)).trans
    (sum_meanWeight_le ha hb)

theorem beta_mean {p q : ℝ} (hp : 0 < p) (hq : 0 < q) :
    ∫⁻ x, ENNReal.ofReal x ∂ProbabilityTheory.betaMeasure p q = ENNReal.ofReal (p / (p + q)) := by
  have := beta_bayes hp hq 1 0 (φ := fun _ => 1) measurable_const
  have hpr := ProbabilityTheory.isProbabilityMeasureBeta (by positivity : 0 < p + 1) hq
  simp only [pow_one, pow_zero, mul_one, Nat.cast_one, Nat.cast_zero, add_zero, lintegral_const,
    measure_univ] at this
  rw [this]
  congr 1
  unfold ProbabilityTheory.beta
  have h1 := Real.Gamma_pos_of_pos hp
  have h2 := Real.Gamma_pos_of_pos hq
  have h3 := Real.Gamma_pos_of_pos (add_pos hp hq)
  rw [show p + 1 + q = p + q + 1 by ring, Real.Gamma_add_one hp.ne',
    Real.Gamma_add_one (add_pos hp hq).ne']
  field_simp

theorem beta_mean_compl {p q : ℝ} (hp : 0 < p) (hq : 0 < q) :
    ∫⁻ x, ENNReal.ofReal (1 - x) ∂ProbabilityTheory.betaMeasure p q = ENNReal.ofReal (q / (p + q)) := by
  have := beta_bayes hp hq 0 1 (φ := fun _ => 1) measurable_const
  have hpr := ProbabilityTheory.isProbabilityMeasureBeta hp (by positivity : 0 < q + 1)
  simp only [pow_one, pow_zero, mul_one, one_mul, Nat.cast_one, Nat.cast_zero, add_zero,
    lintegral_const, measure_univ] at this
  rw [this]
  congr 1
  unfold ProbabilityTheory.beta
  have h1 := Real.Gamma_pos_of_pos hp
  have h2 := Real.Gamma_pos_of_pos hq
  have h3 := Real.Gamma_pos_of_pos (add_pos hp hq)
  rw [show p + (q + 1) = p + q + 1 by ring, Real.Gamma_add_one hq.ne',
    Real.Gamma_add_one (add_pos hp hq).ne']
  field_simp

theorem lintegral_stick (ha : ∀ k, 0 < a k) (hb : ∀ k, 0 < b k) (k : Fin K) {f : ℝ → ℝ≥0∞}
    (hf : Measurable f) : ∫⁻ v, f (v k) ∂stickLaw a b =
      ∫⁻ x, f x ∂(if k.val + 1 = K then Measure.dirac 1 else
        ProbabilityTheory.betaMeasure (a k) (b k)) := by
  have := stickLaw_prob ha hb
  exact (measurePreserving_eval (fun k : Fin K => if k.val + 1 = K then Measure.dirac 1 else
    ProbabilityTheory.betaMeasure (a k) (b k)) k).lintegral_comp hf

theorem meanWeight_first (ha : ∀ k, 0 < a k) (hb : ∀ k, 0 < b k) (hK : 1 < K) :
    meanWeight a b ⟨0, by omega⟩ = ENNReal.ofReal (a ⟨0, by omega⟩ /
      (a ⟨0, by omega⟩ + b ⟨0, by omega⟩)) := by
  rw [← beta_mean (ha _) (hb _)]
  have := lintegral_stick ha hb ⟨0, by omega⟩ (f := ENNReal.ofReal) ENNReal.measurable_ofReal
  rw [if_neg (by simp; omega)] at this
  rw [← this]
  simp [meanWeight, stickWeight]

theorem meanWeight_only {a b : Fin 1 → ℝ} (ha : ∀ k, 0 < a k) (hb : ∀ k, 0 < b k) :
    meanWeight a b 0 = 1 := by
  have := lintegral_stick ha hb 0 (f := ENNReal.ofReal) ENNReal.measurable_ofReal
  rw [if_pos (by simp), lintegral_dirac' _ ENNReal.measurable_ofReal, ENNReal.ofReal_one] at this
  rw [← this]
  simp [meanWeight, stickWeight]

theorem meanWeight_second {a b : Fin 2 → ℝ} (ha : ∀ k, 0 < a k) (hb : ∀ k, 0 < b k) :
    meanWeight a b 1 ≤ ENNReal.ofReal (b 0 / (a 0 + b 0)) := by
  rw [← beta_mean_compl (ha 0) (hb 0)]
  have := lintegral_stick ha hb 0 (f := fun x => ENNReal.ofReal (1 - x)) (by fun_prop)
  rw [if_neg (by simp)] at this
  rw [← this]
  refine lintegral_mono_ae ?_
  filter_upwards [stickLaw_ae ha hb] with v hv
  refine ENNReal.ofReal_le_ofReal ?_
  have h1 : stickWeight v 1 = v 1 * (1 - v 0) := by
    simp [stickWeight]
  rw [h1]
  exact mul_le_of_le_one_left (by linarith [(hv 0).2]) (hv 1).2

/-! ### The mean of the estimate given the labels -/

theorem stickDens_meas (hlike : ∀ i, Measurable fun θ => like θ i) (x : ℕ) :
    Meas fun (_ : Fin n → Fin K) (θ : Fin K → Θ) v => ENNReal.ofReal (stickDens like x θ v) := by
  intro c
  refine ENNReal.measurable_ofReal.comp (Finset.measurable_sum _ fun k _ => ?_)
  exact ((measurable_stickWeight k).comp measurable_snd).mul (Real.measurable_exp.comp
    ((hlike x).comp ((measurable_pi_apply k).comp measurable_fst)))

theorem condMean_dens (hlike : ∀ i, Measurable fun θ => like θ i)
    (hμ : ∀ c k, IsProbabilityMeasure (μ c k)) (ha : ∀ k, 0 < a k)
    (hb : ∀ k, 0 < b k) (x : ℕ) (c : Fin n → Fin K) :
    condMean μ a b (fun _ θ v => ENNReal.ofReal (stickDens like x θ v)) c =
      ∑ k, meanWeight (fun k => a k + cnt c k) (fun k => b k + later c k) k *
        ∫⁻ θ, ENNReal.ofReal (Real.exp (like θ x)) ∂μ c k := by
  have h1 := hμ c
  have ha' := shape_pos ha (cnt c)
  have hb' := shape_pos hb (later c)
  have hm : Measurable fun θ => ENNReal.ofReal (Real.exp (like θ x)) :=
    ENNReal.measurable_ofReal.comp (Real.measurable_exp.comp (hlike x))
  have hin : ∀ θ : Fin K → Θ, ∫⁻ v, ENNReal.ofReal (stickDens like x θ v)
      ∂stickLaw (fun k => a k + cnt c k) (fun k => b k + later c k) =
      ∑ k, meanWeight (fun k => a k + cnt c k) (fun k => b k + later c k) k *
        ENNReal.ofReal (Real.exp (like (θ k) x)) := by
    intro θ
    have e : ∀ᵐ v ∂stickLaw (fun k => a k + cnt c k) (fun k => b k + later c k),
        ENNReal.ofReal (stickDens like x θ v) = ∑ k, ENNReal.ofReal (stickWeight v k) *
          ENNReal.ofReal (Real.exp (like (θ k) x)) := by
      filter_upwards [stickLaw_ae ha' hb'] with v hv
      unfold stickDens
      rw [ENNReal.ofReal_sum_of_nonneg fun k _ => mul_nonneg (stickWeight_nonneg hv k)
        (Real.exp_pos _).le]
      exact Finset.sum_congr rfl fun k _ => ENNReal.ofReal_mul (stickWeight_nonneg hv k)
    rw [lintegral_congr_ae e, lintegral_finsetSum _ fun k _ =>
      (measurable_ofReal_stick k).mul_const _]
    refine Finset.sum_congr rfl fun k _ => ?_
    rw [lintegral_mul_const' _ _ ofReal_ne_top]
    rfl
  unfold condMean
  simp only [hin]
  have hmk : ∀ k : Fin K, Measurable fun θ : Fin K → Θ => ENNReal.ofReal (Real.exp (like (θ k) x)) :=
    fun k => hm.comp (measurable_pi_apply k)
  rw [lintegral_finsetSum _ fun k _ => (hmk k).const_mul _]
  refine Finset.sum_congr rfl fun k _ => ?_
  rw [lintegral_const_mul _ (hmk k)]
  congr 1
  exact (measurePreserving_eval (μ c) k).lintegral_comp hm

/-- With a conjugate hierarchy: the mean of the estimate given the labels is the mixture of the
predictive densities. -/
theorem condMean_pred {pred : H → ℕ → ℝ} {V : H → Prop} (C : Conjugate E like pred ν V)
    (hQ : ∀ k p, Q k = some p → V p) (hv : V h) (ha : ∀ k, 0 < a k) (hb : ∀ k, 0 < b k) (x : ℕ)
    (c : Fin n → Fin K) :
    condMean (drawLaws E ν Q h) a b (fun _ θ v => ENNReal.ofReal (stickDens like x θ v)) c =
      ∑ k, meanWeight (fun k => a k + cnt c k) (fun k => b k + later c k) k *
        ENNReal.ofReal (Real.exp (pred (drawHyp E Q h c k) x)) := by
  have hval : ∀ (c : Fin n → Fin K) k, V (drawHyp E Q h c k) := by
    intro c k
    unfold drawHyp
    split
    · exact hv
    · rename_i h0
      rcases hq : Q k with _ | p
      · rw [← rowsOf_card] at h0 ⊢
        exact C.post hv _ (Finset.card_ne_zero.mp h0)
      · exact hQ k p hq
  have hμ : ∀ (c : Fin n → Fin K) k, IsProbabilityMeasure (drawLaws E ν Q h c k) :=
    fun c k => (C.row _ 0 (hval c k)).prior
  rw [condMean_dens C.meas hμ ha hb]
  refine Finset.sum_congr rfl fun k _ => ?_
  rw [drawLaws, pred_int (C.row _ x (hval c k))]

theorem condMean_pred_ne_top {pred : H → ℕ → ℝ} {V : H → Prop} (C : Conjugate E like pred ν V)
    (hQ : ∀ k p, Q k = some p → V p) (hv : V h) (ha : ∀ k, 0 < a k) (hb : ∀ k, 0 < b k) (x : ℕ)
    (c : Fin n → Fin K) :
    condMean (drawLaws E ν Q h) a b (fun _ θ v => ENNReal.ofReal (stickDens like x θ v)) c ≠ ∞ := by
  rw [condMean_pred C hQ hv ha hb]
  refine ENNReal.sum_ne_top.mpr fun k _ => ENNReal.mul_ne_top ?_ ofReal_ne_top
  exact ne_top_of_le_ne_top one_ne_top
    (meanWeight_le (shape_pos ha (cnt c)) (shape_pos hb (later c)) k)

/-- The data together with one more row: the mixture density integrates to the joint density. -/
theorem posteriorAt_succ (hlike : ∀ i, Measurable fun θ => like θ i) {ν₀ : Measure Θ}
    [IsProbabilityMeasure ν₀] (ha : ∀ k, 0 < a k) (hb : ∀ k, 0 < b k) (n : ℕ) :
    posteriorAt like n a b ν₀ (fun _ θ v => ENNReal.ofReal (stickDens like n θ v)) =
      posteriorAt like (n + 1) a b ν₀ fun _ _ _ => 1 := by
  have hprob := stickLaw_isProb ha hb
  have hm : ∀ (m : ℕ) (c : Fin m → Fin K), Measurable fun x : (Fin K → Θ) × (Fin K → ℝ) =>
      ENNReal.ofReal (dataWeight like c x.1 x.2) := fun m c =>
    ENNReal.measurable_ofReal.comp (measurable_dataWeight hlike c)
  have hd := stickDens_meas (n := n) (K := K) hlike n
  unfold posteriorAt
  simp only [mul_one]
  have key : ∀ (m : ℕ) (Φ : (Fin m → Fin K) → (Fin K → Θ) → (Fin K → ℝ) → ℝ≥0∞), Meas Φ →
      ∑ c : Fin m → Fin K, ∫⁻ v, ∫⁻ θ, Φ c θ v ∂Measure.pi (fun _ => ν₀) ∂stickLaw a b =
      ∫⁻ v, ∫⁻ θ, ∑ c : Fin m → Fin K, Φ c θ v ∂Measure.pi (fun _ => ν₀) ∂stickLaw a b := by
    intro m Φ hΦ
    have e1 : ∀ v : Fin K → ℝ, ∫⁻ θ, ∑ c : Fin m → Fin K, Φ c θ v ∂Measure.pi (fun _ => ν₀) =
        ∑ c : Fin m → Fin K, ∫⁻ θ, Φ c θ v ∂Measure.pi (fun _ => ν₀) := fun v =>
      lintegral_finsetSum _ fun c _ => hΦ.left c v
    simp only [e1]
    rw [lintegral_finsetSum _ fun c _ => ?_]
    exact ((hΦ c).comp (measurable_snd.prodMk measurable_fst)).lintegral_prod_right'
      (f := fun p : (Fin K → ℝ) × (Fin K → Θ) => Φ c p.2 p.1)
  rw [key n _ fun c => (hm n c).mul (hd c), key (n + 1) _ fun c => hm (n + 1) c]
  refine lintegral_congr_ae ?_
  filter_upwards [stickLaw_ae ha hb] with v hv
  refine lintegral_congr fun θ => ?_
  have hprod : ∀ m : ℕ, ∑ c : Fin m → Fin K, ENNReal.ofReal (dataWeight like c θ v) =
      ENNReal.ofReal (∏ i : Fin m, stickDens like i θ v) := by
    intro m
    rw [← ENNReal.ofReal_sum_of_nonneg fun c _ => dataWeight_nonneg like c θ hv]
    congr 1
    unfold stickDens dataWeight
    rw [Finset.prod_univ_sum, Fintype.piFinset_univ]
  rw [← Finset.sum_mul, hprod, hprod, Fin.prod_univ_castSucc]
  have hnn : 0 ≤ ∏ i : Fin n, stickDens like i θ v := Finset.prod_nonneg fun i _ =>
    Finset.sum_nonneg fun k _ => mul_nonneg (stickWeight_nonneg hv k) (Real.exp_pos _).le
  rw [← ENNReal.ofReal_mul hnn]
  rfl

/-- The rows of the data followed by the grid point `x`. -/
def withGrid (like : Θ → ℕ → ℝ) (n x : ℕ) : Θ → ℕ → ℝ := fun θ i => like θ (if i = n then x else i)

omit [MeasurableSpace Θ] in
theorem withGrid_lt {n : ℕ} (x : ℕ) (θ : Θ) (i : Fin n) : withGrid like n x θ i = like θ i := by
  unfold withGrid
  rw [if_neg i.isLt.ne]

theorem posteriorAt_withGrid (n x : ℕ) (ν₀ : Measure Θ)
    (φ : (Fin n → Fin K) → (Fin K → Θ) → (Fin K → ℝ) → ℝ≥0∞) :
    posteriorAt (withGrid like n x) n a b ν₀ φ = posteriorAt like n a b ν₀ φ := by
  unfold posteriorAt dataWeight
  simp only [withGrid_lt]

/-- Posterior predictive density at grid point `x`: the marginal density of the data and the grid point
over the marginal density of the data. -/
noncomputable def stickPredictive (like : Θ → ℕ → ℝ) (n : ℕ) (a b : Fin K → ℝ) (ν₀ : Measure Θ) (x : ℕ) :
    ℝ≥0∞ :=
  posteriorAt (withGrid like n x) (n + 1) a b ν₀ (fun _ _ _ => 1) /
    posteriorAt like n a b ν₀ fun _ _ _ => 1

theorem stickPredictive_eq (hlike : ∀ i, Measurable fun θ => like θ i) {ν₀ : Measure Θ}
    [IsProbabilityMeasure ν₀] (ha : ∀ k, 0 < a k) (hb : ∀ k, 0 < b k) (n x : ℕ) :
    posteriorMean like n a b ν₀ (fun _ θ v => ENNReal.ofReal (stickDens like x θ v)) =
      stickPredictive like n a b ν₀ x := by
  unfold posteriorMean stickPredictive
  rw [← posteriorAt_succ (fun i => by unfold withGrid; exact hlike _) ha hb, posteriorAt_withGrid]
  congr 2
  funext c θ v
  simp [stickDens, withGrid]

/-- Given the labels, the first component keeps the density of the prior. -/
theorem condMean_first_le {pred : H → ℕ → ℝ} {V : H → Prop} (C : Conjugate E like pred ν V)
    (hv : V h) (ha : ∀ k, 0 < a k) (hb : ∀ k, 0 < b k) (hK : 1 < K) (x : ℕ) (c : Fin n → Fin K) :
    ENNReal.ofReal (a ⟨0, by omega⟩ / (a ⟨0, by omega⟩ + b ⟨0, by omega⟩ + n) *
      Real.exp (pred h x)) ≤
    condMean (drawLaws E ν (firstSaved h) h) a b
      (fun _ θ v => ENNReal.ofReal (stickDens like x θ v)) c := by
  have hQ : ∀ k p, firstSaved h k = some p → V p := by
    intro k p hp
    unfold firstSaved at hp
    split at hp
    · rw [← Option.some.inj hp]
      exact hv
    · cases hp
  rw [condMean_pred C hQ hv ha hb]
  refine le_trans ?_ (Finset.single_le_sum (f := fun k => meanWeight (fun k => a k + cnt c k)
    (fun k => b k + later c k) k * ENNReal.ofReal (Real.exp (pred (drawHyp E (firstSaved h) h c k) x)))
    (fun _ _ => zero_le) (Finset.mem_univ (⟨0, by omega⟩ : Fin K)))
  rw [meanWeight_first (shape_pos ha (cnt c)) (shape_pos hb (later c)) hK]
  have hd : drawHyp E (firstSaved h) h c ⟨0, by omega⟩ = h := by
    simp [drawHyp, firstSaved]
  rw [hd, ← ENNReal.ofReal_mul]
  · refine ENNReal.ofReal_le_ofReal (mul_le_mul_of_nonneg_right ?_ (Real.exp_pos _).le)
    have h1 := ha ⟨0, by omega⟩
    have h2 := hb ⟨0, by omega⟩
    have hsum : cnt c ⟨0, by omega⟩ + later c ⟨0, by omega⟩ = n := by
      unfold cnt later
      rw [← Finset.card_union_of_disjoint]
      · have : (Finset.univ.filter fun i => c i = (⟨0, by omega⟩ : Fin K)) ∪
            (Finset.univ.filter fun i => (⟨0, by omega⟩ : Fin K) < c i) = Finset.univ := by
          ext i
          simp only [Finset.mem_union, Finset.mem_filter, Finset.mem_univ, true_and, iff_true]
          rcases Nat.eq_zero_or_pos (c i).val with h0 | h0
          · exact Or.inl (Fin.ext h0)
          · exact Or.inr h0
        rw [this]
        simp
      · rw [Finset.disjoint_filter]
        intro i _ h0 h1
        rw [h0] at h1
        exact lt_irrefl _ h1
    have hs : ((cnt c ⟨0, by omega⟩ : ℕ) : ℝ) + (later c ⟨0, by omega⟩ : ℕ) = n := by exact_mod_cast hsum
    rw [show ∀ p q r s : ℝ, p + r + (q + s) = p + q + (r + s) by intros; ring, hs]
    have hn : (0 : ℝ) ≤ n := Nat.cast_nonneg _
    have hc : (0 : ℝ) ≤ cnt c ⟨0, by omega⟩ := Nat.cast_nonneg _
    gcongr
    linarith
  · have h1 := ha ⟨0, by omega⟩
    have h2 := hb ⟨0, by omega⟩
    positivity

end Bayesmix.Cond
