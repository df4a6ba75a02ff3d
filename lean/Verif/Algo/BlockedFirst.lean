import Verif.Algo.BlockedStart

/-!
# The value of the first component in runs of blocked Gibbs
-/

namespace Bayesmix.Cond
open Bayesmix Mixing Slice Gibbs MeasureTheory ENNReal Hierarchies Chain

variable {G H Θ : Type} [AddCommGroup G] [MeasurableSpace Θ]

/-- What a function of labels, values and sticks reads off a state. -/
def observed (φ : List ℕ → List Θ → List ℝ → ℝ) (s : Alg G H Θ) (mix : SBState) : ℝ :=
  φ s.alloc (s.clus.map Hier.state) mix.sticks

/-- The same function of labels, values and sticks given by index. -/
def atParts (φ : List ℕ → List Θ → List ℝ → ℝ) {n K : ℕ} (c : Fin n → Fin K) (θ : Fin K → Θ)
    (v : Fin K → ℝ) : ℝ :=
  φ (List.ofFn fun i => (c i).val) (List.ofFn θ) (List.ofFn v)

/-- A measurable function of labels, values and sticks with values in the unit interval. -/
structure Observable (n K : ℕ) (φ : List ℕ → List Θ → List ℝ → ℝ) : Prop where
  meas : ∀ c : Fin n → Fin K,
    Measurable fun x : (Fin K → Θ) × (Fin K → ℝ) => atParts φ c x.1 x.2
  nonneg : ∀ l t w, 0 ≤ φ l t w
  le_one : ∀ l t w, φ l t w ≤ 1

/-- A function of the value of the first component. -/
def firstValue (ψ : Θ → ℝ) : List ℕ → List Θ → List ℝ → ℝ := fun _ t _ => (t.head?.map ψ).getD 0

variable {E : Env G H Θ} {like : Θ → ℕ → ℝ} {ν : H → Measure Θ} {Q : ℕ → Option H} {h : H}
  {prior : SBPrior} {n K : ℕ} {a b : Fin K → ℝ} {μ : (Fin n → Fin K) → Fin K → Measure Θ}

omit [MeasurableSpace Θ] in
theorem observed_state {φ : List ℕ → List Θ → List ℝ → ℝ} {c : Fin n → Fin K} {θ : Fin K → Θ}
    {v : Fin K → ℝ} {s : Alg G H Θ} {mix : SBState} (hs : BlockedState E prior Q c θ v h s mix) :
    observed φ s mix = atParts φ c θ v := by
  rw [observed, hs.labels, hs.values, hs.sticks, atParts]

omit [MeasurableSpace Θ] in
theorem atParts_first (hK : 0 < K) (ψ : Θ → ℝ) (c : Fin n → Fin K) (θ : Fin K → Θ) (v : Fin K → ℝ) :
    atParts (firstValue ψ) c θ v = ψ (θ ⟨0, hK⟩) := by
  obtain ⟨K, rfl⟩ : ∃ m, K = m + 1 := ⟨K - 1, by omega⟩
  rw [atParts, firstValue, List.ofFn_succ]
  rfl

theorem firstValue_observable (hK : 0 < K) {ψ : Θ → ℝ} (hψ : Measurable ψ) (h0 : ∀ x, 0 ≤ ψ x)
    (h1 : ∀ x, ψ x ≤ 1) : Observable n K (firstValue ψ) := by
  refine ⟨fun c => ?_, fun l t w => ?_, fun l t w => ?_⟩
  · simp only [atParts_first hK]
    exact hψ.comp ((measurable_pi_apply _).comp measurable_fst)
  · cases t with
    | nil => simp [firstValue]
    | cons x t => exact h0 x
  · cases t with
    | nil => simp [firstValue]
    | cons x t => exact h1 x

theorem Observable.toMeas {φ : List ℕ → List Θ → List ℝ → ℝ} (hφ : Observable n K φ) :
    Meas fun (c : Fin n → Fin K) θ v => ENNReal.ofReal (atParts φ c θ v) :=
  fun c => ENNReal.measurable_ofReal.comp (hφ.meas c)

theorem Observable.le {φ : List ℕ → List Θ → List ℝ → ℝ} (hφ : Observable n K φ)
    (c : Fin n → Fin K) (θ : Fin K → Θ) (v : Fin K → ℝ) : ENNReal.ofReal (atParts φ c θ v) ≤ 1 := by
  rw [← ENNReal.ofReal_one]
  exact ENNReal.ofReal_le_ofReal (hφ.le_one _ _ _)

/-- The kernel has a limit, the same from every start; with nothing saved it is the posterior mean. -/
theorem kernel_limit (S : RunSetup E like ν Q h prior a b) (n : ℕ) :
    ∃ δ : ℝ, 0 < δ ∧ δ ≤ 1 ∧
      ∀ φ : (Fin n → Fin K) → (Fin K → Θ) → (Fin K → ℝ) → ℝ≥0∞, Meas φ → (∀ c θ v, φ c θ v ≤ 1) →
      ∃ L : ℝ, 0 ≤ L ∧ L ≤ 1 ∧
        (Q = noneSaved → L = (posteriorMean like n a b (ν h) φ).toReal) ∧
        ∀ (c : Fin n → Fin K) (θ : Fin K → Θ) (v : Fin K → ℝ), (∀ k, 0 < v k ∧ v k ≤ 1) → ∀ k : ℕ,
          |((lawKernel like (drawLaws E ν Q h) a b)^[k + 1] φ c θ v).toReal - L| ≤ (1 - δ) ^ k := by
  have : Nonempty (Fin n → Fin K) := ⟨fun _ => ⟨0, S.some⟩⟩
  have hμ := drawLaws_prob (n := n) (K := K) S.bayes S.saved
  obtain ⟨δ, h0, h1, hδ⟩ := kernel_converges S.like_meas hμ S.apos S.bpos S.some
  obtain ⟨w, w0, w1, winv, wpost⟩ : ∃ w : (Fin n → Fin K) → ℝ, (∀ c, 0 ≤ w c) ∧ ∑ c, w c = 1 ∧
      Invariant w (labelMatrix like (drawLaws E ν Q h) a b) ∧
      (Q = noneSaved → ∀ φ : (Fin n → Fin K) → (Fin K → Θ) → (Fin K → ℝ) → ℝ≥0∞, Meas φ →
        (∀ c θ v, φ c θ v ≤ 1) → (posteriorMean like n a b (ν h) φ).toReal =
          ∑ c, w c * (condMean (drawLaws E ν Q h) a b φ c).toReal) := by
    by_cases hQ : Q = noneSaved
    · subst hQ
      obtain ⟨w, w0, w1, winv, wpost⟩ := labelPost (n := n) S.like_meas S.bayes S.apos S.bpos S.some
      exact ⟨w, w0, w1, winv, fun _ => wpost⟩
    · obtain ⟨w, w0, w1, winv⟩ := exists_invariant
        (labelMatrix_stochastic S.like_meas hμ S.apos S.bpos S.some)
        (labelMatrix_pos S.like_meas hμ S.apos S.bpos S.some)
      exact ⟨w, w0, w1, winv, fun h => absurd h hQ⟩
  refine ⟨δ, h0, h1, fun φ hφ hφ1 => ⟨∑ c, w c * (condMean (drawLaws E ν Q h) a b φ c).toReal,
    Finset.sum_nonneg fun c _ => mul_nonneg (w0 c) ENNReal.toReal_nonneg, ?_,
    fun hQ => (wpost hQ φ hφ hφ1).symm, fun c θ v hv k => hδ w w0 w1 winv φ hφ1 c θ v hv k⟩⟩
  rw [← w1]
  refine Finset.sum_le_sum fun c _ => mul_le_of_le_one_right (w0 c) ?_
  exact ENNReal.toReal_le_of_le_ofReal zero_le_one
    (by rw [ENNReal.ofReal_one]; exact condMean_le hμ S.apos S.bpos hφ1 c)

theorem kernel_iterate_le (S : RunSetup E like ν Q h prior a b)
    {Φ : (Fin n → Fin K) → (Fin K → Θ) → (Fin K → ℝ) → ℝ≥0∞} {x : ℝ≥0∞}
    (hΦ : ∀ c θ v, (∀ k, 0 < v k ∧ v k ≤ 1) → Φ c θ v ≤ x) (k : ℕ) :
    ∀ c θ v, (∀ k, 0 < v k ∧ v k ≤ 1) →
      (lawKernel like (drawLaws E ν Q h) a b)^[k] Φ c θ v ≤ x := by
  induction k with
  | zero => exact hΦ
  | succ k ih =>
    intro c θ v hv
    rw [Function.iterate_succ_apply', ← kernel_const S x c θ hv]
    exact kernel_mono S ih c θ v

theorem kernel_iterate_const (S : RunSetup E like ν Q h prior a b)
    {Φ : (Fin n → Fin K) → (Fin K → Θ) → (Fin K → ℝ) → ℝ≥0∞} {x : ℝ≥0∞}
    (hΦ : ∀ c θ v, (∀ k, 0 < v k ∧ v k ≤ 1) → Φ c θ v = x) (k : ℕ) :
    ∀ c θ v, (∀ k, 0 < v k ∧ v k ≤ 1) →
      (lawKernel like (drawLaws E ν Q h) a b)^[k] Φ c θ v = x := by
  induction k with
  | zero => exact hΦ
  | succ k ih =>
    intro c θ v hv
    rw [Function.iterate_succ_apply']
    refine le_antisymm ?_ ?_
    · rw [← kernel_const S x c θ hv]
      exact kernel_mono S (fun c θ v hv => (ih c θ v hv).le) c θ v
    · nth_rw 1 [← kernel_const S x c θ hv]
      exact kernel_mono S (fun c θ v hv => (ih c θ v hv).ge) c θ v

/-- The mean of a function of one value. -/
theorem condMean_value (hμ : ∀ c k, IsProbabilityMeasure (μ c k)) (ha : ∀ k, 0 < a k)
    (hb : ∀ k, 0 < b k) {ψ : Θ → ℝ≥0∞} (hψ : Measurable ψ) (k : Fin K) (c : Fin n → Fin K) :
    condMean μ a b (fun _ θ _ => ψ (θ k)) c = ∫⁻ x, ψ x ∂μ c k := by
  have h1 := hμ c
  have h2 := stickLaw_isProb (shape_pos ha (cnt c)) (shape_pos hb (later c))
  simp only [condMean, lintegral_const, measure_univ, mul_one]
  exact (measurePreserving_eval (μ c) k).lintegral_comp hψ

theorem drawLaws_first (hK : 0 < K) (c : Fin n → Fin K) :
    drawLaws E ν (firstSaved h) h c ⟨0, hK⟩ = ν h := by
  unfold drawLaws drawHyp firstSaved
  split <;> rfl

/-- Whatever the state, after an iteration the first value has the law of the prior. -/
theorem kernel_first (S : RunSetup E like ν (firstSaved h) h prior a b) {ψ : Θ → ℝ≥0∞}
    (hψ : Measurable ψ) (k : ℕ) (c : Fin n → Fin K) (θ : Fin K → Θ) {v : Fin K → ℝ}
    (hv : ∀ k, 0 < v k ∧ v k ≤ 1) :
    (lawKernel like (drawLaws E ν (firstSaved h) h) a b)^[k + 1]
      (fun _ θ _ => ψ (θ ⟨0, S.some⟩)) c θ v = ∫⁻ x, ψ x ∂ν h := by
  have hμ := drawLaws_prob (n := n) (K := K) S.bayes S.saved
  rw [Function.iterate_succ_apply]
  refine kernel_iterate_const S (fun c θ v hv => ?_) k c θ v hv
  rw [lawKernel_apply]
  have e : ∀ c' : Fin n → Fin K, condMean (drawLaws E ν (firstSaved h) h) a b
      (fun _ θ _ => ψ (θ ⟨0, S.some⟩)) c' = ∫⁻ x, ψ x ∂ν h := fun c' => by
    rw [condMean_value hμ S.apos S.bpos hψ, drawLaws_first]
  rw [Finset.sum_congr rfl fun c' _ => by rw [e c'], ← Finset.sum_mul,
    ← ENNReal.ofReal_sum_of_nonneg fun c' _ => labelProb_nonneg θ hv c', labelProb_sum S.some θ hv,
    ENNReal.ofReal_one, one_mul]

end Bayesmix.Cond
