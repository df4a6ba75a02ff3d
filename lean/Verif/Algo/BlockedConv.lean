import Verif.Algo.PropsBlocked
import Verif.Algo.FinChain

/-!
# Blocked Gibbs from any start

The kernel of an iteration of blocked Gibbs forgets values and sticks once the labels are drawn, so
its iterates are governed by a positive stochastic matrix on the labellings.
-/

namespace Bayesmix.Cond
open Bayesmix Mixing Slice Gibbs MeasureTheory ENNReal Hierarchies Chain

variable {G H Θ : Type} [AddCommGroup G] [MeasurableSpace Θ]

/-- Conditional probability of the labels given values and sticks. -/
noncomputable def labelProb (like : Θ → ℕ → ℝ) {n K : ℕ} (θ : Fin K → Θ) (v : Fin K → ℝ)
    (c : Fin n → Fin K) : ℝ :=
  dataWeight like c θ v / ∑ c'' : Fin n → Fin K, dataWeight like c'' θ v

/-- Mean of `φ` when values and sticks are drawn given the labels, the value of component `k` from
`μ c k`. -/
noncomputable def condMean {n K : ℕ} (μ : (Fin n → Fin K) → Fin K → Measure Θ) (a b : Fin K → ℝ)
    (φ : (Fin n → Fin K) → (Fin K → Θ) → (Fin K → ℝ) → ℝ≥0∞) (c : Fin n → Fin K) : ℝ≥0∞ :=
  ∫⁻ θ, ∫⁻ v, φ c θ v ∂stickLaw (fun k => a k + cnt c k) (fun k => b k + later c k)
    ∂Measure.pi (μ c)

/-- Draw the labels given values and sticks, then values and sticks given the labels. -/
noncomputable def lawKernel (like : Θ → ℕ → ℝ) {n K : ℕ} (μ : (Fin n → Fin K) → Fin K → Measure Θ)
    (a b : Fin K → ℝ) (φ : (Fin n → Fin K) → (Fin K → Θ) → (Fin K → ℝ) → ℝ≥0∞) :
    (Fin n → Fin K) → (Fin K → Θ) → (Fin K → ℝ) → ℝ≥0∞ := fun _ θ v =>
  ∑ c', ENNReal.ofReal (labelProb like θ v c') * condMean μ a b φ c'

/-- The laws of the values of the components given the labels, when the objects have the
hyperparameters `Q` saved. -/
noncomputable def drawLaws (E : Env G H Θ) (ν : H → Measure Θ) (Q : ℕ → Option H) (h : H) {n K : ℕ}
    (c : Fin n → Fin K) (k : Fin K) : Measure Θ :=
  ν (drawHyp E Q h c k)

/-- The law of the next labels given the current ones, values and sticks integrated out. -/
noncomputable def labelMatrix (like : Θ → ℕ → ℝ) {n K : ℕ}
    (μ : (Fin n → Fin K) → Fin K → Measure Θ) (a b : Fin K → ℝ) : Matrix (Fin n → Fin K) (Fin n → Fin K) ℝ := fun c c' =>
  (condMean μ a b (fun _ θ v => ENNReal.ofReal (labelProb like θ v c')) c).toReal

variable {E : Env G H Θ} {like : Θ → ℕ → ℝ} {ν : H → Measure Θ} {h : H} {n K : ℕ} {a b : Fin K → ℝ}
  {μ : (Fin n → Fin K) → Fin K → Measure Θ}

/-- With nothing saved, this is the kernel of C100. -/
theorem blockedKernel_eq : blockedKernel E like ν h (n := n) a b =
    lawKernel like (drawLaws E ν noneSaved h) a b := rfl

theorem lawKernel_apply (φ : (Fin n → Fin K) → (Fin K → Θ) → (Fin K → ℝ) → ℝ≥0∞)
    (c : Fin n → Fin K) (θ : Fin K → Θ) (v : Fin K → ℝ) : lawKernel like μ a b φ c θ v =
      ∑ c', ENNReal.ofReal (labelProb like θ v c') * condMean μ a b φ c' := rfl

theorem drawLaws_prob {Q : ℕ → Option H} (hB : BayesClusters E like ν h)
    (hQ : ∀ k p, Q k = some p → IsProbabilityMeasure (ν p)) (c : Fin n → Fin K) (k : Fin K) :
    IsProbabilityMeasure (drawLaws E ν Q h c k) := by
  unfold drawLaws drawHyp
  have h1 := condHyp_prob hB c k
  unfold condHyp at h1
  by_cases h0 : cnt c k = 0
  · rw [if_pos h0]
    exact hB.prior
  · rw [if_neg h0] at h1 ⊢
    cases hq : Q k.val with
    | none => exact h1
    | some p => exact hQ _ p hq

/-! ### Probabilities of the labels -/

theorem totalWeight_pos (hK : 0 < K) (θ : Fin K → Θ) {v : Fin K → ℝ}
    (hv : ∀ k, 0 < v k ∧ v k ≤ 1) : 0 < ∑ c : Fin n → Fin K, dataWeight like c θ v := by
  refine lt_of_lt_of_le ?_ (Finset.single_le_sum (fun c _ => dataWeight_nonneg like c θ hv)
    (Finset.mem_univ fun _ => (⟨0, hK⟩ : Fin K)))
  refine Finset.prod_pos fun i _ => mul_pos ?_ (Real.exp_pos _)
  simp only [stickWeight, Finset.univ_eq_empty, Finset.prod_empty, mul_one]
  exact (hv _).1

theorem labelProb_nonneg (θ : Fin K → Θ) {v : Fin K → ℝ} (hv : ∀ k, 0 < v k ∧ v k ≤ 1)
    (c : Fin n → Fin K) : 0 ≤ labelProb like θ v c :=
  div_nonneg (dataWeight_nonneg like c θ hv)
    (Finset.sum_nonneg fun c _ => dataWeight_nonneg like c θ hv)

theorem labelProb_sum (hK : 0 < K) (θ : Fin K → Θ) {v : Fin K → ℝ}
    (hv : ∀ k, 0 < v k ∧ v k ≤ 1) : ∑ c : Fin n → Fin K, labelProb like θ v c = 1 := by
  unfold labelProb
  rw [← Finset.sum_div, div_self (totalWeight_pos hK θ hv).ne']

theorem labelProb_pos (θ : Fin K → Θ) {v : Fin K → ℝ} (hv : ∀ k, 0 < v k ∧ v k ≤ 1)
    (hv1 : ∀ k : Fin K, k.val + 1 ≠ K → v k < 1) (c : Fin n → Fin K) :
    0 < labelProb like θ v c := by
  have hd : 0 < dataWeight like c θ v := by
    refine Finset.prod_pos fun i _ => mul_pos ?_ (Real.exp_pos _)
    unfold stickWeight
    refine mul_pos (hv _).1 (Finset.prod_pos fun j _ => ?_)
    have hj : (j.castLE (c i).isLt.le).val + 1 ≠ K := by
      have h1 := j.isLt
      have h2 := (c i).isLt
      simp only [Fin.val_castLE]
      omega
    linarith [hv1 _ hj]
  exact div_pos hd (lt_of_lt_of_le hd (Finset.single_le_sum
    (fun c _ => dataWeight_nonneg like c θ hv) (Finset.mem_univ c)))

theorem measurable_labelProb (hlike : ∀ i, Measurable fun θ => like θ i) (c : Fin n → Fin K) :
    Measurable fun x : (Fin K → Θ) × (Fin K → ℝ) => labelProb like x.1 x.2 c :=
  (measurable_dataWeight hlike c).div
    (Finset.measurable_sum _ fun c'' _ => measurable_dataWeight hlike c'')

theorem stickLaw_ae_lt (ha : ∀ k, 0 < a k) (hb : ∀ k, 0 < b k) :
    ∀ᵐ v ∂stickLaw a b, ∀ k : Fin K, k.val + 1 ≠ K → v k < 1 := by
  have := stickLaw_prob ha hb
  unfold stickLaw
  rw [ae_all_iff]
  intro k
  by_cases hk : k.val + 1 = K
  · exact Filter.Eventually.of_forall fun v hne => absurd hk hne
  · have h : ∀ᵐ x ∂(if k.val + 1 = K then Measure.dirac 1 else
        ProbabilityTheory.betaMeasure (a k) (b k)), x < 1 := by
      rw [if_neg hk]
      filter_upwards [betaMeasure_ae (a k) (b k)] with x hx
      exact hx.2
    have := (measurePreserving_eval (fun k : Fin K => if k.val + 1 = K then Measure.dirac 1 else
      ProbabilityTheory.betaMeasure (a k) (b k)) k).quasiMeasurePreserving.ae h
    filter_upwards [this] with v hv _
    exact hv

/-! ### Means given the labels -/

theorem condMean_const (hμ : ∀ c k, IsProbabilityMeasure (μ c k)) (ha : ∀ k, 0 < a k) (hb : ∀ k, 0 < b k)
    (x : ℝ≥0∞) (c : Fin n → Fin K) : condMean μ a b (fun _ _ _ => x) c = x := by
  have h1 := hμ c
  have h2 := stickLaw_isProb (shape_pos ha (cnt c)) (shape_pos hb (later c))
  simp only [condMean, lintegral_const, measure_univ, mul_one]

theorem condMean_le (hμ : ∀ c k, IsProbabilityMeasure (μ c k)) (ha : ∀ k, 0 < a k) (hb : ∀ k, 0 < b k)
    {φ : (Fin n → Fin K) → (Fin K → Θ) → (Fin K → ℝ) → ℝ≥0∞} {x : ℝ≥0∞}
    (hφ : ∀ c θ v, φ c θ v ≤ x) (c : Fin n → Fin K) : condMean μ a b φ c ≤ x := by
  rw [← condMean_const hμ ha hb x c]
  exact lintegral_mono fun θ => lintegral_mono fun v => hφ c θ v

theorem lintegral_lintegral_sum {X Y ι : Type} [MeasurableSpace X] [MeasurableSpace Y] [Fintype ι]
    (μ : Measure X) (κ : Measure Y) [SFinite κ] (F : ι → X → Y → ℝ≥0∞)
    (hF : ∀ i, Measurable fun p : X × Y => F i p.1 p.2) (g : ι → ℝ≥0∞) :
    ∫⁻ x, ∫⁻ y, ∑ i, F i x y * g i ∂κ ∂μ = ∑ i, (∫⁻ x, ∫⁻ y, F i x y ∂κ ∂μ) * g i := by
  have hv : ∀ i x, Measurable fun y => F i x y := fun i x =>
    (hF i).comp (measurable_const.prodMk measurable_id)
  have e1 : ∀ x, ∫⁻ y, ∑ i, F i x y * g i ∂κ = ∑ i, (∫⁻ y, F i x y ∂κ) * g i := by
    intro x
    rw [lintegral_finsetSum _ fun i _ => (hv i x).mul_const _]
    exact Finset.sum_congr rfl fun i _ => lintegral_mul_const _ (hv i x)
  have hi : ∀ i, Measurable fun x => ∫⁻ y, F i x y ∂κ := fun i => (hF i).lintegral_prod_right'
  rw [lintegral_congr e1, lintegral_finsetSum _ fun i _ => (hi i).mul_const _]
  exact Finset.sum_congr rfl fun i _ => lintegral_mul_const _ (hi i)

theorem condMean_sum (hlike : ∀ i, Measurable fun θ => like θ i) (ha : ∀ k, 0 < a k)
    (hb : ∀ k, 0 < b k) (g : (Fin n → Fin K) → ℝ≥0∞) (c : Fin n → Fin K) :
    condMean μ a b (fun _ θ v => ∑ c', ENNReal.ofReal (labelProb like θ v c') * g c') c =
      ∑ c' : Fin n → Fin K,
        condMean μ a b (fun _ θ v => ENNReal.ofReal (labelProb like θ v c')) c * g c' := by
  have h2 := stickLaw_isProb (shape_pos ha (cnt c)) (shape_pos hb (later c))
  exact lintegral_lintegral_sum _ _ (fun (c' : Fin n → Fin K) θ v =>
    ENNReal.ofReal (labelProb like θ v c')) (fun c' =>
    ENNReal.measurable_ofReal.comp (measurable_labelProb hlike c')) g

/-! ### The matrix -/

theorem labelMean_sum (hlike : ∀ i, Measurable fun θ => like θ i) (hμ : ∀ c k, IsProbabilityMeasure (μ c k))
    (ha : ∀ k, 0 < a k) (hb : ∀ k, 0 < b k) (hK : 0 < K) (c : Fin n → Fin K) :
    ∑ c' : Fin n → Fin K,
      condMean μ a b (fun _ θ v => ENNReal.ofReal (labelProb like θ v c')) c = 1 := by
  have h1 := hμ c
  have h2 := stickLaw_isProb (shape_pos ha (cnt c)) (shape_pos hb (later c))
  have e := condMean_sum (μ := μ) hlike ha hb (fun _ => 1) c
  simp only [mul_one] at e
  rw [← e, ← condMean_const hμ ha hb 1 c]
  unfold condMean
  refine lintegral_congr fun θ => lintegral_congr_ae ?_
  filter_upwards [stickLaw_ae (shape_pos ha (cnt c)) (shape_pos hb (later c))] with v hv
  rw [← ENNReal.ofReal_sum_of_nonneg fun c' _ => labelProb_nonneg θ hv c', labelProb_sum hK θ hv,
    ENNReal.ofReal_one]

theorem labelMean_ne_top (hlike : ∀ i, Measurable fun θ => like θ i) (hμ : ∀ c k, IsProbabilityMeasure (μ c k))
    (ha : ∀ k, 0 < a k) (hb : ∀ k, 0 < b k) (hK : 0 < K) (c c' : Fin n → Fin K) :
    condMean μ a b (fun _ θ v => ENNReal.ofReal (labelProb like θ v c')) c ≠ ∞ := by
  have e := labelMean_sum hlike hμ ha hb hK c
  exact ENNReal.sum_ne_top.mp (e ▸ one_ne_top) c' (Finset.mem_univ c')

theorem ofReal_labelMatrix (hlike : ∀ i, Measurable fun θ => like θ i)
    (hμ : ∀ c k, IsProbabilityMeasure (μ c k)) (ha : ∀ k, 0 < a k) (hb : ∀ k, 0 < b k) (hK : 0 < K)
    (c c' : Fin n → Fin K) : ENNReal.ofReal (labelMatrix like μ a b c c') =
      condMean μ a b (fun _ θ v => ENNReal.ofReal (labelProb like θ v c')) c :=
  ENNReal.ofReal_toReal (labelMean_ne_top hlike hμ ha hb hK c c')

theorem labelMatrix_stochastic (hlike : ∀ i, Measurable fun θ => like θ i)
    (hμ : ∀ c k, IsProbabilityMeasure (μ c k)) (ha : ∀ k, 0 < a k) (hb : ∀ k, 0 < b k) (hK : 0 < K) :
    Stochastic (labelMatrix like μ a b) := by
  refine ⟨fun _ _ => ENNReal.toReal_nonneg, fun c => ?_⟩
  unfold labelMatrix
  rw [← ENNReal.toReal_sum fun c' _ => labelMean_ne_top hlike hμ ha hb hK c c',
    labelMean_sum hlike hμ ha hb hK c, ENNReal.toReal_one]

theorem lintegral_lintegral_ne_zero {X Y : Type} [MeasurableSpace X] [MeasurableSpace Y]
    (μ : Measure X) (κ : Measure Y) [IsProbabilityMeasure μ] [IsProbabilityMeasure κ]
    (F : X → Y → ℝ≥0∞) (hF : Measurable fun p : X × Y => F p.1 p.2)
    (hpos : ∀ x, ∀ᵐ y ∂κ, 0 < F x y) : ∫⁻ x, ∫⁻ y, F x y ∂κ ∂μ ≠ 0 := by
  intro h0
  rw [lintegral_eq_zero_iff hF.lintegral_prod_right'] at h0
  obtain ⟨x, hx⟩ := h0.exists
  have hx' : ∫⁻ y, F x y ∂κ = 0 := hx
  have hmv : Measurable fun y => F x y := hF.comp (measurable_const.prodMk measurable_id)
  rw [lintegral_eq_zero_iff hmv] at hx'
  obtain ⟨y, hy0, hy⟩ := (hx'.and (hpos x)).exists
  exact hy.ne' hy0

theorem labelMatrix_pos (hlike : ∀ i, Measurable fun θ => like θ i)
    (hμ : ∀ c k, IsProbabilityMeasure (μ c k)) (ha : ∀ k, 0 < a k) (hb : ∀ k, 0 < b k) (hK : 0 < K)
    (c c' : Fin n → Fin K) : 0 < labelMatrix like μ a b c c' := by
  refine ENNReal.toReal_pos ?_ (labelMean_ne_top hlike hμ ha hb hK c c')
  have h1 := hμ c
  have h2 := stickLaw_isProb (shape_pos ha (cnt c)) (shape_pos hb (later c))
  refine lintegral_lintegral_ne_zero _ _ (fun θ v => ENNReal.ofReal (labelProb like θ v c'))
    (ENNReal.measurable_ofReal.comp (measurable_labelProb hlike c')) fun θ => ?_
  filter_upwards [stickLaw_ae (shape_pos ha (cnt c)) (shape_pos hb (later c)),
    stickLaw_ae_lt (shape_pos ha (cnt c)) (shape_pos hb (later c))] with v hv hv1
  exact ENNReal.ofReal_pos.mpr (labelProb_pos θ hv hv1 c')

/-! ### Iterates -/

theorem condMean_iterate (hlike : ∀ i, Measurable fun θ => like θ i)
    (hμ : ∀ c k, IsProbabilityMeasure (μ c k)) (ha : ∀ k, 0 < a k) (hb : ∀ k, 0 < b k) (hK : 0 < K)
    {φ : (Fin n → Fin K) → (Fin K → Θ) → (Fin K → ℝ) → ℝ≥0∞} (hφ : ∀ c θ v, φ c θ v ≤ 1)
    (k : ℕ) (c : Fin n → Fin K) :
    condMean μ a b ((lawKernel like μ a b)^[k] φ) c =
      ENNReal.ofReal (∑ c', (labelMatrix like μ a b ^ k) c c' *
        (condMean μ a b φ c').toReal) := by
  have hs := labelMatrix_stochastic hlike hμ ha hb hK
  induction k generalizing c with
  | zero =>
    have hne : condMean μ a b φ c ≠ ∞ :=
      ne_top_of_le_ne_top one_ne_top (condMean_le hμ ha hb hφ c)
    simp [Matrix.one_apply, ENNReal.ofReal_toReal hne]
  | succ k ih =>
    rw [Function.iterate_succ_apply']
    have e : lawKernel like μ a b ((lawKernel like μ a b)^[k] φ) =
        fun _ θ v => ∑ c', ENNReal.ofReal (labelProb like θ v c') *
          condMean μ a b ((lawKernel like μ a b)^[k] φ) c' := rfl
    rw [e, condMean_sum hlike ha hb]
    have e2 : ∀ c', condMean μ a b (fun _ θ v => ENNReal.ofReal (labelProb like θ v c')) c *
        condMean μ a b ((lawKernel like μ a b)^[k] φ) c' =
        ENNReal.ofReal (labelMatrix like μ a b c c' *
          ∑ c'', (labelMatrix like μ a b ^ k) c' c'' * (condMean μ a b φ c'').toReal) := by
      intro c'
      rw [ih, ENNReal.ofReal_mul (hs.nonneg c c'), ofReal_labelMatrix hlike hμ ha hb hK]
    rw [Finset.sum_congr rfl fun c' _ => e2 c', ← ENNReal.ofReal_sum_of_nonneg fun c' _ =>
      mul_nonneg (hs.nonneg c c') (Finset.sum_nonneg fun c'' _ =>
        mul_nonneg ((hs.pow k).nonneg c' c'') ENNReal.toReal_nonneg)]
    congr 1
    rw [pow_succ']
    simp only [Matrix.mul_apply, Finset.sum_mul, Finset.mul_sum]
    rw [Finset.sum_comm]
    exact Finset.sum_congr rfl fun z _ => Finset.sum_congr rfl fun y _ => by ring

/-! ### The posterior -/

theorem none_prob (hB : BayesClusters E like ν h) (c : Fin n → Fin K) (k : Fin K) :
    IsProbabilityMeasure (drawLaws E ν noneSaved h c k) :=
  drawLaws_prob hB (fun _ _ h0 => by cases h0) c k

/-- The weight of a labelling in the posterior. -/
noncomputable def labelWeight (like : Θ → ℕ → ℝ) (ν : Measure Θ) {n K : ℕ} (a b : Fin K → ℝ)
    (c : Fin n → Fin K) : ℝ≥0∞ :=
  ∫⁻ v, ∫⁻ θ, ENNReal.ofReal (dataWeight like c θ v) ∂Measure.pi (fun _ => ν) ∂stickLaw a b

theorem posteriorAt_labels (hlike : ∀ i, Measurable fun θ => like θ i)
    (hν : IsProbabilityMeasure (ν h)) (g : (Fin n → Fin K) → ℝ≥0∞) :
    posteriorAt like n a b (ν h) (fun c _ _ => g c) = ∑ c, labelWeight like (ν h) a b c * g c := by
  have hm : ∀ c : Fin n → Fin K, Measurable fun x : (Fin K → Θ) × (Fin K → ℝ) =>
      ENNReal.ofReal (dataWeight like c x.1 x.2) := fun c =>
    ENNReal.measurable_ofReal.comp (measurable_dataWeight hlike c)
  refine Finset.sum_congr rfl fun c _ => ?_
  have e : ∀ v : Fin K → ℝ, ∫⁻ θ, ENNReal.ofReal (dataWeight like c θ v) * g c ∂Measure.pi (fun _ => ν h) =
      (∫⁻ θ, ENNReal.ofReal (dataWeight like c θ v) ∂Measure.pi (fun _ => ν h)) * g c := fun v =>
    lintegral_mul_const _ ((hm c).comp (measurable_id.prodMk measurable_const))
  rw [lintegral_congr e]
  exact lintegral_mul_const _ (hm c).lintegral_prod_left'

theorem posteriorAt_condMean (hlike : ∀ i, Measurable fun θ => like θ i)
    (hB : BayesClusters E like ν h) (ha : ∀ k, 0 < a k) (hb : ∀ k, 0 < b k)
    {φ : (Fin n → Fin K) → (Fin K → Θ) → (Fin K → ℝ) → ℝ≥0∞} (hφ : Meas φ) :
    posteriorAt like n a b (ν h) φ =
      ∑ c, labelWeight like (ν h) a b c * condMean (drawLaws E ν noneSaved h) a b φ c := by
  rw [← sticks_invariant hlike hB.prior ha hb hφ, ← values_invariant hlike hB (hφ.sticks ha hb)]
  exact posteriorAt_labels hlike hB.prior fun c => condMean (drawLaws E ν noneSaved h) a b φ c

theorem labelWeight_invariant (hlike : ∀ i, Measurable fun θ => like θ i)
    (hB : BayesClusters E like ν h) (ha : ∀ k, 0 < a k) (hb : ∀ k, 0 < b k)
    (c' : Fin n → Fin K) :
    ∑ c : Fin n → Fin K, labelWeight like (ν h) a b c *
        condMean (drawLaws E ν noneSaved h) a b (fun _ θ v => ENNReal.ofReal (labelProb like θ v c')) c =
      labelWeight like (ν h) a b c' := by
  classical
  obtain ⟨φ, hφd⟩ : ∃ φ : (Fin n → Fin K) → (Fin K → Θ) → (Fin K → ℝ) → ℝ≥0∞,
    φ = fun c _ _ => if c = c' then 1 else 0 := ⟨_, rfl⟩
  have hφ : Meas φ := by
    rw [hφd]
    exact fun c => measurable_const
  have hc : ∀ c, condMean (drawLaws E ν noneSaved h) a b φ c = if c = c' then 1 else 0 := by
    intro c
    have h1 : condMean (drawLaws E ν noneSaved h) a b φ c =
        condMean (drawLaws E ν noneSaved h) a b (fun _ _ _ => if c = c' then (1 : ℝ≥0∞) else 0) c := by rw [hφd]; rfl
    rw [h1, condMean_const (none_prob hB) ha hb]
  have h1 := labels_invariant (n := n) hlike hB.prior ha hb ((hφ.sticks ha hb).values hB)
  rw [values_invariant hlike hB (hφ.sticks ha hb), sticks_invariant hlike hB.prior ha hb hφ,
    posteriorAt_condMean hlike hB ha hb (((hφ.sticks ha hb).values hB).labels hlike),
    posteriorAt_condMean hlike hB ha hb hφ] at h1
  have e : labelsStep like (valuesStep E ν h (sticksStep a b φ)) =
      fun _ θ v => ∑ c'', ENNReal.ofReal (labelProb like θ v c'') * condMean (drawLaws E ν noneSaved h) a b φ c'' := rfl
  have e2 : ∀ c, condMean (drawLaws E ν noneSaved h) a b (labelsStep like (valuesStep E ν h (sticksStep a b φ))) c =
      condMean (drawLaws E ν noneSaved h) a b (fun _ θ v => ENNReal.ofReal (labelProb like θ v c')) c := by
    intro c
    rw [e, condMean_sum hlike ha hb]
    simp only [hc, mul_ite, mul_one, mul_zero]
    rw [Finset.sum_ite_eq' Finset.univ c', if_pos (Finset.mem_univ _)]
  rw [Finset.sum_congr rfl fun c _ => by rw [e2 c]] at h1
  rw [h1, Finset.sum_eq_single_of_mem c' (Finset.mem_univ _)]
  · rw [hc, if_pos rfl, mul_one]
  · intro c _ hne
    rw [hc, if_neg hne, mul_zero]

/-- The posterior mean of `φ`. -/
noncomputable def posteriorMean (like : Θ → ℕ → ℝ) (n : ℕ) {K : ℕ} (a b : Fin K → ℝ) (ν : Measure Θ)
    (φ : (Fin n → Fin K) → (Fin K → Θ) → (Fin K → ℝ) → ℝ≥0∞) : ℝ≥0∞ :=
  posteriorAt like n a b ν φ / posteriorAt like n a b ν fun _ _ _ => 1

/-- Posterior probabilities of the labellings, and the two things wanted of them. -/
theorem labelPost (hlike : ∀ i, Measurable fun θ => like θ i)
    (hB : BayesClusters E like ν h) (ha : ∀ k, 0 < a k) (hb : ∀ k, 0 < b k) (hK : 0 < K) :
    ∃ w : (Fin n → Fin K) → ℝ, (∀ c, 0 ≤ w c) ∧ ∑ c, w c = 1 ∧
      Invariant w (labelMatrix like (drawLaws E ν noneSaved h) a b) ∧
      ∀ φ : (Fin n → Fin K) → (Fin K → Θ) → (Fin K → ℝ) → ℝ≥0∞, Meas φ → (∀ c θ v, φ c θ v ≤ 1) →
        (posteriorMean like n a b (ν h) φ).toReal =
          ∑ c, w c * (condMean (drawLaws E ν noneSaved h) a b φ c).toReal := by
  obtain ⟨z0, z1⟩ := posteriorAt_one (n := n) hlike hB ha hb hK
  have hZ : posteriorAt like n a b (ν h) (fun _ _ _ => 1) =
      ∑ c : Fin n → Fin K, labelWeight like (ν h) a b c := by
    have := posteriorAt_labels (n := n) (a := a) (b := b) hlike hB.prior fun _ => 1
    simpa using this
  obtain ⟨Z, hZd⟩ : ∃ Z, Z = posteriorAt like n a b (ν h) (fun _ _ _ => 1) := ⟨_, rfl⟩
  rw [← hZd] at z0 z1
  have hw : ∀ c : Fin n → Fin K, labelWeight like (ν h) a b c ≠ ∞ := fun c =>
    ENNReal.sum_ne_top.mp (hZ ▸ hZd ▸ z1) c (Finset.mem_univ c)
  have hwz : ∀ c : Fin n → Fin K, labelWeight like (ν h) a b c / Z ≠ ∞ := fun c =>
    ENNReal.div_ne_top (hw c) z0
  refine ⟨fun c => (labelWeight like (ν h) a b c / Z).toReal, fun c => ENNReal.toReal_nonneg,
    ?_, ?_, ?_⟩
  · rw [← ENNReal.toReal_sum fun c _ => hwz c]
    have : ∑ c : Fin n → Fin K, labelWeight like (ν h) a b c / Z = 1 := by
      simp only [div_eq_mul_inv]
      rw [← Finset.sum_mul, ← hZ, ← hZd, ENNReal.mul_inv_cancel z0 z1]
    rw [this, ENNReal.toReal_one]
  · intro c'
    have h1 := labelWeight_invariant (n := n) hlike hB ha hb c'
    dsimp only
    rw [← h1]
    unfold labelMatrix
    have e : ∀ c : Fin n → Fin K, (labelWeight like (ν h) a b c / Z).toReal *
        (condMean (drawLaws E ν noneSaved h) a b (fun _ θ v => ENNReal.ofReal (labelProb like θ v c')) c).toReal =
        (labelWeight like (ν h) a b c / Z *
          condMean (drawLaws E ν noneSaved h) a b (fun _ θ v => ENNReal.ofReal (labelProb like θ v c')) c).toReal :=
      fun c => ENNReal.toReal_mul.symm
    rw [Finset.sum_congr rfl fun c _ => e c, ← ENNReal.toReal_sum fun c _ =>
      ENNReal.mul_ne_top (hwz c) (labelMean_ne_top hlike (none_prob hB) ha hb hK c c')]
    congr 1
    simp only [div_eq_mul_inv]
    rw [Finset.sum_mul]
    exact Finset.sum_congr rfl fun c _ => by ring
  · intro φ hφ hφ1
    have hne : ∀ c, condMean (drawLaws E ν noneSaved h) a b φ c ≠ ∞ := fun c =>
      ne_top_of_le_ne_top one_ne_top (condMean_le (none_prob hB) ha hb hφ1 c)
    rw [posteriorMean, ← hZd, posteriorAt_condMean hlike hB ha hb hφ]
    have e : ∀ c : Fin n → Fin K, (labelWeight like (ν h) a b c / Z).toReal * (condMean (drawLaws E ν noneSaved h) a b φ c).toReal =
        (labelWeight like (ν h) a b c / Z * condMean (drawLaws E ν noneSaved h) a b φ c).toReal :=
      fun c => ENNReal.toReal_mul.symm
    rw [Finset.sum_congr rfl fun c _ => e c, ← ENNReal.toReal_sum fun c _ =>
      ENNReal.mul_ne_top (hwz c) (hne c)]
    congr 1
    simp only [div_eq_mul_inv]
    rw [Finset.sum_mul]
    exact Finset.sum_congr rfl fun c _ => by ring

/-- Iterates of the kernel converge geometrically from every state. -/
theorem kernel_converges (hlike : ∀ i, Measurable fun θ => like θ i)
    (hμ : ∀ c k, IsProbabilityMeasure (μ c k)) (ha : ∀ k, 0 < a k) (hb : ∀ k, 0 < b k) (hK : 0 < K) :
    ∃ δ : ℝ, 0 < δ ∧ δ ≤ 1 ∧
      ∀ w : (Fin n → Fin K) → ℝ, (∀ c, 0 ≤ w c) → ∑ c, w c = 1 →
      Invariant w (labelMatrix like μ a b) →
      ∀ φ : (Fin n → Fin K) → (Fin K → Θ) → (Fin K → ℝ) → ℝ≥0∞, (∀ c θ v, φ c θ v ≤ 1) →
      ∀ (c : Fin n → Fin K) (θ : Fin K → Θ) (v : Fin K → ℝ), (∀ k, 0 < v k ∧ v k ≤ 1) → ∀ k : ℕ,
        |((lawKernel like μ a b)^[k + 1] φ c θ v).toReal -
          ∑ c, w c * (condMean μ a b φ c).toReal| ≤ (1 - δ) ^ k := by
  have : Nonempty (Fin n → Fin K) := ⟨fun _ => ⟨0, hK⟩⟩
  have hs := labelMatrix_stochastic hlike hμ ha hb hK
  obtain ⟨q, hq, q0, q1⟩ := lower_bound hs (labelMatrix_pos hlike hμ ha hb hK)
  refine ⟨∑ y, q y, q0, q1, fun w w0 w1 winv φ hφ1 c θ v hv k => ?_⟩
  obtain ⟨f, hf⟩ : ∃ f : (Fin n → Fin K) → ℝ, f = fun c => (condMean μ a b φ c).toReal :=
    ⟨_, rfl⟩
  have hf0 : ∀ c, 0 ≤ f c := fun c => by rw [hf]; exact ENNReal.toReal_nonneg
  have hf1 : ∀ c, f c ≤ 1 := fun c => by
    rw [hf]
    exact ENNReal.toReal_le_of_le_ofReal zero_le_one
      (by rw [ENNReal.ofReal_one]; exact condMean_le hμ ha hb hφ1 c)
  have hc := fun x => converges hs hq w0 w1 winv f (C := 1)
    (fun x y => by linarith [hf0 y, hf1 x]) k x
  rw [Function.iterate_succ_apply', lawKernel_apply]
  have e : ∀ c', ENNReal.ofReal (labelProb like θ v c') *
      condMean μ a b ((lawKernel like μ a b)^[k] φ) c' =
      ENNReal.ofReal (labelProb like θ v c' *
        ∑ c'', (labelMatrix like μ a b ^ k) c' c'' * f c'') := by
    intro c'
    rw [condMean_iterate hlike hμ ha hb hK hφ1, ENNReal.ofReal_mul (labelProb_nonneg θ hv c'), hf]
  have hnn : ∀ c', 0 ≤ ∑ c'', (labelMatrix like μ a b ^ k) c' c'' * f c'' := fun c' =>
    Finset.sum_nonneg fun c'' _ => mul_nonneg ((hs.pow k).nonneg c' c'') (hf0 c'')
  rw [Finset.sum_congr rfl fun c' _ => e c', ← ENNReal.ofReal_sum_of_nonneg fun c' _ =>
    mul_nonneg (labelProb_nonneg θ hv c') (hnn c'), ENNReal.toReal_ofReal (Finset.sum_nonneg
    fun c' _ => mul_nonneg (labelProb_nonneg θ hv c') (hnn c'))]
  have hsum := labelProb_sum (n := n) (like := like) hK θ hv
  have e2 : ∑ c' : Fin n → Fin K, labelProb like θ v c' *
      (∑ c'', (labelMatrix like μ a b ^ k) c' c'' * f c'') - ∑ c, w c * f c =
      ∑ c', labelProb like θ v c' *
        (∑ c'', (labelMatrix like μ a b ^ k) c' c'' * f c'' - ∑ c, w c * f c) := by
    simp only [mul_sub]
    rw [Finset.sum_sub_distrib, ← Finset.sum_mul, hsum, one_mul]
  have e3 : ∑ c, w c * (condMean μ a b φ c).toReal = ∑ c, w c * f c := by rw [hf]
  rw [e3, e2]
  refine (Finset.abs_sum_le_sum_abs _ _).trans ?_
  have e4 : (1 - ∑ y, q y) ^ k =
      ∑ c' : Fin n → Fin K, labelProb like θ v c' * (1 - ∑ y, q y) ^ k := by
    rw [← Finset.sum_mul, hsum, one_mul]
  rw [e4]
  refine Finset.sum_le_sum fun c' _ => ?_
  rw [abs_mul, abs_of_nonneg (labelProb_nonneg θ hv c')]
  refine mul_le_mul_of_nonneg_left ?_ (labelProb_nonneg θ hv c')
  have := hc c'
  rwa [mul_one] at this

/-- Iterates of the kernel with nothing saved approach the posterior geometrically from every
state. -/
theorem blocked_converges (hlike : ∀ i, Measurable fun θ => like θ i)
    (hB : BayesClusters E like ν h) (ha : ∀ k, 0 < a k) (hb : ∀ k, 0 < b k) (hK : 0 < K) (n : ℕ) :
    ∃ δ : ℝ, 0 < δ ∧ δ ≤ 1 ∧
      ∀ φ : (Fin n → Fin K) → (Fin K → Θ) → (Fin K → ℝ) → ℝ≥0∞, Meas φ → (∀ c θ v, φ c θ v ≤ 1) →
      ∀ (c : Fin n → Fin K) (θ : Fin K → Θ) (v : Fin K → ℝ), (∀ k, 0 < v k ∧ v k ≤ 1) → ∀ k : ℕ,
        |((lawKernel like (drawLaws E ν noneSaved h) a b)^[k + 1] φ c θ v).toReal -
          (posteriorMean like n a b (ν h) φ).toReal| ≤ (1 - δ) ^ k := by
  obtain ⟨δ, h0, h1, hδ⟩ := kernel_converges (n := n) hlike (none_prob hB) ha hb hK
  obtain ⟨w, w0, w1, winv, wpost⟩ := labelPost (n := n) hlike hB ha hb hK
  refine ⟨δ, h0, h1, fun φ hφ hφ1 c θ v hv k => ?_⟩
  rw [wpost φ hφ hφ1]
  exact hδ w w0 w1 winv φ hφ1 c θ v hv k

end Bayesmix.Cond
