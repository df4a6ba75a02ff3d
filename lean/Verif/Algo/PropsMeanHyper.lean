import Verif.Algo.MeanHyper
import Mathlib.Probability.Distributions.Gaussian.Real

/-!
# C138: with a Normal prior on the mean of the base measure, Neal2 and Neal8 keep the joint posterior
-/

namespace Bayesmix.Chain
open Bayesmix Cond Gibbs SplitMerge Slice Mixing Hierarchies MeasureTheory ENNReal

/-- The joint posterior of the mean of the base measure, the partition and the values, up to its
normalizing constant: a Normal mean, independent values of the blocks given the mean, the rows given
the values. -/
noncomputable def meanPosterior {n : ℕ} (y : ℕ → ℝ) (prior : List ℕ → ℝ) (mu00 sig200 lam sh sc : ℝ)
    (φ : NIG → Setoid (Fin n) → (Fin n → UniLS) → ℝ≥0∞) : ℝ≥0∞ :=
  ∫⁻ m, partPost (weight prior) (fun st i => uniNormLpdf st (y i)) (nigLaw ⟨m, lam, sh, sc⟩)
    (φ ⟨m, lam, sh, sc⟩) ∂normalLaw mu00 (Real.sqrt sig200)

/-- The Normal - Normal-inverse-Gamma hierarchy; the hyperparameters are updated separately. -/
noncomputable abbrev plainEnv (y : ℕ → ℝ) (draw : NIG → ℕ → UniLS) : Env (ℝ × ℝ) NIG UniLS :=
  nnigEnv y draw fun h _ _ => h

/-- The mean of `g` after an iteration of Neal2 with a Normal prior on the mean of the base measure
(`src/algorithms/base_algorithm.h` 179-184): allocations and unique values, then the hyperparameters.
The mixing is not updated. -/
noncomputable def neal2MeanIter {Z : Type} [MeasurableSpace Z] (y : ℕ → ℝ) (draw : NIG → ℕ → UniLS)
    (S : Scores NIG) (mu00 sig200 : ℝ) (gen : Z → ℝ → ℝ → ℝ) (ζ : Measure Z) (n : ℕ)
    [Nonempty UniLS] (g : Alg (ℝ × ℝ) NIG UniLS → ℝ≥0∞) : Alg (ℝ × ℝ) NIG UniLS → ℝ≥0∞ :=
  neal2IterMean (plainEnv y draw) (fun st i => uniNormLpdf st (y i)) S nigLaw n
    (hyperMean (fun z => meanEnv y draw mu00 sig200 fun _ => gen z) ζ g)

/-- The same for Neal8. -/
noncomputable def neal8MeanIter {Z : Type} [MeasurableSpace Z] (y : ℕ → ℝ) (draw : NIG → ℕ → UniLS)
    (S : Scores NIG) (mu00 sig200 : ℝ) (gen : Z → ℝ → ℝ → ℝ) (ζ : Measure Z) (n : ℕ)
    [Nonempty UniLS] (g : Alg8 (ℝ × ℝ) NIG UniLS → ℝ≥0∞) : Alg8 (ℝ × ℝ) NIG UniLS → ℝ≥0∞ :=
  neal8IterMean (plainEnv y draw) (fun st i => uniNormLpdf st (y i)) S nigLaw n fun s =>
    hyperMean (fun z => meanEnv y draw mu00 sig200 fun _ => gen z) ζ
      (fun b => g { s with base := b }) s.base

/-- `M` is `φ` after an iteration from the states that satisfy `clean`, and has the same posterior
mean. `after m s` is the mean of `φ` after an iteration from the state `s`. -/
structure KeepsMean {n : ℕ} (y : ℕ → ℝ) (draw : NIG → ℕ → UniLS) (prior : List ℕ → ℝ)
    (mu00 sig200 lam sh sc : ℝ) (θ0 : UniLS) (after : Alg (ℝ × ℝ) NIG UniLS → ℝ≥0∞)
    (φ M : NIG → Setoid (Fin n) → (Fin n → UniLS) → ℝ≥0∞) : Prop where
  meas : ∀ m σ, Measurable (M ⟨m, lam, sh, sc⟩ σ)
  measMean : Measurable fun m => partPost (weight prior) (fun st i => uniNormLpdf st (y i))
    (nigLaw ⟨m, lam, sh, sc⟩) (M ⟨m, lam, sh, sc⟩)
  step : ∀ m s, Clean (plainEnv y draw) n ⟨m, lam, sh, sc⟩ s → after s = observeH θ0 M s
  reach : ∀ m (σ : Setoid (Fin n)) (θ : Quotient σ → UniLS), ∃ s,
    Clean (plainEnv y draw) n ⟨m, lam, sh, sc⟩ s ∧ partOf n s.alloc = σ ∧
      rowValues n θ0 s = fun j => θ (Quotient.mk σ j)
  same : meanPosterior y prior mu00 sig200 lam sh sc M = meanPosterior y prior mu00 sig200 lam sh sc φ

section proof

variable {n : ℕ} {y : ℕ → ℝ} {prior : List ℕ → ℝ} {mu00 sig200 lam sh sc : ℝ}
  {Z : Type} [MeasurableSpace Z] {ζ : Measure Z} {gen : Z → ℝ → ℝ → ℝ}

/-- Redrawing the mean keeps the joint posterior. -/
theorem meanPosterior_hyper (hs : 0 < sig200) (hl : 0 < lam) (ha : 0 < sh) (hb : 0 < sc)
    (hg : NormalGen ζ gen) {φ : NIG → Setoid (Fin n) → (Fin n → UniLS) → ℝ≥0∞}
    (hφ : MeasH lam sh sc φ) :
    (Measurable fun m => partPost (weight prior) (fun st i => uniNormLpdf st (y i))
      (nigLaw ⟨m, lam, sh, sc⟩) fun σ x => hyperOp (meanUp mu00 sig200 gen) ζ φ ⟨m, lam, sh, sc⟩ (σ, ∅) x) ∧
    meanPosterior y prior mu00 sig200 lam sh sc
        (fun h σ x => hyperOp (meanUp mu00 sig200 gen) ζ φ h (σ, ∅) x) =
      meanPosterior y prior mu00 sig200 lam sh sc φ := by
  have hL : ∀ σ : Setoid (Fin n), Measurable fun θ : Quotient σ → UniLS =>
      likOn (fun st i => uniNormLpdf st (y i)) Finset.univ fun i => θ (Quotient.mk σ i) := fun σ =>
    (measurable_likOn (fun i => measurable_uniNormLpdf (y i)) Finset.univ).comp
      (f := fun (θ : Quotient σ → UniLS) (i : Fin n) => θ (Quotient.mk σ i))
      (measurable_pi_lambda _ fun _ => measurable_pi_apply _)
  have hb' := fun σ : Setoid (Fin n) => mean_block (mu00 := mu00) hs hl ha hb hg hφ σ (hL σ)
  unfold meanPosterior partPost
  refine ⟨Finset.measurable_sum _ fun σ _ => (hb' σ).1.const_mul _, ?_⟩
  rw [lintegral_finsetSum _ fun σ _ => (hb' σ).1.const_mul _,
    lintegral_finsetSum _ fun σ _ => (hb' σ).2.1.const_mul _]
  refine Finset.sum_congr rfl fun σ _ => ?_
  rw [lintegral_const_mul _ (hb' σ).1, lintegral_const_mul _ (hb' σ).2.1, (hb' σ).2.2]

variable {draw : NIG → ℕ → UniLS} {S : Scores NIG}

theorem observeH_clean {h : NIG} {s : Alg (ℝ × ℝ) NIG UniLS} (hs : Clean (plainEnv y draw) n h s)
    (θ0 : UniLS) (M : NIG → Setoid (Fin n) → (Fin n → UniLS) → ℝ≥0∞) :
    observeH θ0 M s = M h (partOf n s.alloc) (rowValues n θ0 s) := by
  rw [observeH, if_pos hs.saved, hs.hyp]

variable [Nonempty UniLS]

theorem neal2_keepsMean (hs : 0 < sig200) (hl : 0 < lam) (ha : 0 < sh) (hb : 0 < sc)
    (hg : NormalGen ζ gen)
    (hO : ∀ m, Neal2Ok (plainEnv y draw) (fun st i => uniNormLpdf st (y i)) S nigLaw n
      ⟨m, lam, sh, sc⟩ prior) (θ0 : UniLS)
    (φ : NIG → Setoid (Fin n) → (Fin n → UniLS) → ℝ≥0∞) (hφ : MeasH lam sh sc φ) :
    ∃ M, KeepsMean y draw prior mu00 sig200 lam sh sc θ0
      (neal2MeanIter y draw S mu00 sig200 gen ζ n (observeH θ0 φ)) φ M := by
  have := hg.prob
  have hn : 0 < n := by have := (hO 0).two; omega
  obtain ⟨M, hM⟩ : ∃ M : NIG → Setoid (Fin n) → (Fin n → UniLS) → ℝ≥0∞, M = fun h σ x =>
    iterOp (plainEnv y draw) nigLaw h (rowOp (weight prior) (fun st i => uniNormLpdf st (y i)) (nigLaw h))
      (hyperOp (meanUp mu00 sig200 gen) ζ φ h) (σ, ∅) x := ⟨_, rfl⟩
  have hX := fun m => hyperOp_meas (mu00 := mu00) (sig200 := sig200) hg hφ m
  have hinv : ∀ m, partPost (weight prior) (fun st i => uniNormLpdf st (y i))
      (nigLaw ⟨m, lam, sh, sc⟩) (M ⟨m, lam, sh, sc⟩) =
      partPost (weight prior) (fun st i => uniNormLpdf st (y i)) (nigLaw ⟨m, lam, sh, sc⟩)
        fun σ x => hyperOp (meanUp mu00 sig200 gen) ζ φ ⟨m, lam, sh, sc⟩ (σ, ∅) x := by
    intro m
    rw [hM]
    exact (hO m).rows.invariant (hO m).clusters (hO m).meas (hO m).weight_pos (hX m)
  have hH := meanPosterior_hyper (y := y) (prior := prior) (mu00 := mu00) hs hl ha hb hg hφ
  refine ⟨M, fun m σ => ?_, ?_, fun m s hc => ?_, fun m σ θ => exists_clean _ _ θ0 σ θ, ?_⟩
  · rw [hM]
    exact (hO m).iter_meas _ _
  · simp only [hinv]
    exact hH.1
  · rw [observeH_clean hc, hM]
    exact (hO m).iter_reads (hX m)
      (hyper_reads hn (meanEnv_up y draw mu00 sig200) θ0 φ _) _ _ _ _ (hc.seen θ0)
  · rw [← hH.2]
    unfold meanPosterior
    simp only [hinv]

theorem neal8_keepsMean (hs : 0 < sig200) (hl : 0 < lam) (ha : 0 < sh) (hb : 0 < sc)
    (hg : NormalGen ζ gen)
    (hO : ∀ m, Neal8Ok (plainEnv y draw) (fun st i => uniNormLpdf st (y i)) S nigLaw n
      ⟨m, lam, sh, sc⟩ prior) (θ0 : UniLS) (k : ℕ)
    (φ : NIG → Setoid (Fin n) → (Fin n → UniLS) → ℝ≥0∞) (hφ : MeasH lam sh sc φ) :
    ∃ M, ∀ aux : List (Hier (ℝ × ℝ) NIG UniLS), aux.length = k + 1 →
      KeepsMean y draw prior mu00 sig200 lam sh sc θ0
        (fun s => neal8MeanIter y draw S mu00 sig200 gen ζ n (fun t => observeH θ0 φ t.base) ⟨s, aux⟩)
        φ M := by
  have := hg.prob
  have hn : 0 < n := by have := (hO 0).two; omega
  obtain ⟨M, hM⟩ : ∃ M : NIG → Setoid (Fin n) → (Fin n → UniLS) → ℝ≥0∞, M = fun h σ x =>
    iterOp (plainEnv y draw) nigLaw h
      (row8Op (weight prior) (fun st i => uniNormLpdf st (y i)) (nigLaw h) k)
      (hyperOp (meanUp mu00 sig200 gen) ζ φ h) (σ, ∅) x := ⟨_, rfl⟩
  have hX := fun m => hyperOp_meas (mu00 := mu00) (sig200 := sig200) hg hφ m
  have hinv : ∀ m, partPost (weight prior) (fun st i => uniNormLpdf st (y i))
      (nigLaw ⟨m, lam, sh, sc⟩) (M ⟨m, lam, sh, sc⟩) =
      partPost (weight prior) (fun st i => uniNormLpdf st (y i)) (nigLaw ⟨m, lam, sh, sc⟩)
        fun σ x => hyperOp (meanUp mu00 sig200 gen) ζ φ ⟨m, lam, sh, sc⟩ (σ, ∅) x := by
    intro m
    rw [hM]
    exact ((hO m).rows k).invariant (hO m).clusters (hO m).meas (hO m).weight_pos (hX m)
  have hH := meanPosterior_hyper (y := y) (prior := prior) (mu00 := mu00) hs hl ha hb hg hφ
  refine ⟨M, fun aux haux => ⟨fun m σ => ?_, ?_, fun m s hc => ?_,
    fun m σ θ => exists_clean _ _ θ0 σ θ, ?_⟩⟩
  · rw [hM]
    exact (hO m).iter_meas k _ _
  · simp only [hinv]
    exact hH.1
  · rw [observeH_clean hc, hM]
    refine (hO m).iter_reads (m := k) (hX m) (fun σ A x t ht _ => ?_) _ _ _ ⟨s, aux⟩ (hc.seen θ0) haux
    exact hyper_reads hn (meanEnv_up y draw mu00 sig200) θ0 φ _ σ A x t.base ht
  · rw [← hH.2]
    unfold meanPosterior
    simp only [hinv]

end proof

/-- **C138, Neal2, Pitman-Yor process.** From states without saved hyperparameters an iteration with a
Normal prior on the mean of the base measure keeps the joint posterior of mean, partition and values,
and no object has saved hyperparameters afterwards. -/
theorem c138_neal2_pitman_yor (y : ℕ → ℝ) (draw : NIG → ℕ → UniLS) {a b : ℝ} {py : PYState}
    (hpy : pyInit a b = .ok py) {n : ℕ} (hn : 2 ≤ n) {mu00 sig200 lam sh sc : ℝ} (hs : 0 < sig200)
    (hl : 0 < lam) (ha : 0 < sh) (hb : 0 < sc) {Z : Type} [MeasurableSpace Z] {ζ : Measure Z}
    {gen : Z → ℝ → ℝ → ℝ} (hg : NormalGen ζ gen) (θ0 : UniLS)
    (φ : NIG → Setoid (Fin n) → (Fin n → UniLS) → ℝ≥0∞) (hφ : MeasH lam sh sc φ) :
    haveI : Nonempty UniLS := ⟨θ0⟩
    ∃ M, KeepsMean y draw (pyPrior py) mu00 sig200 lam sh sc θ0
      (neal2MeanIter y draw (pyScores (fun h i => nnigMargLpdf h (y i)) py) mu00 sig200 gen ζ n
        (observeH θ0 φ)) φ M := by
  haveI : Nonempty UniLS := ⟨θ0⟩
  exact neal2_keepsMean hs hl ha hb hg (fun m => py_neal2Ok _ (fun _ _ _ => rfl) (by simp [nnigEnv])
    (nnig_conjugate y draw _) hpy hn ⟨hl, ha, hb⟩) θ0 φ hφ

/-- **C138, Neal8, Pitman-Yor process.** -/
theorem c138_neal8_pitman_yor (y : ℕ → ℝ) (draw : NIG → ℕ → UniLS) {a b : ℝ} {py : PYState}
    (hpy : pyInit a b = .ok py) {n : ℕ} (hn : 2 ≤ n) {mu00 sig200 lam sh sc : ℝ} (hs : 0 < sig200)
    (hl : 0 < lam) (ha : 0 < sh) (hb : 0 < sc) {Z : Type} [MeasurableSpace Z] {ζ : Measure Z}
    {gen : Z → ℝ → ℝ → ℝ} (hg : NormalGen ζ gen) (θ0 : UniLS) (k : ℕ)
    (φ : NIG → Setoid (Fin n) → (Fin n → UniLS) → ℝ≥0∞) (hφ : MeasH lam sh sc φ) :
    haveI : Nonempty UniLS := ⟨θ0⟩
    ∃ M, ∀ aux : List (Hier (ℝ × ℝ) NIG UniLS), aux.length = k + 1 →
      KeepsMean y draw (pyPrior py) mu00 sig200 lam sh sc θ0
        (fun s => neal8MeanIter y draw (pyScores (fun h i => nnigMargLpdf h (y i)) py) mu00 sig200 gen ζ
          n (fun t => observeH θ0 φ t.base) ⟨s, aux⟩) φ M := by
  haveI : Nonempty UniLS := ⟨θ0⟩
  exact neal8_keepsMean hs hl ha hb hg (fun m => py_neal8Ok _ (fun _ _ _ => rfl) (by simp [nnigEnv])
    (nnig_conjugate y draw _) hpy hn ⟨hl, ha, hb⟩) θ0 k φ hφ

/-- **C138, Dirichlet process**: what is kept is the joint posterior for total mass one. -/
theorem c138_dirichlet_partial (y : ℕ → ℝ) (draw : NIG → ℕ → UniLS) {prior : DPPrior} {dp : DPState}
    (hdp : DPRun prior dp) {n : ℕ} (hn : 2 ≤ n) {mu00 sig200 lam sh sc : ℝ} (hs : 0 < sig200)
    (hl : 0 < lam) (ha : 0 < sh) (hb : 0 < sc) {Z : Type} [MeasurableSpace Z] {ζ : Measure Z}
    {gen : Z → ℝ → ℝ → ℝ} (hg : NormalGen ζ gen) (θ0 : UniLS) (k : ℕ)
    (φ : NIG → Setoid (Fin n) → (Fin n → UniLS) → ℝ≥0∞) (hφ : MeasH lam sh sc φ) :
    haveI : Nonempty UniLS := ⟨θ0⟩
    (∃ M, KeepsMean y draw (dpPrior 1) mu00 sig200 lam sh sc θ0
      (neal2MeanIter y draw (dpScores (fun h i => nnigMargLpdf h (y i)) dp) mu00 sig200 gen ζ n
        (observeH θ0 φ)) φ M) ∧
    ∃ M, ∀ aux : List (Hier (ℝ × ℝ) NIG UniLS), aux.length = k + 1 →
      KeepsMean y draw (dpPrior 1) mu00 sig200 lam sh sc θ0
        (fun s => neal8MeanIter y draw (dpScores (fun h i => nnigMargLpdf h (y i)) dp) mu00 sig200 gen ζ
          n (fun t => observeH θ0 φ t.base) ⟨s, aux⟩) φ M := by
  haveI : Nonempty UniLS := ⟨θ0⟩
  exact ⟨neal2_keepsMean hs hl ha hb hg (fun m => dp_neal2Ok _ (fun _ _ _ => rfl) (by simp [nnigEnv])
      (nnig_conjugate y draw _) hdp hn ⟨hl, ha, hb⟩) θ0 φ hφ,
    neal8_keepsMean hs hl ha hb hg (fun m => dp_neal8Ok _ (fun _ _ _ => rfl) (by simp [nnigEnv])
      (nnig_conjugate y draw _) hdp hn ⟨hl, ha, hb⟩) θ0 k φ hφ⟩

/-- `mean + sd * z` with a standard Normal `z`. -/
theorem affine_normalGen : NormalGen (normalLaw 0 1) fun z m s => m + s * z := by
  have e : ∀ (m : ℝ) {s : ℝ}, 0 < s →
      normalLaw m s = ProbabilityTheory.gaussianReal m (.mk (s ^ 2) (sq_nonneg s)) := by
    intro m s hs
    have hv : (NNReal.mk (s ^ 2) (sq_nonneg s)) ≠ 0 := by
      intro h
      have : s ^ 2 = 0 := congrArg NNReal.toReal h
      exact (pow_pos hs 2).ne' this
    rw [normalLaw, ProbabilityTheory.gaussianReal_of_var_ne_zero _ hv]
    congr 1
    funext x
    rw [normalLpdf_eq_log_gaussianPDFReal _ _ _ hs]
    change ENNReal.ofReal (Real.exp (Real.log (ProbabilityTheory.gaussianPDFReal m
      (NNReal.mk (s ^ 2) (sq_nonneg s)) x))) = _
    rw [Real.exp_log (ProbabilityTheory.gaussianPDFReal_pos _ _ _ hv)]
    rfl
  refine ⟨?_, fun m s _ => by fun_prop, fun m s hs => ?_⟩
  · rw [e 0 one_pos]
    infer_instance
  · have hc : (fun z : ℝ => m + s * z) = (m + ·) ∘ (s * ·) := rfl
    rw [e 0 one_pos, e m hs, hc, ← Measure.map_map (by fun_prop) (by fun_prop),
      ProbabilityTheory.gaussianReal_map_const_mul, ProbabilityTheory.gaussianReal_map_const_add]
    congr 1
    · simp
    · ext
      simp

/-- Three rows, Pitman-Yor process with strength 1 and discount 1/2, mean of the base measure `N(0, 4)`: the mean of the hyperparameter on
the event that the first two rows share a cluster. -/
example (y : ℕ → ℝ) (draw : NIG → ℕ → UniLS) (θ0 : UniLS) :
    haveI : Nonempty UniLS := ⟨θ0⟩
    ∃ M, KeepsMean y draw (pyPrior ⟨1, 1 / 2⟩) 0 4 1 2 1 θ0
      (neal2MeanIter y draw (pyScores (fun h i => nnigMargLpdf h (y i)) ⟨1, 1 / 2⟩) 0 4
        (fun z m s => m + s * z) (normalLaw 0 1) 3
        (observeH θ0 fun h (σ : Setoid (Fin 3)) _ => open Classical in
          if σ 0 1 then ENNReal.ofReal |h.mean| else 0))
      (fun h (σ : Setoid (Fin 3)) _ => open Classical in
          if σ 0 1 then ENNReal.ofReal |h.mean| else 0) M := by
  classical
  refine c138_neal2_pitman_yor y draw (a := 1) (b := 1 / 2) (by norm_num [pyInit]) (by omega)
    (by norm_num) one_pos two_pos one_pos affine_normalGen θ0 _ fun σ => ?_
  by_cases h : σ 0 1
  · simp only [h, if_true]
    exact ENNReal.measurable_ofReal.comp (measurable_fst.abs)
  · simp only [h, if_false]
    exact measurable_const

example (y : ℕ → ℝ) (draw : NIG → ℕ → UniLS) (θ0 : UniLS) :
    haveI : Nonempty UniLS := ⟨θ0⟩
    ∃ M, ∀ aux : List (Hier (ℝ × ℝ) NIG UniLS), aux.length = 3 →
      KeepsMean y draw (pyPrior ⟨1, 1 / 2⟩) 0 4 1 2 1 θ0
      (fun s => neal8MeanIter y draw (pyScores (fun h i => nnigMargLpdf h (y i)) ⟨1, 1 / 2⟩) 0 4
        (fun z m s => m + s * z) (normalLaw 0 1) 3
        (fun t => observeH θ0 (fun h (_ : Setoid (Fin 3)) x =>
          ENNReal.ofReal (|h.mean| * (x 0).var)) t.base) ⟨s, aux⟩)
      (fun h (_ : Setoid (Fin 3)) x => ENNReal.ofReal (|h.mean| * (x 0).var)) M := by
  refine c138_neal8_pitman_yor y draw (a := 1) (b := 1 / 2) (by norm_num [pyInit]) (by omega)
    (by norm_num) one_pos two_pos one_pos affine_normalGen θ0 2 _ fun σ => ?_
  refine ENNReal.measurable_ofReal.comp (measurable_fst.abs.mul ?_)
  exact measurable_var.comp ((measurable_pi_apply 0).comp measurable_snd)

example (y : ℕ → ℝ) (draw : NIG → ℕ → UniLS) (θ0 : UniLS) (φ : NIG → Setoid (Fin 3) → (Fin 3 → UniLS) → ℝ≥0∞)
    (hφ : MeasH 1 2 1 φ) :=
  c138_dirichlet_partial y draw (prior := .fixed 2) (dp := ⟨2, 0⟩) (.init (by norm_num [dpInit, dpFresh])) (by omega)
    (mu00 := 0) (sig200 := 4) (by norm_num) one_pos two_pos one_pos affine_normalGen θ0 2 φ hφ

end Bayesmix.Chain
