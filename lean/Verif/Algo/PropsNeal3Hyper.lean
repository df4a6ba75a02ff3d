import Verif.Algo.PropsMeanHyper
import Verif.Algo.PropsNeal3Density

/-!
# C156: Neal3 with a Normal prior on the mean of the base measure

An iteration from states in which all clusters hold the posterior hyperparameters for the current mean.
The update of the mean at the end of the iteration leaves the saved hyperparameters as they are (C06).
-/

namespace Bayesmix.Chain
open Bayesmix Cond Gibbs SplitMerge Slice Mixing Hierarchies MeasureTheory ENNReal

variable {G H Θ : Type} [AddCommGroup G] {n : ℕ}

/-- A function of hyperparameters, partition and values. -/
noncomputable def observe3 (d : Θ) (φ : H → Setoid (Fin n) → (Fin n → Θ) → ℝ≥0∞)
    (t : Alg G H Θ) : ℝ≥0∞ := φ t.hyp (partOf n t.alloc) (rowValues n d t)

/-- Every partition with every assignment of values to blocks is that of a state in which all clusters
hold their posterior hyperparameters. -/
theorem exists_good (E : Env G H Θ) (h : H) (d : Θ) (σ : Setoid (Fin n)) (θ : Quotient σ → Θ) :
    ∃ s, Good E n h s ∧ partOf n s.alloc = σ ∧
      rowValues n d s = fun j => θ (Quotient.mk σ j) := by
  obtain ⟨s, hs, hp, hv⟩ := exists_clean E h d σ θ
  obtain ⟨f, hf⟩ : ∃ f : Hier G H Θ → Hier G H Θ,
    f = fun o => { o with saved := true, ph := some (E.post h o.card o.ss) } := ⟨_, rfl⟩
  obtain ⟨t, ht⟩ : ∃ t : Alg G H Θ, t = { s with clus := s.clus.map f } := ⟨_, rfl⟩
  have hb : Chain.forget t = Chain.forget s := by
    rw [ht, hf]
    simp [Chain.forget, Function.comp_def, bare]
  have hfr : ∀ o ∈ t.clus, o.Fresh E h := by
    intro o ho
    rw [ht] at ho
    obtain ⟨p, -, rfl⟩ := List.mem_map.mp ho
    rw [hf]
    exact ⟨rfl, rfl⟩
  refine ⟨t, ⟨⟨⟨?_, ?_⟩, ?_, ?_⟩, ?_, ?_⟩, ?_, ?_⟩
  · rw [ht]
    exact hs.ok.cons.len
  · refine consistentOn_congr hs.ok.cons.on (by rw [ht]) (by simp [ht]) fun k o' ho' => ?_
    rw [ht] at ho'
    simp only [List.getElem?_map] at ho'
    obtain ⟨o, ho, rfl⟩ := Option.map_eq_some_iff.mp ho'
    exact ⟨o, ho, by rw [hf], by rw [hf], by rw [hf]⟩
  · exact noEmpty_congr hs.ok.noEmpty (by rw [ht]) (by simp [ht])
  · intro o ho _
    rw [(hfr o ho).2]
    rfl
  · rw [ht]
    exact hs.hyp
  · have : t.hyp = h := by rw [ht]; exact hs.hyp
    rw [this]
    exact hfr
  · rw [ht]
    exact hp
  · rw [← rowValues_forget, hb, rowValues_forget, hv]

theorem hyper_reads3 {Z : Type} [MeasurableSpace Z] {E : Env G H Θ} {up : Z → Env G H Θ}
    {up' : Z → H → List Θ → H} {ζ : Measure Z} (hn : 0 < n)
    (hup : ∀ z h l v, (l.map Prod.fst).Perm v → (up z).hyperUpdate h l 0 = up' z h v) (d : Θ)
    (φ : H → Setoid (Fin n) → (Fin n → Θ) → ℝ≥0∞) (h : H) :
    Reads3 E h (hyperMean up ζ (observe3 d φ)) fun σ x => hyperOp up' ζ φ h (σ, ∅) x := by
  intro σ x s hs
  unfold hyperMean
  dsimp only [hyperOp]
  rw [if_pos rfl]
  refine lintegral_congr fun z => ?_
  have hb := hs.seen.blockStates
  have hl : ((((Chain.forget s).clus.filter fun o => o.card > 0).map fun o => (o.state, o.card)).map
      Prod.fst) = ((s.clus.filter fun o => o.card > 0).map fun o => (o.state, o.card)).map Prod.fst := by
    simp [Chain.forget, List.filter_map, Function.comp_def, bare]
    rfl
  rw [hl] at hb
  rw [updateHypers, vget_ok (List.getElem?_eq_getElem (clus_pos hs.good.ok.cons hn)), ok_bind]
  dsimp only
  rw [hup z s.hyp _ _ hb, observe3, hs.good.hyp]
  dsimp only
  have : Chain.rowValues n d { s with hyp := up' z h (blockValues σ x) } = x := by
    have := hs.seen.rowValues d
    rw [rowValues_forget] at this
    exact this
  rw [hs.part, this]

section keep

variable [MeasurableSpace Θ] [Nonempty Θ] {E : Env G H Θ} {like : Θ → ℕ → ℝ} {S : Scores H}
  {ν : H → Measure Θ} {h : H} {prior : List ℕ → ℝ}

/-- An iteration with fixed hyperparameters keeps the posterior. -/
theorem Neal3Ok.keeps (hO : Neal3Ok E like S ν n h prior) {Φ : Setoid (Fin n) → (Fin n → Θ) → ℝ≥0∞}
    (hΦ : ∀ σ, Measurable (Φ σ)) :
    partPost (weight prior) like (ν h)
        (discKernel (partMoves prior like (ν h)) (partValues E ν h) Φ) =
      partPost (weight prior) like (ν h) Φ := by
  classical
  have hV : ∀ σ : Setoid (Fin n), IsProbabilityMeasure (partValues E ν h σ) :=
    fun σ => valueLaw_prob hO.clusters (σ, ∅)
  obtain ⟨m, hm, hpp⟩ := partPost_values (n := n) (w := weight prior) hO.clusters hO.meas
    fun σ => hO.pos _ (labelsOf_length σ)
  have hone : ∀ σ : Setoid (Fin n), ∫⁻ _, (1 : ℝ≥0∞) ∂valueLaw E ν h (σ, ∅) = 1 := by
    intro σ
    have := hV σ
    rw [lintegral_const]
    rw [show valueLaw E ν h (σ, ∅) = partValues E ν h σ from rfl, measure_univ, one_mul]
  have hlim := fun ρ : Setoid (Fin n) => hO.limit (Φ := fun σ _ => if σ = ρ then 1 else 0)
    (fun _ => measurable_const) (fun σ => by
      have := hV σ
      rw [lintegral_const, measure_univ]
      split <;> simp)
  obtain ⟨d⟩ := ‹Nonempty Θ›
  have T := hO.target fun _ => d
  obtain ⟨W, hW⟩ : ∃ W : Setoid (Fin n) → ℝ, W = weight (mixPosterior prior like (ν h)) := ⟨_, rfl⟩
  have hWpos : ∀ σ, 0 < W σ := fun σ => hW ▸ T.weight_pos σ
  have hZ : 0 < ∑ ρ, W ρ := Finset.sum_pos (fun σ _ => hWpos σ) Finset.univ_nonempty
  have hm1 : ∑ σ, m σ ≠ ∞ := ENNReal.sum_ne_top.mpr fun σ _ => (hm σ).2
  have hm0 : ∑ σ, m σ ≠ 0 := fun e =>
    (hm ⊥).1 ((Finset.sum_eq_zero_iff.mp e) ⊥ (Finset.mem_univ _))
  obtain ⟨c, hc⟩ : ∃ c : ℝ, c = (∑ σ, m σ).toReal / ∑ ρ, W ρ := ⟨_, rfl⟩
  have hc0 : 0 ≤ c := by rw [hc]; exact div_nonneg ENNReal.toReal_nonneg hZ.le
  have hmW : ∀ ρ, m ρ = ENNReal.ofReal (c * W ρ) := by
    intro ρ
    have := hlim ρ
    rw [jointMean, hpp _ fun _ => measurable_const, hpp _ fun _ => measurable_const, ← hW,
      Finset.sum_eq_single ρ, Finset.sum_eq_single (f := fun σ => m σ * _) ρ] at this
    · simp only [if_true, hone, mul_one] at this
      have h1 : ∫⁻ _, (1 : ℝ≥0∞) ∂partValues E ν h ρ = 1 := hone ρ
      rw [h1, ENNReal.toReal_one, mul_one, ENNReal.toReal_div] at this
      have hs0 : (∑ σ, m σ).toReal ≠ 0 := ENNReal.toReal_ne_zero.mpr ⟨hm0, hm1⟩
      rw [div_eq_div_iff hZ.ne' hs0] at this
      rw [← ENNReal.ofReal_toReal (hm ρ).2]
      congr 1
      rw [hc, div_mul_eq_mul_div, eq_div_iff hZ.ne', mul_comm _ (W ρ), this]
    · intro σ _ hσ
      simp [hσ]
    · simp
    · intro σ _ hσ
      simp [hσ]
    · simp
  have hst := T.stochastic
  have hinv : ∀ τ, ∑ σ, m σ * ENNReal.ofReal
      (transition n (mixPosterior prior like (ν h)) σ τ) = m τ := by
    intro τ
    have hi := T.invariant τ
    rw [← hW] at hi
    rw [hmW τ, ← hi, Finset.mul_sum, ENNReal.ofReal_sum_of_nonneg fun σ _ =>
      mul_nonneg hc0 (mul_nonneg (hWpos σ).le (hst.nonneg _ _))]
    refine Finset.sum_congr rfl fun σ _ => ?_
    rw [hmW σ, ← ENNReal.ofReal_mul (mul_nonneg hc0 (hWpos σ).le), mul_assoc]
  haveI : Nonempty Θ := ⟨d⟩
  rw [hpp _ fun σ => measurable_discKernel hO.discOk _ σ, hpp _ hΦ]
  have hk : ∀ σ : Setoid (Fin n), ∫⁻ y, discKernel (partMoves prior like (ν h)) (partValues E ν h) Φ σ y
      ∂valueLaw E ν h (σ, ∅) = ∑ τ, ENNReal.ofReal
        (transition n (mixPosterior prior like (ν h)) σ τ) * ∫⁻ y, Φ τ y ∂valueLaw E ν h (τ, ∅) := by
    intro σ
    have := hV σ
    change ∫⁻ _, (∑ τ, ENNReal.ofReal (transition n (mixPosterior prior like (ν h)) σ τ) *
      ∫⁻ y, Φ τ y ∂partValues E ν h τ) ∂partValues E ν h σ = _
    rw [lintegral_const, measure_univ, mul_one]
    rfl
  simp only [hk, Finset.mul_sum]
  rw [Finset.sum_comm]
  refine Finset.sum_congr rfl fun τ _ => ?_
  simp only [← mul_assoc]
  rw [← Finset.sum_mul, hinv]

end keep

/-- The mean of `g` after an iteration of Neal3 with a Normal prior on the mean of the base measure
(`src/algorithms/base_algorithm.h` 179-184). The mixing is not updated. -/
noncomputable def neal3MeanIter {Z : Type} [MeasurableSpace Z] (y : ℕ → ℝ) (draw : NIG → ℕ → UniLS)
    (S : Scores NIG) (mu00 sig200 : ℝ) (gen : Z → ℝ → ℝ → ℝ) (ζ : Measure Z) (n : ℕ)
    [Nonempty UniLS] (g : Alg (ℝ × ℝ) NIG UniLS → ℝ≥0∞) : Alg (ℝ × ℝ) NIG UniLS → ℝ≥0∞ :=
  neal3IterMean (plainEnv y draw) S nigLaw n
    (hyperMean (fun z => meanEnv y draw mu00 sig200 fun _ => gen z) ζ g)

/-- `M` is `φ` after an iteration from the states in which all clusters hold the posterior
hyperparameters for the current mean, and has the same posterior mean. -/
structure KeepsFresh {n : ℕ} (y : ℕ → ℝ) (draw : NIG → ℕ → UniLS) (prior : List ℕ → ℝ)
    (mu00 sig200 lam sh sc : ℝ) (θ0 : UniLS) (after : Alg (ℝ × ℝ) NIG UniLS → ℝ≥0∞)
    (φ M : NIG → Setoid (Fin n) → (Fin n → UniLS) → ℝ≥0∞) : Prop where
  meas : ∀ m σ, Measurable (M ⟨m, lam, sh, sc⟩ σ)
  measMean : Measurable fun m => partPost (weight prior) (fun st i => uniNormLpdf st (y i))
    (nigLaw ⟨m, lam, sh, sc⟩) (M ⟨m, lam, sh, sc⟩)
  step : ∀ m s, Good (plainEnv y draw) n ⟨m, lam, sh, sc⟩ s → after s = observe3 θ0 M s
  reach : ∀ m (σ : Setoid (Fin n)) (θ : Quotient σ → UniLS), ∃ s,
    Good (plainEnv y draw) n ⟨m, lam, sh, sc⟩ s ∧ partOf n s.alloc = σ ∧
      rowValues n θ0 s = fun j => θ (Quotient.mk σ j)
  same : meanPosterior y prior mu00 sig200 lam sh sc M = meanPosterior y prior mu00 sig200 lam sh sc φ

theorem neal3_keepsFresh {y : ℕ → ℝ} {prior : List ℕ → ℝ} {mu00 sig200 lam sh sc : ℝ}
    {Z : Type} [MeasurableSpace Z] {ζ : Measure Z} {gen : Z → ℝ → ℝ → ℝ} {draw : NIG → ℕ → UniLS}
    {S : Scores NIG} [Nonempty UniLS] (hn : 0 < n)
    (hs : 0 < sig200) (hl : 0 < lam) (ha : 0 < sh) (hb : 0 < sc) (hg : NormalGen ζ gen)
    (hO : ∀ m, Neal3Ok (plainEnv y draw) (fun st i => uniNormLpdf st (y i)) S nigLaw n
      ⟨m, lam, sh, sc⟩ prior) (θ0 : UniLS)
    (φ : NIG → Setoid (Fin n) → (Fin n → UniLS) → ℝ≥0∞) (hφ : MeasH lam sh sc φ) :
    ∃ M, KeepsFresh y draw prior mu00 sig200 lam sh sc θ0
      (neal3MeanIter y draw S mu00 sig200 gen ζ n (observe3 θ0 φ)) φ M := by
  obtain ⟨M, hM⟩ : ∃ M : NIG → Setoid (Fin n) → (Fin n → UniLS) → ℝ≥0∞, M = fun h =>
    discKernel (partMoves prior (fun st i => uniNormLpdf st (y i)) (nigLaw h))
      (partValues (plainEnv y draw) nigLaw h)
      fun σ x => hyperOp (meanUp mu00 sig200 gen) ζ φ h (σ, ∅) x := ⟨_, rfl⟩
  have hX := fun m (σ : Setoid (Fin n)) =>
    hyperOp_meas (mu00 := mu00) (sig200 := sig200) hg hφ m (σ, ∅)
  have hinv : ∀ m, partPost (weight prior) (fun st i => uniNormLpdf st (y i))
      (nigLaw ⟨m, lam, sh, sc⟩) (M ⟨m, lam, sh, sc⟩) =
      partPost (weight prior) (fun st i => uniNormLpdf st (y i)) (nigLaw ⟨m, lam, sh, sc⟩)
        fun σ x => hyperOp (meanUp mu00 sig200 gen) ζ φ ⟨m, lam, sh, sc⟩ (σ, ∅) x := by
    intro m
    rw [hM]
    exact (hO m).keeps (hX m)
  have hH := meanPosterior_hyper (y := y) (prior := prior) (mu00 := mu00) hs hl ha hb hg hφ
  refine ⟨M, fun m σ => ?_, ?_, fun m s hc => ?_, fun m σ θ => exists_good _ _ θ0 σ θ, ?_⟩
  · rw [hM]
    exact measurable_discKernel (hO m).discOk _ σ
  · simp only [hinv]
    exact hH.1
  · rw [observe3, hc.hyp, hM]
    exact (hO m).iter_reads (hX m)
      (hyper_reads3 hn (meanEnv_up y draw mu00 sig200) θ0 φ _) _ _ s (hc.held θ0)
  · rw [← hH.2]
    unfold meanPosterior
    simp only [hinv]

/-- **C156, Pitman-Yor process.** From states in which all clusters hold the posterior hyperparameters
for the current mean, an iteration of Neal3 with a Normal prior on the mean of the base measure keeps
the joint posterior of mean, partition and values. The states after the iteration are not of this
kind (C06), so that nothing follows for the next iteration. -/
theorem c156_pitman_yor_partial (y : ℕ → ℝ) (draw : NIG → ℕ → UniLS) {a b : ℝ} {py : PYState}
    (hpy : pyInit a b = .ok py) {n : ℕ} (hn : 2 ≤ n) {mu00 sig200 lam sh sc : ℝ} (hs : 0 < sig200)
    (hl : 0 < lam) (ha : 0 < sh) (hb : 0 < sc) {Z : Type} [MeasurableSpace Z] {ζ : Measure Z}
    {gen : Z → ℝ → ℝ → ℝ} (hg : NormalGen ζ gen) (θ0 : UniLS)
    (φ : NIG → Setoid (Fin n) → (Fin n → UniLS) → ℝ≥0∞) (hφ : MeasH lam sh sc φ) :
    haveI : Nonempty UniLS := ⟨θ0⟩
    ∃ M, KeepsFresh y draw (pyPrior py) mu00 sig200 lam sh sc θ0
      (neal3MeanIter y draw (pyScores (fun h i => nnigMargLpdf h (y i)) py) mu00 sig200 gen ζ n
        (observe3 θ0 φ)) φ M := by
  haveI : Nonempty UniLS := ⟨θ0⟩
  exact neal3_keepsFresh (by omega) hs hl ha hb hg (fun m => py_neal3Ok _ (fun _ _ _ => rfl)
    (by simp [nnigEnv]) (nnig_conjugate y draw _) hpy hn ⟨hl, ha, hb⟩) θ0 φ hφ

/-- **C156, Dirichlet process**: what is kept is the joint posterior for total mass one. -/
theorem c156_dirichlet_partial (y : ℕ → ℝ) (draw : NIG → ℕ → UniLS) {prior : DPPrior} {dp : DPState}
    (hdp : DPRun prior dp) {n : ℕ} (hn : 2 ≤ n) {mu00 sig200 lam sh sc : ℝ} (hs : 0 < sig200)
    (hl : 0 < lam) (ha : 0 < sh) (hb : 0 < sc) {Z : Type} [MeasurableSpace Z] {ζ : Measure Z}
    {gen : Z → ℝ → ℝ → ℝ} (hg : NormalGen ζ gen) (θ0 : UniLS)
    (φ : NIG → Setoid (Fin n) → (Fin n → UniLS) → ℝ≥0∞) (hφ : MeasH lam sh sc φ) :
    haveI : Nonempty UniLS := ⟨θ0⟩
    ∃ M, KeepsFresh y draw (dpPrior 1) mu00 sig200 lam sh sc θ0
      (neal3MeanIter y draw (dpScores (fun h i => nnigMargLpdf h (y i)) dp) mu00 sig200 gen ζ n
        (observe3 θ0 φ)) φ M := by
  haveI : Nonempty UniLS := ⟨θ0⟩
  exact neal3_keepsFresh (by omega) hs hl ha hb hg (fun m => dp_neal3Ok _ (fun _ _ _ => rfl)
    (by simp [nnigEnv]) (nnig_conjugate y draw _) hdp hn ⟨hl, ha, hb⟩) θ0 φ hφ

/-- **C156.** The update of the mean at the end of an iteration leaves, with probability one, every
cluster with saved hyperparameters that are not those for the new mean. -/
theorem c156_violated (y : ℕ → ℝ) (draw : NIG → ℕ → UniLS) {n : ℕ} (hn : 0 < n)
    {mu00 sig200 lam sh sc : ℝ} (hs : 0 < sig200) (hl : 0 < lam) {Z : Type} [MeasurableSpace Z]
    {ζ : Measure Z} {gen : Z → ℝ → ℝ → ℝ} (hg : NormalGen ζ gen) (m : ℝ) {s : Alg (ℝ × ℝ) NIG UniLS}
    (hgood : Good (plainEnv y draw) n ⟨m, lam, sh, sc⟩ s) (hv : ∀ o ∈ s.clus, 0 < o.state.var) :
    ∀ᵐ z ∂ζ, ∃ t, updateHypers (meanEnv y draw mu00 sig200 fun _ => gen z) 0 s = .ok t ∧
      t.clus = s.clus ∧ ∀ o ∈ t.clus, o.saved = true ∧ ¬ o.Fresh (plainEnv y draw) t.hyp := by
  obtain ⟨l, hl'⟩ : ∃ l, l = (s.clus.filter fun o => o.card > 0).map fun o => (o.state, o.card) :=
    ⟨_, rfl⟩
  obtain ⟨q, hq⟩ : ∃ q, q = nigMeanParams mu00 sig200 lam (l.map Prod.fst) := ⟨_, rfl⟩
  have hsd : 0 < q.2 := by
    rw [hq]
    refine meanParams_sd_pos hs hl fun st hst => ?_
    rw [hl', List.map_map] at hst
    obtain ⟨o, ho, rfl⟩ := List.mem_map.mp hst
    exact hv o (List.mem_filter.mp ho).1
  have hne : ∀ᵐ z ∂ζ, gen z q.1 q.2 ≠ m := by
    have h0 : normalLaw q.1 q.2 {m} = 0 :=
      withDensity_absolutelyContinuous _ _ Real.volume_singleton
    rw [← hg.law _ _ hsd, Measure.map_apply (hg.meas _ _ hsd) (measurableSet_singleton m)] at h0
    exact measure_eq_zero_iff_ae_notMem.mp h0
  filter_upwards [hne] with z hz
  have hup := meanEnv_up (gen := gen) y draw mu00 sig200 z ⟨m, lam, sh, sc⟩ l _ (List.Perm.refl _)
  rw [meanUp] at hup
  dsimp only at hup
  rw [← hq, if_neg (not_le.mpr hsd)] at hup
  refine ⟨{ s with hyp := ⟨gen z q.1 q.2, lam, sh, sc⟩ }, ?_, rfl, fun o ho =>
    ⟨(hgood.fresh o ho).1, fun hf => hz ?_⟩⟩
  · rw [updateHypers, vget_ok (List.getElem?_eq_getElem (clus_pos hgood.ok.cons hn)), ok_bind]
    dsimp only
    rw [hgood.hyp, ← hl', hup]
  · have e := (hgood.fresh o ho).2
    rw [hf.2, hgood.hyp] at e
    have e := congrArg NIG.mean (Option.some.inj e)
    obtain ⟨k, hk⟩ := List.getElem?_of_mem ho
    have hc : (0 : ℤ) ≤ o.card := by
      rw [hgood.ok.cons.on.cards k o hk]
      exact Int.natCast_nonneg _
    have hc' : (0 : ℝ) ≤ (o.card : ℝ) := by exact_mod_cast hc
    simp only [nnigEnv, nnigPosterior] at e
    by_cases h0 : o.card = 0
    · simpa [h0] using e
    · simp only [h0, if_false] at e
      rw [div_left_inj' (by positivity)] at e
      exact mul_left_cancel₀ hl.ne' (add_right_cancel e)

/-- Three rows, mean of the base measure `N(0, 4)`: the mean of the hyperparameter on the event that the
first two rows share a cluster. -/
example (y : ℕ → ℝ) (draw : NIG → ℕ → UniLS) (θ0 : UniLS) :
    haveI : Nonempty UniLS := ⟨θ0⟩
    ∃ M, KeepsFresh y draw (pyPrior ⟨1, 1 / 2⟩) 0 4 1 2 1 θ0
      (neal3MeanIter y draw (pyScores (fun h i => nnigMargLpdf h (y i)) ⟨1, 1 / 2⟩) 0 4
        (fun z m s => m + s * z) (normalLaw 0 1) 3
        (observe3 θ0 fun h (σ : Setoid (Fin 3)) _ => open Classical in
          if σ 0 1 then ENNReal.ofReal |h.mean| else 0))
      (fun h (σ : Setoid (Fin 3)) _ => open Classical in
          if σ 0 1 then ENNReal.ofReal |h.mean| else 0) M := by
  classical
  refine c156_pitman_yor_partial y draw (a := 1) (b := 1 / 2) (by norm_num [pyInit]) (by omega)
    (by norm_num) one_pos two_pos one_pos affine_normalGen θ0 _ fun σ => ?_
  by_cases h : σ 0 1
  · simp only [h, if_true]
    exact ENNReal.measurable_ofReal.comp (measurable_fst.abs)
  · simp only [h, if_false]
    exact measurable_const

example (y : ℕ → ℝ) (draw : NIG → ℕ → UniLS) (θ0 : UniLS)
    (φ : NIG → Setoid (Fin 3) → (Fin 3 → UniLS) → ℝ≥0∞) (hφ : MeasH 1 2 1 φ) :=
  c156_dirichlet_partial y draw (prior := .fixed 2) (dp := ⟨2, 0⟩)
    (.init (by norm_num [dpInit, dpFresh])) (by omega) (mu00 := 0) (sig200 := 4) (by norm_num) one_pos
    two_pos one_pos affine_normalGen θ0 φ hφ

/-- There are such states: two rows in two clusters with variances one. -/
example (y : ℕ → ℝ) (draw : NIG → ℕ → UniLS) : ∃ s : Alg (ℝ × ℝ) NIG UniLS, s.clus.length = 2 ∧
    ∀ᵐ z ∂normalLaw 0 1, ∃ t,
      updateHypers (meanEnv y draw 0 4 fun _ m s => m + s * z) 0 s = .ok t ∧ t.clus = s.clus ∧
        ∀ o ∈ t.clus, o.saved = true ∧ ¬ o.Fresh (plainEnv y draw) t.hyp := by
  obtain ⟨s, hs⟩ : ∃ s : Alg (ℝ × ℝ) NIG UniLS, s = {
      alloc := [0, 1]
      clus := [0, 1].map fun i => ({
        state := ⟨0, 1⟩, card := 1, idx := {i}, ss := (y i, y i ^ 2), saved := true
        ph := some (nnigPosterior ⟨0, 1, 2, 1⟩ 1 ⟨y i, y i ^ 2⟩) } : Hier (ℝ × ℝ) NIG UniLS)
      hyp := ⟨0, 1, 2, 1⟩ } := ⟨_, rfl⟩
  have m0 : membersIn (Finset.range 2) [0, 1] 0 = {0} := by decide
  have m1 : membersIn (Finset.range 2) [0, 1] 1 = {1} := by decide
  have hk : ∀ k (o : Hier (ℝ × ℝ) NIG UniLS), s.clus[k]? = some o → k = 0 ∨ k = 1 := by
    intro k o ho
    have := (List.getElem?_eq_some_iff.mp ho).1
    rw [hs] at this
    simp at this
    omega
  have hgood : Good (plainEnv y draw) 2 ⟨0, 1, 2, 1⟩ s := by
    refine ⟨⟨⟨by simp [hs], ⟨fun i hi => ?_, fun k o ho => ?_, fun k o ho => ?_, fun k o ho => ?_⟩⟩,
      fun k hk => ?_, fun o ho _ => ?_⟩, by rw [hs], fun o ho => ?_⟩
    · have := Finset.mem_range.mp hi
      obtain rfl | rfl : i = 0 ∨ i = 1 := by omega
      · exact ⟨0, by simp [hs], by simp [hs]⟩
      · exact ⟨1, by simp [hs], by simp [hs]⟩
    all_goals first
      | (rcases hk k o ho with rfl | rfl <;> simp [hs] at ho <;> subst ho <;>
          simp [hs, m0, m1, nnigEnv]; done)
      | skip
    · have : k < 2 := by simpa [hs] using hk
      obtain rfl | rfl : k = 0 ∨ k = 1 := by omega
      · exact ⟨0, by simp [hs]⟩
      · exact ⟨1, by simp [hs]⟩
    · simp [hs] at ho
      rcases ho with rfl | rfl <;> rfl
    · simp [hs] at ho
      rcases ho with rfl | rfl <;> simp [Hier.Fresh, hs, nnigEnv]
  refine ⟨s, by simp [hs], c156_violated y draw two_pos (by norm_num) one_pos affine_normalGen 0 hgood
    fun o ho => ?_⟩
  simp [hs] at ho
  rcases ho with rfl | rfl <;> simp

end Bayesmix.Chain
