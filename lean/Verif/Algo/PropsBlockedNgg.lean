import Verif.Algo.PropsNggIter

/-!
# C155: with the Normal-Gamma-Gamma hyperprior blocked Gibbs does not keep the joint posterior
-/

namespace Bayesmix.Chain
open Bayesmix Cond Gibbs SplitMerge Slice Mixing Hierarchies MeasureTheory ENNReal ProbabilityTheory

/-- The joint posterior of labels, values, sticks and hyperparameters, up to its normalizing
constant. -/
noncomputable def blockedHyperPosterior (y : ℕ → ℝ) (n : ℕ) {K : ℕ} (a b : Fin K → ℝ) (hp : NIGPrior)
    (φ : (Fin n → Fin K) → (Fin K → UniLS) → (Fin K → ℝ) → NIG → ℝ≥0∞) : ℝ≥0∞ :=
  hyperPriorMean hp fun h => posteriorAt (fun st i => uniNormLpdf st (y i)) n a b (nigLaw h)
    fun c θ v => φ c θ v h

/-- The hierarchy with a prior on its hyperparameters; `noise r` is what the generators use for the
seed `r`. -/
noncomputable def blockedHyperEnv {Z W : Type} (y : ℕ → ℝ) (draw : NIG → ℕ → UniLS) (hp : NIGPrior)
    (gen : Z → ℝ → ℝ → ℝ) (gam : W → ℝ → ℝ → ℝ) (noise : ℕ → Z × W × W) : Env (ℝ × ℝ) NIG UniLS :=
  nnigEnv y draw fun h l r => nigUp hp gen gam (noise r) h (l.map Prod.fst)

/-- An iteration of blocked Gibbs (`src/algorithms/base_algorithm.h` 179-184): labels, then values,
then the hyperparameters given the values in use, then sticks. -/
noncomputable def blockedHyperKernel {Z W : Type} [MeasurableSpace Z] [MeasurableSpace W]
    (E : Env (ℝ × ℝ) NIG UniLS) (y : ℕ → ℝ) {n K : ℕ} (a b : Fin K → ℝ) (hp : NIGPrior)
    (gen : Z → ℝ → ℝ → ℝ) (ζ : Measure Z) (gam : W → ℝ → ℝ → ℝ) (ω : Measure W)
    (φ : (Fin n → Fin K) → (Fin K → UniLS) → (Fin K → ℝ) → NIG → ℝ≥0∞) :
    (Fin n → Fin K) → (Fin K → UniLS) → (Fin K → ℝ) → NIG → ℝ≥0∞ := fun c θ v h =>
  labelsStep (fun st i => uniNormLpdf st (y i)) (valuesStep E nigLaw h
    fun c θ v => ∫⁻ r, sticksStep a b (fun c θ v =>
      φ c θ v (nigUp hp gen gam r h ((inUse c θ).map Prod.fst))) c θ v ∂ζ.prod (ω.prod ω)) c θ v

section proof

variable {mu00 sig200 alpha00 beta00 a00 b00 sh : ℝ}
  {Z W : Type} [MeasurableSpace Z] [MeasurableSpace W] {ζ : Measure Z} {gen : Z → ℝ → ℝ → ℝ}
  {ω : Measure W} {gam : W → ℝ → ℝ → ℝ}

/-- A function of hyperparameters and one value whose mean the update changes. -/
theorem one_moves (hg : NormalGen ζ gen) (hw : GenLaw ω gam gammaMeasure) (hs : 0 < sig200)
    (h1 : 0 < alpha00) (h2 : 0 < beta00) (h3 : 0 < a00) (h4 : 0 < b00) (ha : 0 < sh) :
    ∃ ψ : NIG → UniLS → ℝ≥0∞, MeasOne ψ ∧
      hyperPriorMean (.ngg mu00 sig200 alpha00 beta00 a00 b00 sh) (fun h => ∫⁻ st,
        oneAfter (.ngg mu00 sig200 alpha00 beta00 a00 b00 sh) gen ζ gam ω ψ h st ∂nigLaw h) ≠
      hyperPriorMean (.ngg mu00 sig200 alpha00 beta00 a00 b00 sh) (fun h => ∫⁻ st, ψ h st ∂nigLaw h) := by
  have hk := c150_ngg_violated (K := 1) (mu00 := mu00) hg hw hs h1 h2 h3 h4 ha one_pos
  unfold HypersKept at hk
  push Not at hk
  obtain ⟨ψ, hψ, hne⟩ := hk
  obtain ⟨ψ', hψ'⟩ : ∃ ψ' : NIG → UniLS → ℝ≥0∞, ψ' = fun h st => ψ h fun _ => st := ⟨_, rfl⟩
  have hψm : MeasOne ψ' := by
    rw [hψ']
    exact hψ.comp (f := fun p : (ℝ × ℝ × ℝ × ℝ) × UniLS => (p.1, fun _ : Fin 1 => p.2))
      (measurable_fst.prodMk (measurable_pi_lambda _ fun _ => measurable_snd))
  have hψh : ∀ h, Measurable (ψ' h) := fun h => hψm.comp
    (f := fun st : UniLS => ((h.mean, h.varScaling, h.shape, h.scale), st)) (by fun_prop)
  have hone : ∀ (h : NIG) (f : (Fin 1 → UniLS) → ℝ≥0∞) (f' : UniLS → ℝ≥0∞),
      IsProbabilityMeasure (nigLaw h) → Measurable f' →
      (∀ᵐ θ ∂Measure.pi (fun _ : Fin 1 => nigLaw h), f θ = f' (θ 0)) →
      ∫⁻ θ, f θ ∂Measure.pi (fun _ : Fin 1 => nigLaw h) = ∫⁻ st, f' st ∂nigLaw h := by
    intro h f f' hp hf' hae
    rw [← (measurePreserving_eval (fun _ : Fin 1 => nigLaw h) 0).lintegral_comp hf']
    exact lintegral_congr_ae hae
  refine ⟨ψ', hψm, fun he => hne ?_⟩
  unfold hyperJoint
  refine Eq.trans (hyperPriorMean_congr fun m l sc hl hsc => ?_) (he.trans
    (hyperPriorMean_congr fun m l sc hl hsc => ?_))
  · have hp := nigLaw_prob ⟨m, l, sh, sc⟩ hl ha hsc
    refine hone _ _ _ hp (measurable_oneAfter hg hw hψm _) ?_
    filter_upwards [pi_ae (ι := Fin 1) hl ha hsc m] with θ hθ
    have hok := accepts_of_var (mu00 := mu00) hs h1 h2 h3 h4 (h := ⟨m, l, sh, sc⟩) hl ha (hθ 0)
    rw [oneAfter_ok hg hw hψm hok, ← nested_one hg hw hψm hok, hψ']
    have el : List.ofFn θ = [θ 0] := by simp
    have ec : (fun _ : Fin 1 => θ 0) = θ := by
      funext i
      rw [Subsingleton.elim i 0]
    simp only [hypersAfter, el, update_one_ok hok, ec]
  · have hp := nigLaw_prob ⟨m, l, sh, sc⟩ hl ha hsc
    refine (hone _ _ _ hp (hψh _) (Filter.Eventually.of_forall fun θ => ?_)).symm
    rw [hψ']
    dsimp only
    congr 1
    funext i
    rw [Subsingleton.elim i 0]

variable {n K : ℕ} {y : ℕ → ℝ}

/-- A function of the value of component `k0`, divided by the likelihood, zero unless all rows are in
this component. -/
noncomputable def inOne (y : ℕ → ℝ) (n : ℕ) {K : ℕ} (k0 : Fin K) (g : UniLS → ℝ≥0∞)
    (c : Fin n → Fin K) (θ : Fin K → UniLS) (_ : Fin K → ℝ) : ℝ≥0∞ :=
  if c = fun _ => k0 then
    (ENNReal.ofReal (∏ i : Fin n, Real.exp (uniNormLpdf (θ k0) (y i))))⁻¹ * g (θ k0)
  else 0

theorem inOne_meas (k0 : Fin K) {g : UniLS → ℝ≥0∞} (hg : Measurable g) : Meas (inOne y n k0 g) := by
  intro c
  unfold inOne
  by_cases hc : c = fun _ => k0
  · simp only [hc, if_true]
    have h1 := Cond.measurable_rows (n := n) (like := fun st i => uniNormLpdf st (y i))
      (fun i => measurable_uniNormLpdf (y i)) (fun _ : Fin n => k0)
    exact (h1.comp measurable_fst).inv.mul (hg.comp ((measurable_pi_apply k0).comp measurable_fst))
  · simp only [hc, if_false]
    exact measurable_const

theorem posteriorAt_inOne {a b : Fin K → ℝ} {h : NIG} (hp : IsProbabilityMeasure (nigLaw h))
    {k0 : Fin K} {g : UniLS → ℝ≥0∞} (hg : Measurable g) :
    posteriorAt (fun st i => uniNormLpdf st (y i)) n a b (nigLaw h) (inOne y n k0 g) =
      allIn n a b k0 * ∫⁻ st, g st ∂nigLaw h := by
  have hin : ∀ v : Fin K → ℝ,
      ∫⁻ θ, ENNReal.ofReal (∏ i : Fin n, Real.exp (uniNormLpdf (θ k0) (y i))) *
        inOne y n k0 g (fun _ => k0) θ v ∂Measure.pi (fun _ => nigLaw h) = ∫⁻ st, g st ∂nigLaw h := by
    intro v
    refine Eq.trans (lintegral_congr fun θ => ?_) ((measurePreserving_eval
      (fun _ : Fin K => nigLaw h) k0).lintegral_comp (f := g) hg)
    rw [inOne, if_pos rfl, ← mul_assoc, ENNReal.mul_inv_cancel
      (ENNReal.ofReal_pos.mpr (Finset.prod_pos fun i _ => Real.exp_pos _)).ne' ofReal_ne_top, one_mul]
  rw [posteriorAt_eq (ν := nigLaw) (h := h) (fun i => measurable_uniNormLpdf (y i))
    (inOne_meas k0 hg), Finset.sum_eq_single (fun _ => k0)]
  · simp only [hin]
    have hm : Measurable fun v : Fin K → ℝ => ENNReal.ofReal (∏ _i : Fin n, stickWeight v k0) :=
      ENNReal.measurable_ofReal.comp (Finset.measurable_prod _ fun _ _ => measurable_stickWeight k0)
    rw [lintegral_mul_const _ hm]
    rfl
  · intro c _ hc
    simp [inOne, hc]
  · simp

end proof

/-- **C155.** With the Normal-Gamma-Gamma hyperprior, for every data set and every number of
components, an iteration of blocked Gibbs does not leave the joint posterior of labels, values, sticks
and hyperparameters invariant. The first part is what an iteration does; the second is about the law. -/
theorem c155_violated (y : ℕ → ℝ) (draw : NIG → ℕ → UniLS)
    {mu00 sig200 alpha00 beta00 a00 b00 sh : ℝ} (hs : 0 < sig200) (h1 : 0 < alpha00) (h2 : 0 < beta00)
    (h3 : 0 < a00) (h4 : 0 < b00) (hsh : 0 < sh) {Z W : Type} [MeasurableSpace Z] [MeasurableSpace W]
    {ζ : Measure Z} {gen : Z → ℝ → ℝ → ℝ} {ω : Measure W} {gam : W → ℝ → ℝ → ℝ}
    (hg : NormalGen ζ gen) (hw : GenLaw ω gam gammaMeasure) (noise : ℕ → Z × W × W)
    {n K : ℕ} (hn : 0 < n) (hK : 0 < K) (prior : SBPrior) {a b : Fin K → ℝ}
    (hab : ∀ k : Fin K, betaParams prior K k = .ok (a k, b k)) (ha : ∀ k, 0 < a k)
    (hb : ∀ k, 0 < b k) :
    (∀ (c : Fin n → Fin K) (θ : Fin K → UniLS) (v : Fin K → ℝ) (h : NIG) (s : Alg (ℝ × ℝ) NIG UniLS)
      (mix : SBState), BlockedState (blockedHyperEnv y draw
        (.ngg mu00 sig200 alpha00 beta00 a00 b00 sh) gen gam noise) prior noneSaved c θ v h s mix →
      (∀ k, 0 < v k ∧ v k ≤ 1) →
      ∃ l, blockedLaw (blockedHyperEnv y draw (.ngg mu00 sig200 alpha00 beta00 a00 b00 sh) gen gam noise)
          (fun st i => uniNormLpdf st (y i)) (fun _ => mix.logweights) K n s = .ok l ∧
        (∀ c' : Fin n → Fin K, l.prob (fun t => t.alloc = List.ofFn fun i => (c' i).val) =
          dataWeight (fun st i => uniNormLpdf st (y i)) c' θ v /
            ∑ c'' : Fin n → Fin K, dataWeight (fun st i => uniNormLpdf st (y i)) c'' θ v) ∧
        ∀ x ∈ l, ∃ c' : Fin n → Fin K, x.2.alloc = (List.ofFn fun i => (c' i).val) ∧
          ∀ (r : ℕ → ℕ) (rh : ℕ) (draws : ℕ → ℝ → ℝ → ℝ) (θ' : Fin K → UniLS),
            (∀ k, θ' k = draw (condHyp (plainEnv y draw) h c' k) (r k)) →
            ∃ s' mix', blockedRest (blockedHyperEnv y draw
                (.ngg mu00 sig200 alpha00 beta00 a00 b00 sh) gen gam noise) prior false r rh draws mix x.2 =
                .ok (s', mix') ∧
              BlockedState (blockedHyperEnv y draw
                (.ngg mu00 sig200 alpha00 beta00 a00 b00 sh) gen gam noise) prior noneSaved c' θ'
                (fun k => if k.val + 1 = K then 1 else draws k (a k + cnt c' k) (b k + later c' k))
                (nigUp (.ngg mu00 sig200 alpha00 beta00 a00 b00 sh) gen gam (noise rh) h
                  ((inUse c' θ').map Prod.fst)) s' mix') ∧
    ∃ φ : (Fin n → Fin K) → (Fin K → UniLS) → (Fin K → ℝ) → NIG → ℝ≥0∞,
      (∀ c, Measurable fun x : ((ℝ × ℝ × ℝ × ℝ) × (Fin K → UniLS)) × (Fin K → ℝ) =>
        φ c x.1.2 x.2 ⟨x.1.1.1, x.1.1.2.1, x.1.1.2.2.1, x.1.1.2.2.2⟩) ∧
      blockedHyperPosterior y n a b (.ngg mu00 sig200 alpha00 beta00 a00 b00 sh)
        (blockedHyperKernel (plainEnv y draw) y a b (.ngg mu00 sig200 alpha00 beta00 a00 b00 sh)
          gen ζ gam ω φ) ≠
        blockedHyperPosterior y n a b (.ngg mu00 sig200 alpha00 beta00 a00 b00 sh) φ := by
  constructor
  · intro c θ v h s mix hst hv
    obtain ⟨l, e, e1, e2⟩ := c100_blocked_step (blockedHyperEnv y draw
      (.ngg mu00 sig200 alpha00 beta00 a00 b00 sh) gen gam noise)
      (by simp [blockedHyperEnv, nnigEnv]) (fun st i => uniNormLpdf st (y i)) hK prior hab ha hb hst hv
    refine ⟨l, e, e1, fun x hx => ?_⟩
    obtain ⟨c', hc', hr⟩ := e2 x hx
    refine ⟨c', hc', fun r rh draws θ' hθ' => ?_⟩
    obtain ⟨s', mix', e', hs'⟩ := hr r rh draws
    have hθ : (fun k => (blockedHyperEnv y draw
        (.ngg mu00 sig200 alpha00 beta00 a00 b00 sh) gen gam noise).sample
        (drawHyp (blockedHyperEnv y draw (.ngg mu00 sig200 alpha00 beta00 a00 b00 sh) gen gam noise)
          noneSaved h c' k) (r k)) = θ' := by
      funext k
      exact (hθ' k).symm
    rw [hθ] at hs'
    exact ⟨s', mix', e', hs'⟩
  · have hζp := hg.prob
    have hωp := hw.prob
    obtain ⟨k0, -⟩ : ∃ k0 : Fin K, k0.val = 0 := ⟨⟨0, hK⟩, rfl⟩
    obtain ⟨ψ, hψ, hne⟩ := one_moves (mu00 := mu00) hg hw hs h1 h2 h3 h4 hsh
    obtain ⟨c0, ctop⟩ := allIn_ne (n := n) ha hb k0
    have hψh : ∀ h, Measurable (ψ h) := fun h => hψ.comp
      (f := fun st : UniLS => ((h.mean, h.varScaling, h.shape, h.scale), st)) (by fun_prop)
    refine ⟨fun c θ v h => inOne y n k0 (ψ h) c θ v, fun c => ?_, fun he => hne ?_⟩
    · unfold inOne
      by_cases hc : c = fun _ => k0
      · simp only [hc, if_true]
        have m1 := Cond.measurable_rows (n := n) (like := fun st i => uniNormLpdf st (y i))
          (fun i => measurable_uniNormLpdf (y i)) (fun _ : Fin n => k0)
        refine (m1.comp (measurable_snd.comp measurable_fst)).inv.mul ?_
        exact hψ.comp (f := fun x : ((ℝ × ℝ × ℝ × ℝ) × (Fin K → UniLS)) × (Fin K → ℝ) =>
          (x.1.1, x.1.2 k0)) ((measurable_fst.comp measurable_fst).prodMk
            ((measurable_pi_apply k0).comp (measurable_snd.comp measurable_fst)))
      · simp only [hc, if_false]
        exact measurable_const
    · have r1 : blockedHyperPosterior y n a b (.ngg mu00 sig200 alpha00 beta00 a00 b00 sh)
          (fun c θ v h => inOne y n k0 (ψ h) c θ v) = allIn n a b k0 *
          hyperPriorMean (.ngg mu00 sig200 alpha00 beta00 a00 b00 sh)
            (fun h => ∫⁻ st, ψ h st ∂nigLaw h) := by
        unfold blockedHyperPosterior
        rw [← hyperPriorMean_mul ctop]
        exact hyperPriorMean_congr fun m l sc hl hsc =>
          posteriorAt_inOne (nigLaw_prob ⟨m, l, sh, sc⟩ hl hsh hsc) (hψh _)
      have r2 : blockedHyperPosterior y n a b (.ngg mu00 sig200 alpha00 beta00 a00 b00 sh)
          (blockedHyperKernel (plainEnv y draw) y a b (.ngg mu00 sig200 alpha00 beta00 a00 b00 sh)
          gen ζ gam ω (fun c θ v h => inOne y n k0 (ψ h) c θ v)) = allIn n a b k0 *
          hyperPriorMean (.ngg mu00 sig200 alpha00 beta00 a00 b00 sh) (fun h => ∫⁻ st,
            oneAfter (.ngg mu00 sig200 alpha00 beta00 a00 b00 sh) gen ζ gam ω ψ h st ∂nigLaw h) := by
        unfold blockedHyperPosterior
        rw [← hyperPriorMean_mul ctop]
        refine hyperPriorMean_congr fun m l sc hl hsc => ?_
        have hp := nigLaw_prob ⟨m, l, sh, sc⟩ hl hsh hsc
        have hB := nnig_bayesClusters y draw (fun h _ _ => h) (h := ⟨m, l, sh, sc⟩) ⟨hl, hsh, hsc⟩
        have hA := measurable_oneAfter (mu00 := mu00) (sig200 := sig200) (alpha00 := alpha00)
          (beta00 := beta00) (a00 := a00) (b00 := b00) (sh := sh) hg hw hψ ⟨m, l, sh, sc⟩
        have hψ2 : (fun (c : Fin n → Fin K) (θ : Fin K → UniLS) (v : Fin K → ℝ) =>
            ∫⁻ r, sticksStep a b (fun c θ v => inOne y n k0 (ψ (nigUp
              (.ngg mu00 sig200 alpha00 beta00 a00 b00 sh) gen gam r ⟨m, l, sh, sc⟩
                ((inUse c θ).map Prod.fst))) c θ v) c θ v ∂ζ.prod (ω.prod ω)) =
            inOne y n k0 (oneAfter (.ngg mu00 sig200 alpha00 beta00 a00 b00 sh) gen ζ gam ω ψ
              ⟨m, l, sh, sc⟩) := by
          funext c θ v
          have hpS := stickLaw_isProb (shape_pos ha (cnt c)) (shape_pos hb (later c))
          by_cases hc : c = fun _ => k0
          · simp only [sticksStep, inOne, hc, if_true, lintegral_const]
            rw [← hc, measure_univ]
            simp only [mul_one]
            rw [hc, inUse_const hn, lintegral_const_mul' _ _ (ENNReal.inv_ne_top.2
              (ENNReal.ofReal_pos.mpr (Finset.prod_pos fun i _ => Real.exp_pos _)).ne')]
            rfl
          · simp [sticksStep, inOne, hc]
        have hR := inOne_meas (n := n) (y := y) k0 hA
        unfold blockedHyperKernel
        rw [hψ2]
        have i1 := labels_invariant (n := n) (ν := nigLaw) (fun i => measurable_uniNormLpdf (y i))
          hB.prior ha hb (hR.values hB)
        have i2 := values_invariant (n := n) (a := a) (b := b)
          (fun i => measurable_uniNormLpdf (y i)) hB hR
        exact i1.trans (i2.trans (posteriorAt_inOne hp hA))
      rw [r1, r2] at he
      exact (ENNReal.mul_right_inj c0 ctop).1 he

/-- Ten rows, two components; mean of the base measure `N(0, 4)`, scaling
`Gamma(2, 2)`, scale `Gamma(3, 1)`. -/
example (y : ℕ → ℝ) (draw : NIG → ℕ → UniLS) (noise : ℕ → ℝ × (ℝ × ℝ → ℝ) × (ℝ × ℝ → ℝ)) :=
  c155_violated y draw (mu00 := 0) (sig200 := 4) (alpha00 := 2) (beta00 := 2) (a00 := 3) (b00 := 1)
    (sh := 2) (by norm_num) two_pos two_pos three_pos one_pos two_pos affine_normalGen gammaSeeds noise
    (n := 10) (K := 2) (by omega) (by omega) (.dp 2) (a := fun _ => 1) (b := fun _ => 2) (fun _ => rfl)
    (by simp) (by simp)

end Bayesmix.Chain
