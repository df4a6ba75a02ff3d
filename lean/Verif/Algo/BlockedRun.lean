import Mathlib.Probability.ProductMeasure
import Verif.Algo.BlockedConv

/-!
# Runs of blocked Gibbs

Means over all draws of a run of `BaseAlgorithm::run` with blocked Gibbs and fixed hyperparameters:
labels through the probabilities of `blockedLaw`, values and sticks through independent draws, one
for every call of an RNG.
-/

namespace Bayesmix.Cond
open Bayesmix Mixing Slice Gibbs MeasureTheory ENNReal Hierarchies

variable {G H Θ : Type} [AddCommGroup G] [MeasurableSpace Θ] [Nonempty Θ]

noncomputable section

open Classical in
/-- A law as it is, or a constant if it is not a probability (parameters which the RNG rejects). -/
def properLaw {X : Type} [MeasurableSpace X] [Nonempty X] (μ : Measure X) : Measure X :=
  if IsProbabilityMeasure μ then μ else Measure.dirac (Classical.arbitrary X)

instance {X : Type} [MeasurableSpace X] [Nonempty X] (μ : Measure X) :
    IsProbabilityMeasure (properLaw μ) := by
  unfold properLaw
  split
  · assumption
  · infer_instance

theorem properLaw_eq {X : Type} [MeasurableSpace X] [Nonempty X] {μ : Measure X}
    (h : IsProbabilityMeasure μ) : properLaw μ = μ := if_pos h

/-- Draws of values in an iteration: independently for each component and each argument of the RNG,
with law `ν h` for argument `h`. -/
def valueDraws (ν : H → Measure Θ) : Measure (H × ℕ → Θ) :=
  Measure.infinitePi fun p => properLaw (ν p.1)

/-- Draws of `beta_rng` in an iteration: independently for each component and each pair of
arguments. -/
def stickDraws : Measure (ℕ × ℝ × ℝ → ℝ) :=
  Measure.infinitePi fun p => properLaw (ProbabilityTheory.betaMeasure p.2.1 p.2.2)

/-- The environment with the given draws of values. -/
def withDraw (E : Env G H Θ) (draw : H × ℕ → Θ) : Env G H Θ :=
  { E with sample := fun h r => draw (h, r) }

/-- The mean of `g` after the values and the sticks are drawn given the labels
(`src/algorithms/conditional_algorithm.h` 56-58), infinite if this fails. -/
def restMean (E : Env G H Θ) (ν : H → Measure Θ) (prior : SBPrior)
    (g : Alg G H Θ → SBState → ℝ≥0∞) (mix : SBState) (s : Alg G H Θ) : ℝ≥0∞ :=
  ∫⁻ draw, ∫⁻ draws,
    (match blockedRest (withDraw E draw) prior false id 0 (fun k a b => draws (k, a, b)) mix s with
      | .error _ => ∞
      | .ok (s', mix') => g s' mix') ∂stickDraws ∂valueDraws ν

/-- The mean of `g` after `ConditionalAlgorithm::step` (`src/algorithms/conditional_algorithm.h`
53-58) of blocked Gibbs, infinite if an iteration fails. -/
def iterMean (E : Env G H Θ) (like : Θ → ℕ → ℝ) (ν : H → Measure Θ) (prior : SBPrior) (K n : ℕ)
    (g : Alg G H Θ → SBState → ℝ≥0∞) (s : Alg G H Θ) (mix : SBState) : ℝ≥0∞ :=
  match blockedLaw E like (fun _ => mix.logweights) K n s with
  | .error _ => ∞
  | .ok l => (l.map fun x => ENNReal.ofReal x.1 * restMean E ν prior g mix x.2).sum

/-- The mean of `F` of the sum of `g` over the states of a run of `N` iterations
(`src/algorithms/base_algorithm.h` 61-71), added to `acc`. -/
def sumMean (E : Env G H Θ) (like : Θ → ℕ → ℝ) (ν : H → Measure Θ) (prior : SBPrior) (K n : ℕ)
    (F : ℝ → ℝ≥0∞) (g : Alg G H Θ → SBState → ℝ) :
    ℕ → ℝ → Alg G H Θ → SBState → ℝ≥0∞
  | 0, acc => fun _ _ => F acc
  | N + 1, acc => iterMean E like ν prior K n fun s' mix' =>
      sumMean E like ν prior K n F g N (acc + g s' mix') s' mix'

end

/-! ### Selecting draws -/

theorem map_infinitePi_select {ι X : Type} [MeasurableSpace X] (μ : ι → Measure X)
    [∀ i, IsProbabilityMeasure (μ i)] {K : ℕ} {e : Fin K → ι} (he : Function.Injective e)
    {F : Fin K → X → X} (hF : ∀ k, Measurable (F k)) :
    (Measure.infinitePi μ).map (fun d k => F k (d (e k))) =
      Measure.pi fun k => (μ (e k)).map (F k) := by
  classical
  have hp : ∀ k, IsProbabilityMeasure ((μ (e k)).map (F k)) := fun k =>
    Measure.isProbabilityMeasure_map (hF k).aemeasurable
  have hm : Measurable fun (d : ι → X) (k : Fin K) => F k (d (e k)) :=
    measurable_pi_iff.mpr fun k => (hF k).comp (measurable_pi_apply (e k))
  symm
  refine Measure.pi_eq fun s hs => ?_
  rw [Measure.map_apply hm (MeasurableSet.univ_pi hs)]
  obtain ⟨t, ht⟩ : ∃ t : ι → Set X, t = fun i => ⋂ k, ⋂ _ : e k = i, F k ⁻¹' s k := ⟨_, rfl⟩
  have hte : ∀ k, t (e k) = F k ⁻¹' s k := by
    intro k
    ext x
    simp only [ht, Set.mem_iInter]
    exact ⟨fun h => h k rfl, fun h j hj => by rw [he hj]; exact h⟩
  have hpre : (fun (d : ι → X) (k : Fin K) => F k (d (e k))) ⁻¹' Set.univ.pi s =
      Set.pi (Finset.univ.map ⟨e, he⟩ : Finset ι) t := by
    ext d
    simp only [Set.mem_preimage, Set.mem_pi, Set.mem_univ, forall_const, Finset.coe_map,
      Function.Embedding.coeFn_mk, Finset.coe_univ, Set.image_univ, Set.forall_mem_range]
    refine forall_congr' fun k => ?_
    rw [hte]
    rfl
  rw [hpre, Measure.infinitePi_pi]
  · rw [Finset.prod_map]
    refine Finset.prod_congr rfl fun k _ => ?_
    rw [Function.Embedding.coeFn_mk, hte, Measure.map_apply (hF k) (hs k)]
  · intro i _
    rw [ht]
    exact MeasurableSet.iInter fun k => MeasurableSet.iInter fun _ => hF k (hs k)

theorem valueDraws_select {ν : H → Measure Θ} {K : ℕ} (hy : Fin K → H)
    (hp : ∀ k, IsProbabilityMeasure (ν (hy k))) :
    (valueDraws ν).map (fun d (k : Fin K) => d (hy k, k.val)) =
      Measure.pi fun k => ν (hy k) := by
  have h := map_infinitePi_select (fun p : H × ℕ => properLaw (ν p.1))
    (e := fun k : Fin K => (hy k, k.val))
    (fun i j hij => Fin.ext (Prod.mk.inj hij).2) (F := fun _ => id) fun _ => measurable_id
  simp only [id_eq, Measure.map_id] at h
  rw [valueDraws, h]
  congr 1
  funext k
  exact properLaw_eq (hp k)

theorem stickDraws_select {K : ℕ} {a b : Fin K → ℝ} (ha : ∀ k, 0 < a k) (hb : ∀ k, 0 < b k) :
    stickDraws.map (fun d (k : Fin K) => if k.val + 1 = K then 1 else d (k.val, a k, b k)) =
      stickLaw a b := by
  have h := map_infinitePi_select
    (fun p : ℕ × ℝ × ℝ => properLaw (ProbabilityTheory.betaMeasure p.2.1 p.2.2))
    (e := fun k : Fin K => (k.val, a k, b k)) (fun i j hij => Fin.ext (Prod.mk.inj hij).1)
    (F := fun k x => if k.val + 1 = K then 1 else x)
    (fun k => by split <;> fun_prop)
  rw [stickDraws, h, stickLaw]
  congr 1
  funext k
  dsimp only
  by_cases hk : k.val + 1 = K
  · simp only [if_pos hk]
    rw [Measure.map_const, measure_univ, one_smul]
  · simp only [if_neg hk]
    have : IsProbabilityMeasure (ProbabilityTheory.betaMeasure (a k) (b k)) :=
      ProbabilityTheory.isProbabilityMeasureBeta (ha k) (hb k)
    rw [properLaw_eq this]
    exact Measure.map_id

/-! ### Probabilities are not negative -/

omit [MeasurableSpace Θ] [Nonempty Θ] in
theorem blockedLaw_nonneg {E : Env G H Θ} {like : Θ → ℕ → ℝ} {lw : ℕ → List EReal} {K n : ℕ}
    {s : Alg G H Θ} {l : Law (Alg G H Θ)} (h : blockedLaw E like lw K n s = .ok l) :
    ∀ x ∈ l, 0 ≤ x.1 := by
  have hrow : ∀ i s l, blockedRow E like lw K i s = .ok l → ∀ x ∈ l, 0 ≤ x.1 := by
    intro i s l e x hx
    rw [blockedRow] at e
    cases ep : blockedProbas like (lw i) K s i with
    | error f => rw [ep] at e; cases e
    | ok p =>
      rw [ep, ok_bind, drawThen] at e
      have hp : ∀ z ∈ p, 0 ≤ z := by
        rw [blockedProbas] at ep
        cases em : (List.range K).mapM (fun j => do
            let w ← logAt (lw i) j
            let o ← vget s.clus j
            (Except.ok (w + (like o.state i : ℝ)) : Except Fault EReal)) with
        | error f => rw [em] at ep; cases ep
        | ok q =>
          rw [em, ok_bind, softmaxLog] at ep
          split at ep
          · cases ep
          · intro z hz
            rw [← Except.ok.inj ep, List.mem_map] at hz
            obtain ⟨y, -, rfl⟩ := hz
            refine div_nonneg (stdExp_nonneg y) (List.sum_nonneg fun u hu => ?_)
            obtain ⟨w, -, rfl⟩ := List.mem_map.mp hu
            exact stdExp_nonneg w
      obtain ⟨k, -, hk⟩ := mapM_ok_mem e x hx
      unfold eigenAt at hk
      cases eg : p[k]? with
      | none => rw [eg] at hk; cases hk
      | some z =>
        rw [eg, ok_bind] at hk
        cases e2 : blockedDatum E K s i k with
        | error f => rw [e2] at hk; cases hk
        | ok t =>
          rw [e2, ok_bind] at hk
          rw [← Except.ok.inj hk]
          exact hp z (List.mem_of_getElem? eg)
  have hs : ∀ (rows : List ℕ) s l, sweep (blockedRow E like lw K) rows s = .ok l →
      ∀ x ∈ l, 0 ≤ x.1 := by
    intro rows
    induction rows with
    | nil =>
      intro s l e x hx
      rw [← Except.ok.inj e, List.mem_singleton] at hx
      rw [hx]
      exact zero_le_one
    | cons i is ih =>
      intro s l e x hx
      rw [sweep] at e
      cases er : blockedRow E like lw K i s with
      | error f => rw [er] at e; cases e
      | ok m =>
        rw [er, ok_bind, Law.andThen] at e
        cases em : m.mapM (fun x => do
            let m ← sweep (blockedRow E like lw K) is x.2
            (Except.ok (m.map fun y : ℝ × Alg G H Θ => (x.1 * y.1, y.2)) :
              Except Fault (Law (Alg G H Θ)))) with
        | error f => rw [em] at e; cases e
        | ok q =>
          rw [em, ok_bind] at e
          rw [← Except.ok.inj e, List.mem_flatten] at hx
          obtain ⟨l1, hl1, hx1⟩ := hx
          obtain ⟨z, hz, ez⟩ := mapM_ok_mem em l1 hl1
          cases es : sweep (blockedRow E like lw K) is z.2 with
          | error f => rw [es] at ez; cases ez
          | ok l2 =>
            rw [es, ok_bind] at ez
            rw [← Except.ok.inj ez, List.mem_map] at hx1
            obtain ⟨y, hy, rfl⟩ := hx1
            exact mul_nonneg (hrow i s m er z hz) (ih z.2 l2 es y hy)
  exact hs _ _ _ h

/-- A mean over a law, sorted by an outcome. -/
theorem law_mean {S X : Type} [Fintype X] (l : Law S) (hl : ∀ x ∈ l, 0 ≤ x.1) (ev : X → S → Prop)
    (hev : ∀ c c' t, ev c t → ev c' t → c = c') (f : ℝ × S → ℝ≥0∞) (g : X → ℝ≥0∞)
    (hf : ∀ x ∈ l, ∃ c, ev c x.2 ∧ f x = g c) :
    (l.map fun x => ENNReal.ofReal x.1 * f x).sum =
      ∑ c, ENNReal.ofReal (l.prob (ev c)) * g c := by
  classical
  induction l with
  | nil => simp [Law.prob]
  | cons x l ih =>
    obtain ⟨c, hc, hfc⟩ := hf x List.mem_cons_self
    rw [List.map_cons, List.sum_cons, ih (fun y hy => hl y (List.mem_cons_of_mem _ hy)) fun y hy =>
      hf y (List.mem_cons_of_mem _ hy)]
    have hnn : ∀ c', 0 ≤ Law.prob l (ev c') := by
      intro c'
      refine List.sum_nonneg fun z hz => ?_
      obtain ⟨y, hy, rfl⟩ := List.mem_map.mp hz
      split
      · exact hl y (List.mem_cons_of_mem _ hy)
      · exact le_rfl
    have hx : ∀ c', Law.prob [x] (ev c') = if ev c' x.2 then x.1 else 0 := by
      intro c'
      by_cases hc' : ev c' x.2 <;> simp [Law.prob, hc']
    have hx0 := hl x List.mem_cons_self
    have hsplit : ∀ c', ENNReal.ofReal (Law.prob (x :: l) (ev c')) * g c' =
        ENNReal.ofReal (Law.prob [x] (ev c')) * g c' + ENNReal.ofReal (Law.prob l (ev c')) * g c' := by
      intro c'
      rw [Law.prob_cons, ENNReal.ofReal_add _ (hnn c'), add_mul]
      rw [hx]
      split
      · exact hx0
      · exact le_rfl
    rw [Finset.sum_congr rfl fun c' _ => hsplit c', Finset.sum_add_distrib]
    congr 1
    rw [Finset.sum_eq_single_of_mem c (Finset.mem_univ c)]
    · rw [hx, if_pos hc, hfc]
    · intro c' _ hne
      rw [hx, if_neg fun h => hne (hev c' c x.2 h hc), ENNReal.ofReal_zero, zero_mul]

/-! ### One iteration -/

omit [MeasurableSpace Θ] [Nonempty Θ] in
theorem blockedState_withDraw {E : Env G H Θ} {prior : SBPrior} {Q : ℕ → Option H} {n K : ℕ} {c : Fin n → Fin K}
    {θ : Fin K → Θ} {v : Fin K → ℝ} {h : H} {s : Alg G H Θ} {mix : SBState} (draw : H × ℕ → Θ) :
    BlockedState (withDraw E draw) prior Q c θ v h s mix ↔ BlockedState E prior Q c θ v h s mix :=
  ⟨fun x => ⟨x.labels, x.values, x.sticks, x.hyp, x.cons, x.cache, x.run⟩,
    fun x => ⟨x.labels, x.values, x.sticks, x.hyp, x.cons, x.cache, x.run⟩⟩

omit [MeasurableSpace Θ] [Nonempty Θ] in
theorem blockedLaw_withDraw (E : Env G H Θ) (draw : H × ℕ → Θ) (like : Θ → ℕ → ℝ)
    (lw : ℕ → List EReal) (K n : ℕ) (s : Alg G H Θ) :
    blockedLaw (withDraw E draw) like lw K n s = blockedLaw E like lw K n s := rfl

/-- What is assumed of the run: a conjugate hierarchy with fixed hyperparameters, a prior of the
sticks with valid parameters, and saved hyperparameters which the RNG accepts. -/
structure RunSetup (E : Env G H Θ) (like : Θ → ℕ → ℝ) (ν : H → Measure Θ) (Q : ℕ → Option H) (h : H) (prior : SBPrior)
    {K : ℕ} (a b : Fin K → ℝ) : Prop where
  kind : E.kind ≠ .other
  like_meas : ∀ i, Measurable fun θ => like θ i
  bayes : BayesClusters E like ν h
  saved : ∀ k p, Q k = Option.some p → IsProbabilityMeasure (ν p)
  fixed : ∀ l r, E.hyperUpdate h l r = h
  some : 0 < K
  params : ∀ k : Fin K, betaParams prior K k = .ok (a k, b k)
  apos : ∀ k, 0 < a k
  bpos : ∀ k, 0 < b k

variable {E : Env G H Θ} {like : Θ → ℕ → ℝ} {ν : H → Measure Θ} {Q : ℕ → Option H} {h : H} {prior : SBPrior} {n K : ℕ}
  {a b : Fin K → ℝ}

omit [MeasurableSpace Θ] [Nonempty Θ] in
theorem ofFn_label_inj {n K : ℕ} {c c' : Fin n → Fin K}
    (h : (List.ofFn fun i => (c i).val) = List.ofFn fun i => (c' i).val) : c = c' := by
  have := List.ofFn_injective h
  funext i
  exact Fin.ext (congrFun this i)

/-- The sticks of the next state. -/
noncomputable def nextSticks (a b : Fin K → ℝ) (c : Fin n → Fin K) (d : ℕ × ℝ × ℝ → ℝ) (k : Fin K) : ℝ :=
  if k.val + 1 = K then 1 else d (k.val, a k + cnt c k, b k + later c k)

/-- The values of the next state. -/
noncomputable def nextValues (E : Env G H Θ) (Q : ℕ → Option H) (h : H) (c : Fin n → Fin K) (d : H × ℕ → Θ) (k : Fin K) : Θ :=
  d (drawHyp E Q h c k, k.val)

theorem iter_rest (S : RunSetup E like ν Q h prior a b)
    {c : Fin n → Fin K} {θ : Fin K → Θ} {v : Fin K → ℝ} {s : Alg G H Θ} {mix : SBState}
    (hs : BlockedState E prior Q c θ v h s mix) (hv : ∀ k, 0 < v k ∧ v k ≤ 1)
    {l : Law (Alg G H Θ)} (el : blockedLaw E like (fun _ => mix.logweights) K n s = .ok l)
    {x : ℝ × Alg G H Θ} (hx : x ∈ l) {c' : Fin n → Fin K}
    (hc' : x.2.alloc = List.ofFn fun i => (c' i).val)
    (draw : H × ℕ → Θ) (draws : ℕ × ℝ × ℝ → ℝ) : ∃ s' mix',
      blockedRest (withDraw E draw) prior false id 0 (fun k a b => draws (k, a, b)) mix x.2 =
        .ok (s', mix') ∧
      BlockedState E prior Q c' (nextValues E Q h c' draw) (nextSticks a b c' draws) h s' mix' := by
  obtain ⟨l', el', -, hx'⟩ := c100_blocked_step (withDraw E draw) S.kind like S.some prior
    S.params S.apos S.bpos ((blockedState_withDraw draw).mpr hs) hv
  rw [blockedLaw_withDraw, el] at el'
  rw [← Except.ok.inj el'] at hx'
  obtain ⟨c2, hc2, hr⟩ := hx' x hx
  have hcc : c2 = c' := ofFn_label_inj (hc2.symm.trans hc')
  subst hcc
  obtain ⟨s', mix', e, hs'⟩ := hr id 0 fun k a b => draws (k, a, b)
  refine ⟨s', mix', e, ?_⟩
  rw [blockedState_withDraw] at hs'
  have hfix := S.fixed
  have : (withDraw E draw).hyperUpdate h = E.hyperUpdate h := rfl
  rw [this, hfix] at hs'
  exact hs'

omit [MeasurableSpace Θ] [Nonempty Θ] in
theorem measurable_nextSticks (c : Fin n → Fin K) : Measurable (nextSticks a b c) :=
  measurable_pi_iff.mpr fun k => by
    unfold nextSticks
    split <;> fun_prop

omit [Nonempty Θ] in
theorem measurable_nextValues (c : Fin n → Fin K) : Measurable (nextValues E Q h c) :=
  measurable_pi_iff.mpr fun _ => measurable_pi_apply _

theorem nextSticks_law (ha : ∀ k, 0 < a k) (hb : ∀ k, 0 < b k) (c : Fin n → Fin K) :
    stickDraws.map (nextSticks a b c) =
      stickLaw (fun k => a k + cnt c k) (fun k => b k + later c k) :=
  stickDraws_select (shape_pos ha (cnt c)) (shape_pos hb (later c))

theorem nextValues_law (S : RunSetup E like ν Q h prior a b) (c : Fin n → Fin K) :
    (valueDraws ν).map (nextValues E Q h c) = Measure.pi (drawLaws E ν Q h c) :=
  valueDraws_select (fun k => drawHyp E Q h c k) (drawLaws_prob S.bayes S.saved c)

theorem iter_integral (S : RunSetup E like ν Q h prior a b)
    {Φ : (Fin n → Fin K) → (Fin K → Θ) → (Fin K → ℝ) → ℝ≥0∞} (hΦ : Meas Φ) (c' : Fin n → Fin K)
    (f : (H × ℕ → Θ) → (ℕ × ℝ × ℝ → ℝ) → ℝ≥0∞)
    (hf : ∀ draw draws, (∀ k, 0 < nextSticks a b c' draws k ∧ nextSticks a b c' draws k ≤ 1) →
      f draw draws = Φ c' (nextValues E Q h c' draw) (nextSticks a b c' draws)) :
    ∫⁻ draw, ∫⁻ draws, f draw draws ∂stickDraws ∂valueDraws ν = condMean (drawLaws E ν Q h) a b Φ c' := by
  have hpa := shape_pos S.apos (cnt c')
  have hpb := shape_pos S.bpos (later c')
  have hsel := nextSticks_law S.apos S.bpos c'
  have hvalid : ∀ᵐ d ∂stickDraws, ∀ k : Fin K,
      0 < nextSticks a b c' d k ∧ nextSticks a b c' d k ≤ 1 := by
    have h1 := stickLaw_ae hpa hpb
    rw [← hsel] at h1
    exact ae_of_ae_map (measurable_nextSticks c').aemeasurable h1
  have hin : ∀ draw : H × ℕ → Θ, ∫⁻ draws, f draw draws ∂stickDraws =
      ∫⁻ v', Φ c' (nextValues E Q h c' draw) v'
        ∂stickLaw (fun k => a k + cnt c' k) (fun k => b k + later c' k) := by
    intro draw
    rw [← hsel, lintegral_map (hΦ.right c' _) (measurable_nextSticks c')]
    refine lintegral_congr_ae ?_
    filter_upwards [hvalid] with draws hd
    exact hf draw draws hd
  rw [lintegral_congr hin]
  have h2 := stickLaw_isProb hpa hpb
  have hm2 : Measurable fun θ' : Fin K → Θ => ∫⁻ v', Φ c' θ' v'
      ∂stickLaw (fun k => a k + cnt c' k) (fun k => b k + later c' k) :=
    (hΦ c').lintegral_prod_right'
  rw [condMean, ← nextValues_law S c', lintegral_map hm2 (measurable_nextValues c')]

theorem iterMean_eq (S : RunSetup E like ν Q h prior a b)
    {Φ : (Fin n → Fin K) → (Fin K → Θ) → (Fin K → ℝ) → ℝ≥0∞} (hΦ : Meas Φ)
    {g : Alg G H Θ → SBState → ℝ≥0∞}
    (hg : ∀ c θ v s mix, BlockedState E prior Q c θ v h s mix → (∀ k, 0 < v k ∧ v k ≤ 1) →
      g s mix = Φ c θ v)
    {c : Fin n → Fin K} {θ : Fin K → Θ} {v : Fin K → ℝ} {s : Alg G H Θ} {mix : SBState}
    (hs : BlockedState E prior Q c θ v h s mix) (hv : ∀ k, 0 < v k ∧ v k ≤ 1) :
    iterMean E like ν prior K n g s mix = lawKernel like (drawLaws E ν Q h) a b Φ c θ v := by
  obtain ⟨l, el, hprob, hx⟩ := c100_blocked_step E S.kind like S.some prior S.params S.apos S.bpos
    hs hv
  have e1 : iterMean E like ν prior K n g s mix =
      (l.map fun x => ENNReal.ofReal x.1 * restMean E ν prior g mix x.2).sum := by
    unfold iterMean
    rw [el]
  have e2 : lawKernel like (drawLaws E ν Q h) a b Φ c θ v = ∑ c' : Fin n → Fin K,
      ENNReal.ofReal (l.prob fun t => t.alloc = List.ofFn fun i => (c' i).val) *
        condMean (drawLaws E ν Q h) a b Φ c' := by
    simp only [lawKernel_apply]
    refine Finset.sum_congr rfl fun c' _ => ?_
    rw [hprob c', labelProb]
  rw [e1, e2]
  refine law_mean l (blockedLaw_nonneg el)
    (fun (c' : Fin n → Fin K) t => t.alloc = List.ofFn fun i => (c' i).val)
    (fun c1 c2 t h1 h2 => ofFn_label_inj (h1.symm.trans h2))
    (fun x => restMean E ν prior g mix x.2) (condMean (drawLaws E ν Q h) a b Φ) fun x hxl => ?_
  obtain ⟨c', hc', -⟩ := hx x hxl
  refine ⟨c', hc', ?_⟩
  unfold restMean
  refine iter_integral S hΦ c' _ fun draw draws hd => ?_
  obtain ⟨s', mix', e, hs'⟩ := iter_rest S hs hv el hxl hc' draw draws
  rw [e]
  exact hg _ _ _ _ _ hs' hd

omit [Nonempty Θ] in
theorem Meas.kernel (S : RunSetup E like ν Q h prior a b)
    {Φ : (Fin n → Fin K) → (Fin K → Θ) → (Fin K → ℝ) → ℝ≥0∞} (hΦ : Meas Φ) :
    Meas (lawKernel like (drawLaws E ν Q h) a b Φ) :=
  Meas.labels (φ := fun c _ _ => condMean (drawLaws E ν Q h) a b Φ c) S.like_meas
    fun _ => measurable_const

omit [Nonempty Θ] in
theorem Meas.kernel_iterate (S : RunSetup E like ν Q h prior a b)
    {Φ : (Fin n → Fin K) → (Fin K → Θ) → (Fin K → ℝ) → ℝ≥0∞} (hΦ : Meas Φ) (k : ℕ) :
    Meas ((lawKernel like (drawLaws E ν Q h) a b)^[k] Φ) := by
  induction k with
  | zero => exact hΦ
  | succ k ih =>
    rw [Function.iterate_succ_apply']
    exact ih.kernel S

theorem iterMean_iterate (S : RunSetup E like ν Q h prior a b)
    {Φ : (Fin n → Fin K) → (Fin K → Θ) → (Fin K → ℝ) → ℝ≥0∞} (hΦ : Meas Φ)
    {g : Alg G H Θ → SBState → ℝ≥0∞}
    (hg : ∀ c θ v s mix, BlockedState E prior Q c θ v h s mix → (∀ k, 0 < v k ∧ v k ≤ 1) →
      g s mix = Φ c θ v) (k : ℕ) :
    ∀ c θ v s mix, BlockedState E prior Q c θ v h s mix → (∀ k, 0 < v k ∧ v k ≤ 1) →
      (iterMean E like ν prior K n)^[k] g s mix = (lawKernel like (drawLaws E ν Q h) a b)^[k] Φ c θ v := by
  induction k with
  | zero => exact hg
  | succ k ih =>
    intro c θ v s mix hs hv
    rw [Function.iterate_succ_apply', Function.iterate_succ_apply']
    exact iterMean_eq S (hΦ.kernel_iterate S k) ih hs hv

end Bayesmix.Cond
