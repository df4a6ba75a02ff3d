import Mathlib.Probability.ProductMeasure
import Verif.Algo.AvgRun
import Verif.Algo.PropsPredictive

/-!
# C118: averages over the stored states of Neal2 and Neal8 are consistent

Functions of partition and values, and density estimates. The average over the states stored by a run
with `maxiter` iterations of which `burnin` are not stored converges in probability, at the rate of
Chebyshev's inequality, from every initialization.
-/

namespace Bayesmix.Chain
open Bayesmix Cond Gibbs SplitMerge Slice Mixing Density Hierarchies MeasureTheory ENNReal

variable {G H Θ : Type} [AddCommGroup G] [MeasurableSpace Θ] [Nonempty Θ]

/-- The estimate of Neal8 with the values `d` drawn from the prior (`lpdf_marginal_component`,
`src/algorithms/neal8_algorithm.cc` 92-106). -/
noncomputable def densityDraw8 {T : Type} (M : MixOps T) (st : T) (like : Θ → ℕ → ℝ) (nAux x : ℕ)
    (s : Alg G H Θ) (d : H × ℕ → Θ) : ℝ≥0∞ :=
  estimateAt M st like (neal8Marginal nAux fun j x => ((like (d (s.hyp, j)) x : ℝ) : EReal)) x s

/-- The average of `est` over the states stored by a run of Neal2 converges to `target` in probability:
whatever the number of iterations and the burn-in, the probability of an error of at least `ε` is at
most `C / (N ε²)`, where `N` is the number of states stored. -/
def Neal2Average {Ω : Type} [MeasurableSpace Ω] (E : Env G H Θ) (like : Θ → ℕ → ℝ) (S : Scores H)
    (ν : H → Measure Θ) (K n : ℕ) (h0 : H) (θ0 : Θ) (P : Measure Ω) (est : Alg G H Θ → Ω → ℝ≥0∞)
    (target : ℝ) : Prop :=
  ∃ C : ℝ, 0 < C ∧ ∀ (zi : InitNoise) (o : Hier G H Θ), o.CacheOk →
    ∃ s0, initAlloc E false K n h0 θ0 zi [o] = .ok s0 ∧
      ∀ maxiter burnin : ℕ, burnin < maxiter → ∀ ε : ℝ, 0 < ε →
        averageProb (neal2IterMean E like S ν n) P est maxiter burnin {t | ε ≤ |t - target|} s0 ≤
          ENNReal.ofReal (C / ((maxiter - burnin) * ε ^ 2))

/-- The same for Neal8 with `m + 1` auxiliary blocks. -/
def Neal8Average {Ω : Type} [MeasurableSpace Ω] (E : Env G H Θ) (like : Θ → ℕ → ℝ) (S : Scores H)
    (ν : H → Measure Θ) (K n m : ℕ) (h0 : H) (θ0 : Θ) (P : Measure Ω) (est : Alg G H Θ → Ω → ℝ≥0∞)
    (target : ℝ) : Prop :=
  ∃ C : ℝ, 0 < C ∧ ∀ (zi : InitNoise) (o : Hier G H Θ) (aux : List (Hier G H Θ)), o.CacheOk →
    aux.length = m + 1 → ∃ s0, initAlloc E false K n h0 θ0 zi [o] = .ok s0 ∧
      ∀ maxiter burnin : ℕ, burnin < maxiter → ∀ ε : ℝ, 0 < ε →
        averageProb (neal8IterMean E like S ν n) P (fun s => est s.base) maxiter burnin
          {t | ε ≤ |t - target|} ⟨s0, aux⟩ ≤ ENNReal.ofReal (C / ((maxiter - burnin) * ε ^ 2))

section general

variable {E : Env G H Θ} {like : Θ → ℕ → ℝ} {S : Scores H} {ν : H → Measure Θ} {n : ℕ} {h0 : H}
  {prior : List ℕ → ℝ} {Ω : Type} [MeasurableSpace Ω] {P : Measure Ω}

theorem measurable_hit {D : Set ℝ} (hD : MeasurableSet D) (N : ℕ) :
    Measurable (Set.indicator {t : ℝ | t / N ∈ D} (1 : ℝ → ℝ≥0∞)) :=
  measurable_one.indicator ((measurable_id.div_const _) hD)

/-- Values away from the limit have small probability. -/
theorem Neal2Ok.average_away [IsProbabilityMeasure P] (hO : Neal2Ok E like S ν n h0 prior)
    (hk : E.kind = .conjugate) {K : ℕ} (hK : 0 < K) (hKn : K ≤ n) (θ0 : Θ)
    {φ : Setoid (Fin n) → (Fin n → Θ) → Ω → ℝ≥0∞} (hφ : Square E ν h0 P φ)
    {est : Alg G H Θ → Ω → ℝ≥0∞}
    (he : ∀ (σ : Setoid (Fin n)) A x s, Seen E h0 σ A x s → ∀ ω, est s ω = φ σ x ω) {L : ℝ}
    (hL : jointMean (n := n) prior like (ν h0) (overDraw P φ) = L) :
    ∃ C : ℝ, 0 < C ∧ ∀ (zi : InitNoise) (o : Hier G H Θ), o.CacheOk →
      ∃ s0, initAlloc E false K n h0 θ0 zi [o] = .ok s0 ∧
        ∀ maxiter burnin : ℕ, burnin < maxiter → ∀ ε : ℝ, 0 < ε → ∀ D : Set ℝ, MeasurableSet D →
          (∀ t ∈ D, ε ≤ |t - L|) →
          averageProb (neal2IterMean E like S ν n) P est maxiter burnin D s0 ≤
            ENNReal.ofReal (C / ((maxiter - burnin) * ε ^ 2)) := by
  obtain ⟨ω0⟩ : Nonempty Ω := nonempty_of_isProbabilityMeasure P
  obtain ⟨C, hC, h⟩ := hO.rows.average hO.clusters hO.meas hO.weight_pos hφ ω0 hL
  refine ⟨C, hC, fun zi o ho => ?_⟩
  obtain ⟨s0, e, hs⟩ := init_seen (E := E) (n := n) hk hK hKn h0 θ0 zi ho
  refine ⟨s0, e, fun maxiter burnin hlt ε hε D hD hDε => ?_⟩
  obtain ⟨N, rfl⟩ : ∃ N, maxiter = burnin + N := ⟨maxiter - burnin, by omega⟩
  have hN : 0 < N := by omega
  rw [averageProb_eq]
  have hF := measurable_hit hD N
  have h1 := (hO.iterates (hO.rows.spotSum_meas hO.clusters hF hφ ω0 N 0).1
    (hO.sum_reads hF hφ ω0 he N 0) burnin).2 _ _ _ s0 hs
  rw [h1]
  refine hO.rows.iterOp_le hO.clusters (fun z y => ?_) burnin _ _
  refine (h N hN ε hε D hDε z y).trans (le_of_eq ?_)
  push_cast
  rw [add_sub_cancel_left]

theorem Neal8Ok.average_away [IsProbabilityMeasure P] (hO : Neal8Ok E like S ν n h0 prior)
    (hk : E.kind = .conjugate) {K : ℕ} (hK : 0 < K) (hKn : K ≤ n) (m : ℕ) (θ0 : Θ)
    {φ : Setoid (Fin n) → (Fin n → Θ) → Ω → ℝ≥0∞} (hφ : Square E ν h0 P φ)
    {est : Alg G H Θ → Ω → ℝ≥0∞}
    (he : ∀ (σ : Setoid (Fin n)) A x s, Seen E h0 σ A x s → ∀ ω, est s ω = φ σ x ω) {L : ℝ}
    (hL : jointMean (n := n) prior like (ν h0) (overDraw P φ) = L) :
    ∃ C : ℝ, 0 < C ∧ ∀ (zi : InitNoise) (o : Hier G H Θ) (aux : List (Hier G H Θ)), o.CacheOk →
      aux.length = m + 1 → ∃ s0, initAlloc E false K n h0 θ0 zi [o] = .ok s0 ∧
        ∀ maxiter burnin : ℕ, burnin < maxiter → ∀ ε : ℝ, 0 < ε → ∀ D : Set ℝ, MeasurableSet D →
          (∀ t ∈ D, ε ≤ |t - L|) →
          averageProb (neal8IterMean E like S ν n) P (fun s => est s.base) maxiter burnin D ⟨s0, aux⟩ ≤
            ENNReal.ofReal (C / ((maxiter - burnin) * ε ^ 2)) := by
  obtain ⟨ω0⟩ : Nonempty Ω := nonempty_of_isProbabilityMeasure P
  obtain ⟨C, hC, h⟩ := (hO.rows m).average hO.clusters hO.meas hO.weight_pos hφ ω0 hL
  refine ⟨C, hC, fun zi o aux ho haux => ?_⟩
  obtain ⟨s0, e, hs⟩ := init_seen (E := E) (n := n) hk hK hKn h0 θ0 zi ho
  refine ⟨s0, e, fun maxiter burnin hlt ε hε D hD hDε => ?_⟩
  obtain ⟨N, rfl⟩ : ∃ N, maxiter = burnin + N := ⟨maxiter - burnin, by omega⟩
  have hN : 0 < N := by omega
  rw [averageProb_eq]
  have hF := measurable_hit hD N
  have h1 := (hO.iterates (m := m) ((hO.rows m).spotSum_meas hO.clusters hF hφ ω0 N 0).1
    (hO.sum_reads hF hφ ω0 he N 0) burnin).2 _ _ _ ⟨s0, aux⟩ hs haux
  rw [h1]
  refine (hO.rows m).iterOp_le hO.clusters (fun z y => ?_) burnin _ _
  refine (h N hN ε hε D hDε z y).trans (le_of_eq ?_)
  push_cast
  rw [add_sub_cancel_left]

theorem measurable_far (L ε : ℝ) : MeasurableSet {t : ℝ | ε ≤ |t - L|} :=
  measurableSet_le measurable_const (measurable_id.sub_const L).abs

theorem Neal2Ok.average [IsProbabilityMeasure P] (hO : Neal2Ok E like S ν n h0 prior)
    (hk : E.kind = .conjugate) {K : ℕ} (hK : 0 < K) (hKn : K ≤ n) (θ0 : Θ)
    {φ : Setoid (Fin n) → (Fin n → Θ) → Ω → ℝ≥0∞} (hφ : Square E ν h0 P φ)
    {est : Alg G H Θ → Ω → ℝ≥0∞}
    (he : ∀ (σ : Setoid (Fin n)) A x s, Seen E h0 σ A x s → ∀ ω, est s ω = φ σ x ω) :
    Neal2Average E like S ν K n h0 θ0 P est
      (jointMean (n := n) prior like (ν h0) (overDraw P φ)) := by
  obtain ⟨C, hC, h⟩ := hO.average_away hk hK hKn θ0 hφ he rfl
  refine ⟨C, hC, fun zi o ho => ?_⟩
  obtain ⟨s0, e, h⟩ := h zi o ho
  exact ⟨s0, e, fun M B hMB ε hε => h M B hMB ε hε _ (measurable_far _ _) fun t ht => ht⟩

theorem Neal8Ok.average [IsProbabilityMeasure P] (hO : Neal8Ok E like S ν n h0 prior)
    (hk : E.kind = .conjugate) {K : ℕ} (hK : 0 < K) (hKn : K ≤ n) (m : ℕ) (θ0 : Θ)
    {φ : Setoid (Fin n) → (Fin n → Θ) → Ω → ℝ≥0∞} (hφ : Square E ν h0 P φ)
    {est : Alg G H Θ → Ω → ℝ≥0∞}
    (he : ∀ (σ : Setoid (Fin n)) A x s, Seen E h0 σ A x s → ∀ ω, est s ω = φ σ x ω) :
    Neal8Average E like S ν K n m h0 θ0 P est
      (jointMean (n := n) prior like (ν h0) (overDraw P φ)) := by
  obtain ⟨C, hC, h⟩ := hO.average_away hk hK hKn m θ0 hφ he rfl
  refine ⟨C, hC, fun zi o aux ho haux => ?_⟩
  obtain ⟨s0, e, h⟩ := h zi o aux ho haux
  exact ⟨s0, e, fun M B hMB ε hε => h M B hMB ε hε _ (measurable_far _ _) fun t ht => ht⟩

end general

/-! ### Functions with two moments -/

section moments

variable {E : Env G H Θ} {like : Θ → ℕ → ℝ} {pred : H → ℕ → ℝ} {ν : H → Measure Θ} {V : H → Prop}
  {n : ℕ} {h0 : H}

omit [Nonempty Θ] in
theorem square_bounded (hB : BayesClusters E like ν h0) {φ : Setoid (Fin n) → (Fin n → Θ) → ℝ≥0∞}
    (hφ : ∀ σ, Measurable (φ σ)) {M : ℝ≥0∞} (hM : M ≠ ∞) (hle : ∀ σ x, φ σ x ≤ M) :
    Square E ν h0 (Measure.dirac ()) fun σ x (_ : Unit) => φ σ x := by
  have hV := valueLaw_prob (n := n) hB
  refine ⟨fun σ => (hφ σ).comp measurable_fst, fun σ x _ => ne_top_of_le_ne_top hM (hle σ x),
    fun z => ?_⟩
  refine MemLp.of_bound (C := M.toReal)
    ((hφ z.1).comp measurable_fst).ennreal_toReal.aestronglyMeasurable
    (Filter.Eventually.of_forall fun p => ?_)
  rw [Real.norm_of_nonneg ENNReal.toReal_nonneg]
  exact ENNReal.toReal_mono hM (hle _ _)

theorem overDraw_unit (φ : Setoid (Fin n) → (Fin n → Θ) → ℝ≥0∞) :
    overDraw (Measure.dirac ()) (fun σ x (_ : Unit) => φ σ x) = φ := by
  funext σ x
  simp [overDraw]

/-- With a conjugate hierarchy densities have two moments. -/
theorem dens_two (C : Conjugate E like pred ν V) {h : H} (hv : V h) (i : ℕ) :
    MemLp (fun θ => Real.exp (like θ i)) 2 (ν h) := by
  have hm : Measurable fun θ => Real.exp (like θ i) := Real.measurable_exp.comp (C.meas i)
  rw [memLp_two_iff_integrable_sq hm.aestronglyMeasurable]
  refine ⟨(hm.pow_const 2).aestronglyMeasurable, ?_⟩
  rw [hasFiniteIntegral_iff_ofReal (Filter.Eventually.of_forall fun θ => sq_nonneg _)]
  have h1 := (C.row h i hv).rule (fun θ => ENNReal.ofReal (Real.exp (like θ i)))
    (ENNReal.measurable_ofReal.comp hm)
  rw [pred_int (C.row _ i (C.valid h i hv))] at h1
  have e : ∀ θ, ENNReal.ofReal (Real.exp (like θ i) ^ 2) =
      ENNReal.ofReal (Real.exp (like θ i)) * ENNReal.ofReal (Real.exp (like θ i)) := fun θ => by
    rw [sq, ENNReal.ofReal_mul (Real.exp_pos _).le]
  rw [lintegral_congr e, h1, ← ENNReal.ofReal_mul (Real.exp_pos _).le]
  exact ENNReal.ofReal_lt_top

omit [Nonempty Θ] in
theorem valueLaw_eval (hB : BayesClusters E like ν h0) (z : Spot n) (j : Fin n) :
    MeasurePreserving (fun y : Fin n → Θ => y j) (valueLaw E ν h0 z)
      (ν (blockHyp E h0 z (Quotient.mk z.1 j))) := by
  have hq := blockHyp_prob hB z
  refine ⟨measurable_pi_apply j, ?_⟩
  unfold valueLaw
  rw [Measure.map_map (measurable_pi_apply j) (measurable_rows z.1)]
  exact (measurePreserving_eval (fun q : Quotient z.1 => ν (blockHyp E h0 z q))
    (Quotient.mk z.1 j)).map_eq

/-- Mixture densities have two moments. -/
theorem square_mixDens {Ω : Type} [MeasurableSpace Ω] {P : Measure Ω} [IsProbabilityMeasure P]
    (C : Conjugate E like pred ν V) (hv : V h0) (ce cn : ℕ → ℝ) {μ : Ω → ℝ≥0∞} (hμ : Measurable μ)
    (hμf : ∀ ω, μ ω ≠ ∞) (hμ2 : MemLp (fun ω => (μ ω).toReal) 2 P) :
    Square (n := n) E ν h0 P fun σ x ω => mixDens ce cn like (μ ω) σ x := by
  have hB := C.clusters hv
  have hV := valueLaw_prob (n := n) hB
  have hbl : ∀ (z : Spot n) q, V (blockHyp E h0 z q) := by
    intro z q
    unfold blockHyp
    split
    · exact hv
    · exact C.post hv _ (blockRows_nonempty _ _)
  refine ⟨fun σ => ?_, fun σ x ω => ?_, fun z => ?_⟩
  · unfold mixDens
    refine (Finset.measurable_sum _ fun q _ => measurable_const.mul (ENNReal.measurable_ofReal.comp
      (Real.measurable_exp.comp ((C.meas n).comp ((measurable_pi_apply _).comp measurable_fst))))).add
      (measurable_const.mul (hμ.comp measurable_snd))
  · unfold mixDens
    exact ENNReal.add_ne_top.mpr ⟨ENNReal.sum_ne_top.mpr fun q _ =>
      ENNReal.mul_ne_top ENNReal.ofReal_ne_top ENNReal.ofReal_ne_top,
      ENNReal.mul_ne_top ENNReal.ofReal_ne_top (hμf ω)⟩
  · have e : (fun p : (Fin n → Θ) × Ω => (mixDens ce cn like (μ p.2) z.1 p.1).toReal) =
        fun p => (∑ q : Quotient z.1, (ENNReal.ofReal (ce (blockRows z.1 q).card)).toReal *
          Real.exp (like (p.1 q.out) n)) +
          (ENNReal.ofReal (cn (Fintype.card (Quotient z.1)))).toReal * (μ p.2).toReal := by
      funext p
      unfold mixDens
      rw [ENNReal.toReal_add (ENNReal.sum_ne_top.mpr fun q _ =>
        ENNReal.mul_ne_top ENNReal.ofReal_ne_top ENNReal.ofReal_ne_top)
        (ENNReal.mul_ne_top ENNReal.ofReal_ne_top (hμf _)), ENNReal.toReal_sum fun q _ =>
        ENNReal.mul_ne_top ENNReal.ofReal_ne_top ENNReal.ofReal_ne_top]
      simp only [ENNReal.toReal_mul, ENNReal.toReal_ofReal (Real.exp_pos _).le]
    rw [e]
    have h1 : ∀ q : Quotient z.1, MemLp (fun p : (Fin n → Θ) × Ω =>
        (ENNReal.ofReal (ce (blockRows z.1 q).card)).toReal * Real.exp (like (p.1 q.out) n)) 2
        ((valueLaw E ν h0 z).prod P) := by
      intro q
      have hm := (valueLaw_eval hB z q.out).comp
        (measurePreserving_fst (μ := valueLaw E ν h0 z) (ν := P))
      have h2 : MemLp (fun p : (Fin n → Θ) × Ω => Real.exp (like (p.1 q.out) n)) 2
          ((valueLaw E ν h0 z).prod P) := (dens_two C (hbl z _) n).comp_measurePreserving hm
      exact h2.const_mul _
    have h3 : MemLp (fun p : (Fin n → Θ) × Ω => (μ p.2).toReal) 2 ((valueLaw E ν h0 z).prod P) :=
      hμ2.comp_measurePreserving (measurePreserving_snd (μ := valueLaw E ν h0 z) (ν := P))
    exact (memLp_finsetSum Finset.univ fun q _ => h1 q).add (h3.const_mul _)

/-- The values drawn by Neal8. -/
theorem two_draws (C : Conjugate E like pred ν V) (hv : V h0) (nAux i : ℕ) :
    MemLp (fun d : H × ℕ → Θ => (ENNReal.ofReal
      ((∑ j ∈ Finset.range nAux, Real.exp (like (d (h0, j)) i)) / nAux)).toReal) 2 (valueDraws ν) := by
  have hp := (C.row h0 i hv).prior
  have e : (fun d : H × ℕ → Θ => (ENNReal.ofReal
      ((∑ j ∈ Finset.range nAux, Real.exp (like (d (h0, j)) i)) / nAux)).toReal) =
      fun d => (nAux : ℝ)⁻¹ * ∑ j ∈ Finset.range nAux, Real.exp (like (d (h0, j)) i) := by
    funext d
    rw [ENNReal.toReal_ofReal (div_nonneg (Finset.sum_nonneg fun _ _ => (Real.exp_pos _).le)
      (Nat.cast_nonneg _)), div_eq_inv_mul]
  rw [e]
  have h2 : ∀ j : ℕ, MemLp (fun d : H × ℕ → Θ => Real.exp (like (d (h0, j)) i)) 2 (valueDraws ν) := by
    intro j
    have h1 := measurePreserving_eval_infinitePi (fun p : H × ℕ => properLaw (ν p.1)) (h0, j)
    rw [properLaw_eq hp] at h1
    exact (dens_two C hv i).comp_measurePreserving h1
  exact (memLp_finsetSum (Finset.range nAux) fun j _ => h2 j).const_mul _

end moments

/-- Averages of density estimates with two moments. -/
theorem density_average {E : Env G H Θ} {like : Θ → ℕ → ℝ} {pred : H → ℕ → ℝ} {ν : H → Measure Θ}
    {V : H → Prop} {S : Scores H} {n : ℕ} {h0 : H} {prior : List ℕ → ℝ}
    (hO : Neal2Ok E like S ν n h0 prior) (hO8 : Neal8Ok E like S ν n h0 prior)
    (hk : E.kind = .conjugate) {K : ℕ} (hK : 0 < K) (hKn : K ≤ n) (m : ℕ) (θ0 : Θ)
    (C : Conjugate E like pred ν V) (hv : V h0) {ce cn : ℕ → ℝ} {T : Type} {M : MixOps T} {st : T}
    (hest : ∀ (σ : Setoid (Fin n)) A x s, Seen E h0 σ A x s → ∀ (marg : ℕ → EReal) (mdens : ℕ → ℝ),
      (∀ i, IsLogOf (marg i) (mdens i)) → 0 ≤ mdens n →
      estimateAt M st like marg n s = mixDens ce cn like (ENNReal.ofReal (mdens n)) σ x) :
    Neal2Average E like S ν K n h0 θ0 (Measure.dirac ()) (fun s _ => densityAt M st like pred n s)
      (jointMean (n := n) prior like (ν h0)
        (mixDens ce cn like (ENNReal.ofReal (Real.exp (pred h0 n))))) ∧
    Neal8Average E like S ν K n m h0 θ0 (valueDraws ν) (densityDraw8 M st like (m + 1) n)
      (jointMean (n := n) prior like (ν h0)
        (mixDens ce cn like (ENNReal.ofReal (Real.exp (pred h0 n))))) := by
  have hp := (C.row h0 n hv).prior
  have hm := pred_int (C.row h0 n hv)
  have hP : IsProbabilityMeasure (valueDraws (Θ := Θ) ν) := by
    unfold valueDraws
    infer_instance
  constructor
  · have h1 := hO.average hk hK hKn θ0
      (square_mixDens (P := Measure.dirac ()) C hv ce cn
        (μ := fun _ : Unit => ENNReal.ofReal (Real.exp (pred h0 n)))
        measurable_const (fun _ => ofReal_ne_top) (memLp_const _))
      (est := fun s _ => densityAt M st like pred n s)
      fun σ A x s hs _ => by
        unfold densityAt
        rw [← hs.hyp]
        exact hest σ A x s hs _ (fun x => Real.exp (pred s.hyp x)) (fun x => isLogOf_coe _)
          (Real.exp_pos _).le
    rw [overDraw_unit] at h1
    exact h1
  · have h2 := hO8.average hk hK hKn m θ0
      (square_mixDens (P := valueDraws ν) C hv ce cn (μ := fun d => ENNReal.ofReal
          ((∑ j ∈ Finset.range (m + 1), Real.exp (like (d (h0, j)) n)) / (m + 1 : ℕ)))
        (ENNReal.measurable_ofReal.comp ((Finset.measurable_sum _ fun j _ =>
          Real.measurable_exp.comp ((C.meas n).comp (measurable_pi_apply _))).div_const _))
        (fun _ => ofReal_ne_top) (two_draws C hv (m + 1) n))
      (est := densityDraw8 M st like (m + 1) n) fun σ A x s hs d => by
        unfold densityDraw8
        rw [← hs.hyp]
        exact hest σ A x s hs _
          (fun i => (∑ j ∈ Finset.range (m + 1), Real.exp (like (d (s.hyp, j)) i)) / (m + 1 : ℕ))
          (fun x => c54_neal8_component (by omega) (fun j x => isLogOf_coe _) x)
          (div_nonneg (Finset.sum_nonneg fun _ _ => (Real.exp_pos _).le) (Nat.cast_nonneg _))
    have e : overDraw (valueDraws ν) (fun (σ : Setoid (Fin n)) x d => mixDens ce cn like
        (ENNReal.ofReal ((∑ j ∈ Finset.range (m + 1), Real.exp (like (d (h0, j)) n)) /
          (m + 1 : ℕ))) σ x) =
        mixDens ce cn like (ENNReal.ofReal (Real.exp (pred h0 n))) :=
      funext fun σ => funext fun x => mixDens_draws C.meas hp (by omega) _ _ hm σ x
    rw [e] at h2
    exact h2

/-! ### Pitman-Yor process -/

/-- **C118, Neal2 and Neal8, Pitman-Yor process.** Averages of bounded functions of partition and
values converge to posterior means. -/
theorem c118_pitman_yor (E : Env G H Θ) (hfix : ∀ h l r, E.hyperUpdate h l r = h)
    (hk : E.kind = .conjugate) (like : Θ → ℕ → ℝ) (pred : H → ℕ → ℝ) (ν : H → Measure Θ) (V : H → Prop)
    (C : Conjugate E like pred ν V) {a b : ℝ} {py : PYState} (hpy : pyInit a b = .ok py) (K n m : ℕ)
    (hn : 2 ≤ n) (hK : 0 < K) (hKn : K ≤ n) (h0 : H) (hv : V h0) (θ0 : Θ)
    (φ : Setoid (Fin n) → (Fin n → Θ) → ℝ≥0∞) (hφ : ∀ σ, Measurable (φ σ)) (M : ℝ≥0∞) (hM : M ≠ ∞)
    (hle : ∀ σ x, φ σ x ≤ M) :
    Neal2Average E like (pyScores pred py) ν K n h0 θ0 (Measure.dirac ()) (fun s _ => observe θ0 φ s)
      (jointMean (pyPrior py) like (ν h0) φ) ∧
    Neal8Average E like (pyScores pred py) ν K n m h0 θ0 (Measure.dirac ())
      (fun s _ => observe θ0 φ s) (jointMean (pyPrior py) like (ν h0) φ) := by
  have hs := square_bounded (C.clusters hv) hφ hM hle
  have h1 := (py_neal2Ok E hfix (by simp [hk]) C hpy hn hv).average hk hK hKn θ0 hs
    (est := fun s _ => observe θ0 φ s) fun σ A x s hs _ => reads_observable θ0 φ σ A x s hs
  have h2 := (py_neal8Ok E hfix (by simp [hk]) C hpy hn hv).average hk hK hKn m θ0 hs
    (est := fun s _ => observe θ0 φ s) fun σ A x s hs _ => reads_observable θ0 φ σ A x s hs
  rw [overDraw_unit] at h1 h2
  exact ⟨h1, h2⟩

/-- **C118, Neal2 and Neal8, Pitman-Yor process, density estimates.** The average over the stored states
of the density estimate at a grid point converges to the posterior predictive density. -/
theorem c118_density_pitman_yor (E : Env G H Θ) (hfix : ∀ h l r, E.hyperUpdate h l r = h)
    (hk : E.kind = .conjugate) (like : Θ → ℕ → ℝ) (pred : H → ℕ → ℝ) (ν : H → Measure Θ) (V : H → Prop)
    (C : Conjugate E like pred ν V) {a b : ℝ} {py : PYState} (hpy : pyInit a b = .ok py) (K n m : ℕ)
    (hn : 2 ≤ n) (hK : 0 < K) (hKn : K ≤ n) (h0 : H) (hv : V h0) (θ0 : Θ) :
    Neal2Average E like (pyScores pred py) ν K n h0 θ0 (Measure.dirac ())
      (fun s _ => densityAt pyOps py like pred n s) (predictiveDens (pyPrior py) like (ν h0) n) ∧
    Neal8Average E like (pyScores pred py) ν K n m h0 θ0 (valueDraws ν)
      (densityDraw8 pyOps py like (m + 1) n) (predictiveDens (pyPrior py) like (ν h0) n) := by
  have hp := (C.row h0 n hv).prior
  rw [← py_predictive hpy hn C.meas (pred_int (C.row h0 n hv))]
  exact density_average (py_neal2Ok E hfix (by simp [hk]) C hpy hn hv)
    (py_neal8Ok E hfix (by simp [hk]) C hpy hn hv) hk hK hKn m θ0 C hv
    fun σ A x s hs marg mdens h1 h2 => estimate_py hs (by omega) hpy like h1 h2

/-- **C118, normal hierarchy.** Co-clustering of two rows and density estimates, for every Pitman-Yor
process, every data set and every grid point `y n`. -/
theorem c118_nnig (y : ℕ → ℝ) (draw : NIG → ℕ → UniLS) {a b : ℝ} {py : PYState}
    (hpy : pyInit a b = .ok py) (K n m : ℕ) (hn : 2 ≤ n) (hK : 0 < K) (hKn : K ≤ n) (h0 : NIG)
    (hv : NigValid h0) (θ0 : UniLS) (i j : Fin n) :
    haveI : Nonempty UniLS := ⟨θ0⟩
    Neal2Average (nnigEnv y draw fun h _ _ => h) (fun st i => uniNormLpdf st (y i))
      (pyScores (fun h i => nnigMargLpdf h (y i)) py) nigLaw K n h0 θ0 (Measure.dirac ())
      (fun s _ => observe θ0 (fun (σ : Setoid (Fin n)) _ => open Classical in
        if σ i j then 1 else 0) s)
      (jointMean (pyPrior py) (fun st i => uniNormLpdf st (y i)) (nigLaw h0)
        fun (σ : Setoid (Fin n)) _ => open Classical in if σ i j then 1 else 0) ∧
    Neal8Average (nnigEnv y draw fun h _ _ => h) (fun st i => uniNormLpdf st (y i))
      (pyScores (fun h i => nnigMargLpdf h (y i)) py) nigLaw K n m h0 θ0 (Measure.dirac ())
      (fun s _ => observe θ0 (fun (σ : Setoid (Fin n)) _ => open Classical in
        if σ i j then 1 else 0) s)
      (jointMean (pyPrior py) (fun st i => uniNormLpdf st (y i)) (nigLaw h0)
        fun (σ : Setoid (Fin n)) _ => open Classical in if σ i j then 1 else 0) ∧
    Neal2Average (nnigEnv y draw fun h _ _ => h) (fun st i => uniNormLpdf st (y i))
      (pyScores (fun h i => nnigMargLpdf h (y i)) py) nigLaw K n h0 θ0 (Measure.dirac ())
      (fun s _ => densityAt pyOps py (fun st i => uniNormLpdf st (y i))
        (fun h i => nnigMargLpdf h (y i)) n s)
      (predictiveDens (pyPrior py) (fun st i => uniNormLpdf st (y i)) (nigLaw h0) n) ∧
    Neal8Average (nnigEnv y draw fun h _ _ => h) (fun st i => uniNormLpdf st (y i))
      (pyScores (fun h i => nnigMargLpdf h (y i)) py) nigLaw K n m h0 θ0 (valueDraws nigLaw)
      (densityDraw8 pyOps py (fun st i => uniNormLpdf st (y i)) (m + 1) n)
      (predictiveDens (pyPrior py) (fun st i => uniNormLpdf st (y i)) (nigLaw h0) n) := by
  classical
  haveI : Nonempty UniLS := ⟨θ0⟩
  have h1 := c118_pitman_yor _ (fun _ _ _ => rfl) (by simp [nnigEnv]) _ _ nigLaw NigValid
    (nnig_conjugate y draw fun h _ _ => h) hpy K n m hn hK hKn h0 hv θ0
    (fun σ _ => if σ i j then 1 else 0) (fun σ => measurable_const) 1 ENNReal.one_ne_top
    (fun σ x => by split <;> simp)
  have h2 := c118_density_pitman_yor _ (fun _ _ _ => rfl) (by simp [nnigEnv]) _ _ nigLaw NigValid
    (nnig_conjugate y draw fun h _ _ => h) hpy K n m hn hK hKn h0 hv θ0
  exact ⟨by convert h1.1, by convert h1.2, h2.1, h2.2⟩

/-- Three rows, two initial clusters, two auxiliary blocks: after 1000 iterations of burn-in the
probability that the average of the density estimates over 100 states is off by at least 1/2. -/
example (y : ℕ → ℝ) (draw : NIG → ℕ → UniLS) (θ0 : UniLS) (zi : InitNoise)
    (o a1 a2 : Hier (ℝ × ℝ) NIG UniLS) (ho : o.saved = false) :
    haveI : Nonempty UniLS := ⟨θ0⟩
    ∃ C : ℝ, ∃ s0, initAlloc (nnigEnv y draw fun h _ _ => h) false 2 3 ⟨0, 1, 2, 1⟩ θ0 zi [o] = .ok s0 ∧
      averageProb (neal8IterMean (nnigEnv y draw fun h _ _ => h) (fun st i => uniNormLpdf st (y i))
        (pyScores (fun h i => nnigMargLpdf h (y i)) ⟨1, 1 / 2⟩) nigLaw 3) (valueDraws nigLaw)
        (fun s => densityDraw8 pyOps ⟨1, 1 / 2⟩ (fun st i => uniNormLpdf st (y i)) 2 3 s.base) 1100 1000
        {t | 1 / 2 ≤ |t - predictiveDens (pyPrior ⟨1, 1 / 2⟩) (fun st i => uniNormLpdf st (y i))
          (nigLaw ⟨0, 1, 2, 1⟩) 3|} ⟨s0, [a1, a2]⟩ ≤ ENNReal.ofReal (C / 25) := by
  haveI : Nonempty UniLS := ⟨θ0⟩
  obtain ⟨C, -, h⟩ := (c118_nnig y draw (a := 1) (b := 1 / 2) (py := ⟨1, 1 / 2⟩)
    (by norm_num [pyInit]) 2 3 1 (by omega) (by omega) (by omega) ⟨0, 1, 2, 1⟩
    (by norm_num [NigValid]) θ0 0 1).2.2.2
  obtain ⟨s0, e, h⟩ := h zi o [a1, a2] (by simp [Hier.CacheOk, ho]) rfl
  refine ⟨C, s0, e, (h 1100 1000 (by omega) (1 / 2) (by norm_num)).trans (le_of_eq ?_)⟩
  norm_num

/-- **C118, linear regression, density estimates.** The grid point is the value `y n` with covariates
`x n`. -/
theorem c118_linreg {d : ℕ} (y : ℕ → ℝ) (x : ℕ → Fin d → ℝ) (draw : MNIG d → ℕ → UniLinRegLS d)
    {a b : ℝ} {py : PYState} (hpy : pyInit a b = .ok py) (K n m : ℕ) (hn : 2 ≤ n) (hK : 0 < K)
    (hKn : K ≤ n) (h0 : MNIG d) (hv : MnigValid h0) (θ0 : UniLinRegLS d) :
    haveI : Nonempty (UniLinRegLS d) := ⟨θ0⟩
    Neal2Average (linRegEnv y x draw fun h _ _ => h) (fun st i => linRegLpdf st (y i) (x i))
      (pyScores (fun h i => linRegMargLpdf h (y i) (x i)) py) mnigLaw K n h0 θ0 (Measure.dirac ())
      (fun s _ => densityAt pyOps py (fun st i => linRegLpdf st (y i) (x i))
        (fun h i => linRegMargLpdf h (y i) (x i)) n s)
      (predictiveDens (pyPrior py) (fun st i => linRegLpdf st (y i) (x i)) (mnigLaw h0) n) ∧
    Neal8Average (linRegEnv y x draw fun h _ _ => h) (fun st i => linRegLpdf st (y i) (x i))
      (pyScores (fun h i => linRegMargLpdf h (y i) (x i)) py) mnigLaw K n m h0 θ0 (valueDraws mnigLaw)
      (densityDraw8 pyOps py (fun st i => linRegLpdf st (y i) (x i)) (m + 1) n)
      (predictiveDens (pyPrior py) (fun st i => linRegLpdf st (y i) (x i)) (mnigLaw h0) n) := by
  haveI : Nonempty (UniLinRegLS d) := ⟨θ0⟩
  exact c118_density_pitman_yor _ (fun _ _ _ => rfl) (by simp [linRegEnv]) _ _ mnigLaw MnigValid
    (linReg_conjugate y x draw _) hpy K n m hn hK hKn h0 hv θ0

example (y : ℕ → ℝ) (x : ℕ → Fin 2 → ℝ) (draw : MNIG 2 → ℕ → UniLinRegLS 2) (θ0 : UniLinRegLS 2) :
    haveI : Nonempty (UniLinRegLS 2) := ⟨θ0⟩
    Neal2Average (linRegEnv y x draw fun h _ _ => h) (fun st i => linRegLpdf st (y i) (x i))
      (pyScores (fun h i => linRegMargLpdf h (y i) (x i)) ⟨1, 1 / 2⟩) mnigLaw 2 3 exMNIG θ0
      (Measure.dirac ())
      (fun s _ => densityAt pyOps ⟨1, 1 / 2⟩ (fun st i => linRegLpdf st (y i) (x i))
        (fun h i => linRegMargLpdf h (y i) (x i)) 3 s)
      (predictiveDens (pyPrior ⟨1, 1 / 2⟩) (fun st i => linRegLpdf st (y i) (x i)) (mnigLaw exMNIG) 3) :=
  (c118_linreg y x draw (a := 1) (b := 1 / 2) (by norm_num [pyInit]) 2 3 2 (by omega) (by omega)
    (by omega) exMNIG (mnigInit_pos exMNIG_valid) θ0).1

/-! ### Dirichlet process -/

/-- **C118, Dirichlet process, what averages converge to**: posterior means with total mass one; for
density estimates, of the density with the configured total mass. -/
theorem c118_dirichlet_partial (E : Env G H Θ) (hfix : ∀ h l r, E.hyperUpdate h l r = h)
    (hk : E.kind = .conjugate) (like : Θ → ℕ → ℝ) (pred : H → ℕ → ℝ) (ν : H → Measure Θ) (V : H → Prop)
    (C : Conjugate E like pred ν V) {prior : DPPrior} {dp : DPState} (hdp : DPRun prior dp) (K n m : ℕ)
    (hn : 2 ≤ n) (hK : 0 < K) (hKn : K ≤ n) (h0 : H) (hv : V h0) (θ0 : Θ)
    (φ : Setoid (Fin n) → (Fin n → Θ) → ℝ≥0∞) (hφ : ∀ σ, Measurable (φ σ)) (M : ℝ≥0∞) (hM : M ≠ ∞)
    (hle : ∀ σ x, φ σ x ≤ M) :
    (Neal2Average E like (dpScores pred dp) ν K n h0 θ0 (Measure.dirac ())
        (fun s _ => observe θ0 φ s) (jointMean (dpPrior 1) like (ν h0) φ) ∧
      Neal8Average E like (dpScores pred dp) ν K n m h0 θ0 (Measure.dirac ())
        (fun s _ => observe θ0 φ s) (jointMean (dpPrior 1) like (ν h0) φ)) ∧
    ∃ t : ℝ, Neal2Average E like (dpScores pred dp) ν K n h0 θ0 (Measure.dirac ())
        (fun s _ => densityAt dpOps (dpSetState dp.totalmass) like pred n s) t ∧
      Neal8Average E like (dpScores pred dp) ν K n m h0 θ0 (valueDraws ν)
        (densityDraw8 dpOps (dpSetState dp.totalmass) like (m + 1) n) t ∧
      t = jointMean (n := n) (dpPrior 1) like (ν h0)
        (mixDens (fun c => (c : ℝ) / (n + dp.totalmass)) (fun _ => dp.totalmass / (n + dp.totalmass))
          like (ENNReal.ofReal (Real.exp (pred h0 n)))) ∧
      (dp.totalmass = 1 → t = predictiveDens (dpPrior dp.totalmass) like (ν h0) n) := by
  have hp := (C.row h0 n hv).prior
  have hα := hdp.pos.1
  have hO := dp_neal2Ok E hfix (by simp [hk]) C hdp hn hv
  have hO8 := dp_neal8Ok E hfix (by simp [hk]) C hdp hn hv
  have hs := square_bounded (C.clusters hv) hφ hM hle
  have h1 := hO.average hk hK hKn θ0 hs (est := fun s _ => observe θ0 φ s)
    fun σ A x s hs _ => reads_observable θ0 φ σ A x s hs
  have h2 := hO8.average hk hK hKn m θ0 hs (est := fun s _ => observe θ0 φ s)
    fun σ A x s hs _ => reads_observable θ0 φ σ A x s hs
  rw [overDraw_unit] at h1 h2
  have h3 := density_average hO hO8 hk hK hKn m θ0 C hv (M := dpOps) (st := dpSetState dp.totalmass)
    fun σ A x s hs marg mdens h1 h2 => estimate_dp hs (by omega) hα like h1 h2
  refine ⟨⟨h1, h2⟩, _, h3.1, h3.2, rfl, fun e => ?_⟩
  rw [e]
  exact dp_predictive one_pos hn C.meas (pred_int (C.row h0 n hv))

/-- Total mass two, three rows: the average number of times the first two rows are together. -/
example (y : ℕ → ℝ) (draw : NIG → ℕ → UniLS) (θ0 : UniLS) :
    haveI : Nonempty UniLS := ⟨θ0⟩
    Neal2Average (nnigEnv y draw fun h _ _ => h) (fun st i => uniNormLpdf st (y i))
      (dpScores (fun h i => nnigMargLpdf h (y i)) ⟨2, 0⟩) nigLaw 1 3 ⟨0, 1, 2, 1⟩ θ0 (Measure.dirac ())
      (fun s _ => observe θ0 (fun (σ : Setoid (Fin 3)) _ => open Classical in
        if σ 0 1 then 1 else 0) s)
      (jointMean (dpPrior 1) (fun st i => uniNormLpdf st (y i)) (nigLaw ⟨0, 1, 2, 1⟩)
        fun (σ : Setoid (Fin 3)) _ => open Classical in if σ 0 1 then 1 else 0) := by
  classical
  haveI : Nonempty UniLS := ⟨θ0⟩
  have h := (c118_dirichlet_partial _ (fun _ _ _ => rfl) (by simp [nnigEnv]) _ _ nigLaw
    NigValid (nnig_conjugate y draw fun h _ _ => h) (prior := .fixed 2) (dp := ⟨2, 0⟩)
    (.init (by norm_num [dpInit, dpFresh])) 1 3 2
    (by omega) (by omega) (by omega) ⟨0, 1, 2, 1⟩ (by norm_num [NigValid]) θ0
    (fun σ _ => if σ 0 1 then 1 else 0) (fun σ => measurable_const) 1 ENNReal.one_ne_top
    (fun σ x => by split <;> simp)).1.1
  convert h

/-- **C118, Dirichlet process, violation.** If the configured total mass is not one, averages are not
consistent: for some set of partitions the probability that the fraction of stored partitions in the
set comes within `γ` of the posterior probability of the set goes to zero. -/
theorem c118_dirichlet_violated (E : Env G H Θ) (hfix : ∀ h l r, E.hyperUpdate h l r = h)
    (hk : E.kind = .conjugate) (like : Θ → ℕ → ℝ) (pred : H → ℕ → ℝ) (ν : H → Measure Θ) (V : H → Prop)
    (C : Conjugate E like pred ν V) {prior : DPPrior} {dp : DPState} (hdp : DPRun prior dp)
    (hmass : dp.totalmass ≠ 1) (K n m : ℕ) (hn : 2 ≤ n) (hK : 0 < K) (hKn : K ≤ n) (h0 : H) (hv : V h0)
    (θ0 : Θ) :
    ∃ (A : Finset (Setoid (Fin n))) (γ c : ℝ), 0 < γ ∧
      ∀ (zi : InitNoise) (o : Hier G H Θ) (aux : List (Hier G H Θ)), o.CacheOk → aux.length = m + 1 →
        ∃ s0, initAlloc E false K n h0 θ0 zi [o] = .ok s0 ∧ ∀ maxiter burnin : ℕ, burnin < maxiter →
          averageProb (neal2IterMean E like (dpScores pred dp) ν n) (Measure.dirac ())
            (fun s _ => observe θ0 (fun σ _ => open Classical in if σ ∈ A then 1 else 0) s)
            maxiter burnin {t | |t - jointMean (dpPrior dp.totalmass) like (ν h0)
              (fun σ _ => open Classical in if σ ∈ A then 1 else 0)| ≤ γ} s0 ≤
            ENNReal.ofReal (c / (maxiter - burnin)) ∧
          averageProb (neal8IterMean E like (dpScores pred dp) ν n) (Measure.dirac ())
            (fun s _ => observe θ0 (fun σ _ => open Classical in if σ ∈ A then 1 else 0) s.base)
            maxiter burnin {t | |t - jointMean (dpPrior dp.totalmass) like (ν h0)
              (fun σ _ => open Classical in if σ ∈ A then 1 else 0)| ≤ γ} ⟨s0, aux⟩ ≤
            ENNReal.ofReal (c / (maxiter - burnin)) := by
  classical
  have hα := hdp.pos.1
  obtain ⟨α, hαd⟩ : ∃ α, α = dp.totalmass := ⟨_, rfl⟩
  rw [← hαd] at hα hmass ⊢
  obtain ⟨l, hld⟩ : ∃ l : Finset ℕ → ℝ, l = fun D => Real.log (intLik like (ν h0) D) := ⟨_, rfl⟩
  have e : ∀ β, mixPosterior (dpPrior β) like (ν h0) = dpPosterior β l := fun β => by
    rw [hld]
    exact funext fun al => (posterior_mix C hv _ _ al).symm
  obtain ⟨A, hA⟩ := dp_posterior_ne l hn hα hmass
  have e1 := jointMean_part C hv (prior := dpPrior 1) (dpPrior_pos one_pos hn) A
  have eα := jointMean_part C hv (prior := dpPrior α) (dpPrior_pos hα hn) A
  rw [e] at e1 eα
  rw [← e1, ← eα] at hA
  obtain ⟨φ, hφd⟩ : ∃ φ : Setoid (Fin n) → (Fin n → Θ) → ℝ≥0∞,
    φ = fun σ _ => if σ ∈ A then 1 else 0 := ⟨_, rfl⟩
  rw [← hφd] at hA
  have hs := square_bounded (M := 1) (C.clusters hv) (φ := φ) (fun σ => by rw [hφd]; exact measurable_const)
    ENNReal.one_ne_top (fun σ x => by rw [hφd]; dsimp only; split <;> simp)
  obtain ⟨c1, hc1, h1⟩ := (dp_neal2Ok E hfix (by simp [hk]) C hdp hn hv).average_away hk hK hKn θ0 hs
    (est := fun s _ => observe θ0 φ s) (fun σ A x s hs _ => reads_observable θ0 φ σ A x s hs)
    (L := jointMean (dpPrior 1) like (ν h0) φ) (by rw [overDraw_unit])
  obtain ⟨c2, hc2, h2⟩ := (dp_neal8Ok E hfix (by simp [hk]) C hdp hn hv).average_away hk hK hKn m θ0 hs
    (est := fun s _ => observe θ0 φ s) (fun σ A x s hs _ => reads_observable θ0 φ σ A x s hs)
    (L := jointMean (dpPrior 1) like (ν h0) φ) (by rw [overDraw_unit])
  obtain ⟨γ, hγ⟩ : ∃ γ, γ = |jointMean (dpPrior 1) like (ν h0) φ -
    jointMean (dpPrior α) like (ν h0) φ| / 2 := ⟨_, rfl⟩
  have hγ0 : 0 < γ := by
    rw [hγ]
    exact half_pos (abs_pos.mpr (sub_ne_zero.mpr hA))
  obtain ⟨D, hD⟩ : ∃ D : Set ℝ, D = {t | |t - jointMean (dpPrior α) like (ν h0) φ| ≤ γ} := ⟨_, rfl⟩
  have hDm : MeasurableSet D := by
    rw [hD]
    exact measurableSet_le (measurable_id.sub_const _).abs measurable_const
  have hDγ : ∀ t ∈ D, γ ≤ |t - jointMean (dpPrior 1) like (ν h0) φ| := by
    intro t ht
    rw [hD] at ht
    have h7 := abs_sub_le (jointMean (dpPrior 1) like (ν h0) φ) t (jointMean (dpPrior α) like (ν h0) φ)
    rw [abs_sub_comm _ t] at h7
    have : |t - jointMean (dpPrior α) like (ν h0) φ| ≤ γ := ht
    linarith
  refine ⟨A, γ, (c1 + c2) / γ ^ 2, hγ0, fun zi o aux ho haux => ?_⟩
  obtain ⟨s0, i1, h1⟩ := h1 zi o ho
  obtain ⟨s1, i2, h2⟩ := h2 zi o aux ho haux
  obtain rfl : s0 = s1 := Except.ok.inj (i1.symm.trans i2)
  refine ⟨s0, i1, fun maxiter burnin hlt => ?_⟩
  have hN : (0 : ℝ) < maxiter - burnin := sub_pos.mpr (by exact_mod_cast hlt)
  have hb : ∀ c : ℝ, c ≤ c1 + c2 → ENNReal.ofReal (c / ((maxiter - burnin) * γ ^ 2)) ≤
      ENNReal.ofReal ((c1 + c2) / γ ^ 2 / (maxiter - burnin)) := by
    intro c hc
    refine ENNReal.ofReal_le_ofReal ?_
    rw [div_div, mul_comm (γ ^ 2)]
    exact div_le_div_of_nonneg_right hc (by positivity)
  have g1 := (h1 maxiter burnin hlt γ hγ0 D hDm hDγ).trans (hb c1 (by linarith))
  have g2 := (h2 maxiter burnin hlt γ hγ0 D hDm hDγ).trans (hb c2 (by linarith))
  rw [hD, hφd] at g1 g2
  refine ⟨?_, ?_⟩
  · convert g1
  · convert g2

/-- Total mass two, three rows. -/
example (y : ℕ → ℝ) (draw : NIG → ℕ → UniLS) (θ0 : UniLS) (zi : InitNoise)
    (o : Hier (ℝ × ℝ) NIG UniLS) (ho : o.saved = false) :
    haveI : Nonempty UniLS := ⟨θ0⟩
    ∃ (A : Finset (Setoid (Fin 3))) (γ c : ℝ), 0 < γ ∧ ∃ s0,
      initAlloc (nnigEnv y draw fun h _ _ => h) false 1 3 ⟨0, 1, 2, 1⟩ θ0 zi [o] = .ok s0 ∧
      averageProb (neal2IterMean (nnigEnv y draw fun h _ _ => h) (fun st i => uniNormLpdf st (y i))
        (dpScores (fun h i => nnigMargLpdf h (y i)) ⟨2, 0⟩) nigLaw 3) (Measure.dirac ())
        (fun s _ => observe θ0 (fun (σ : Setoid (Fin 3)) _ => open Classical in
          if σ ∈ A then 1 else 0) s) 1100 1000
        {t | |t - jointMean (dpPrior 2) (fun st i => uniNormLpdf st (y i)) (nigLaw ⟨0, 1, 2, 1⟩)
          (fun (σ : Setoid (Fin 3)) _ => open Classical in if σ ∈ A then 1 else 0)| ≤ γ} s0 ≤
        ENNReal.ofReal (c / 100) := by
  haveI : Nonempty UniLS := ⟨θ0⟩
  obtain ⟨A, γ, c, h0, h⟩ := c118_dirichlet_violated _ (fun _ _ _ => rfl) (by simp [nnigEnv]) _ _ nigLaw
    NigValid (nnig_conjugate y draw fun h _ _ => h) (prior := .fixed 2) (dp := ⟨2, 0⟩)
    (.init (by norm_num [dpInit, dpFresh])) (by norm_num) 1 3 0
    (by omega) (by omega) (by omega) ⟨0, 1, 2, 1⟩ (by norm_num [NigValid]) θ0
  obtain ⟨s0, e, h⟩ := h zi o [o] (by simp [Hier.CacheOk, ho]) rfl
  refine ⟨A, γ, c, h0, s0, e, ((h 1100 1000 (by omega)).1).trans (le_of_eq ?_)⟩
  norm_num

end Bayesmix.Chain
