import Verif.Algo.Predictive
import Verif.Algo.PropsDensity
import Verif.Algo.Neal8Iter

/-!
# Density estimates along runs of Neal2 and Neal8

`MarginalAlgorithm::lpdf_from_state` on the states of a run. Grid points are rows beyond the data:
`like θ x` is the log density of a cluster with value `θ` at grid point `x`.
-/

namespace Bayesmix.Chain
open Bayesmix Cond Gibbs SplitMerge Slice Mixing Density Hierarchies MeasureTheory ENNReal

variable {G H Θ : Type} [AddCommGroup G] {n : ℕ}

/-- `like_lpdf_grid` of the saved clusters (`src/algorithms/marginal_algorithm.cc` 42-46). -/
noncomputable def clusterLpdf (like : Θ → ℕ → ℝ) (s : Alg G H Θ) (j x : ℕ) : EReal :=
  match s.clus[j]? with
  | some o => ((like o.state x : ℝ) : EReal)
  | none => ⊥

/-- The exponential of the estimate that `lpdf_from_state` computes at grid point `x` for state `s`
(`src/algorithms/marginal_algorithm.cc` 22-56), with the log density `marg` of a new cluster. Infinite
if something fails. -/
noncomputable def estimateAt {T : Type} (M : MixOps T) (st : T) (like : Θ → ℕ → ℝ) (marg : ℕ → EReal)
    (x : ℕ) (s : Alg G H Θ) : ℝ≥0∞ :=
  match marginalLpdf M st s.clus.length s.alloc.length (s.clus.map fun o => o.card.toNat)
      (clusterLpdf like s) marg [x] with
  | .ok ([v], _) => ENNReal.ofReal (stdExp v)
  | _ => ∞

/-- The estimate of Neal2 and Neal3: `lpdf_marginal_component` is the prior predictive density
(`src/algorithms/neal2_algorithm.cc` 70-74). -/
noncomputable def densityAt {T : Type} (M : MixOps T) (st : T) (like : Θ → ℕ → ℝ) (pred : H → ℕ → ℝ)
    (x : ℕ) (s : Alg G H Θ) : ℝ≥0∞ :=
  estimateAt M st like (fun x => ((pred s.hyp x : ℝ) : EReal)) x s

/-- The mean of the estimate of Neal8 over the values drawn from the prior by
`lpdf_marginal_component` (`src/algorithms/neal8_algorithm.cc` 92-106). -/
noncomputable def densityAt8 {T : Type} [MeasurableSpace Θ] [Nonempty Θ] (M : MixOps T) (st : T)
    (like : Θ → ℕ → ℝ) (ν : H → Measure Θ) (nAux x : ℕ) (s : Alg G H Θ) : ℝ≥0∞ :=
  ∫⁻ draw, estimateAt M st like
    (neal8Marginal nAux fun j x => ((like (draw (s.hyp, j)) x : ℝ) : EReal)) x s ∂valueDraws ν

theorem isLogOf_coe (r : ℝ) : IsLogOf (r : EReal) (Real.exp r) :=
  Or.inl ⟨Real.exp_pos r, by rw [Real.log_exp]⟩

/-- The clusters of a state are the blocks of its partition. -/
theorem Seen.blocks {E : Env G H Θ} {h : H} {σ : Setoid (Fin n)} {A : Finset (Fin n)} {x : Fin n → Θ}
    {s : Alg G H Θ} (hs : Seen E h σ A x s) : ∃ e : Quotient σ ≃ Fin s.clus.length, ∀ q,
      (s.clus[(e q).val]).card = ((blockRows σ q).card : ℤ) ∧ (s.clus[(e q).val]).state = x q.out := by
  obtain ⟨K, hK⟩ : ∃ K, K = s.clus.length := ⟨_, rfl⟩
  have hlab : ∀ j : Fin n, ∃ c : Fin s.clus.length, s.alloc[j.val]? = some c.val := by
    intro j
    obtain ⟨c, hc, hlt⟩ := hs.ok.cons.on.labelled j (Finset.mem_range.mpr j.isLt)
    exact ⟨⟨c, hlt⟩, hc⟩
  choose lab hlabs using hlab
  have hrel : ∀ a b, lab a = lab b ↔ σ a b := by
    intro a b
    rw [← hs.part, partOf_rel, together, hlabs, hlabs]
    constructor
    · exact fun e => by rw [e]
    · exact fun e => Fin.ext (Option.some.inj e)
  obtain ⟨e, he⟩ : ∃ e : Quotient σ → Fin s.clus.length,
    e = Quotient.lift lab fun a b h => (hrel a b).mpr h := ⟨_, rfl⟩
  have hinj : Function.Injective e := by
    rw [he]
    intro p q
    refine Quotient.inductionOn₂ p q fun a b h => ?_
    exact Quotient.sound ((hrel a b).mp h)
  have hmk : ∀ j, e (Quotient.mk σ j) = lab j := fun j => by rw [he]; rfl
  have hsurj : Function.Surjective e := by
    intro k
    obtain ⟨y, hy, hl⟩ := hs.ok.noEmpty k.val k.isLt
    refine ⟨Quotient.mk σ ⟨y, Finset.mem_range.mp hy⟩, ?_⟩
    rw [hmk]
    have := hlabs ⟨y, Finset.mem_range.mp hy⟩
    rw [hl] at this
    exact Fin.ext (Option.some.inj this).symm
  have hmem : ∀ q : Quotient σ, membersIn (Finset.range n) s.alloc (e q).val = blockRows σ q := by
    intro q
    ext y
    rw [mem_membersIn, Finset.mem_range]
    constructor
    · rintro ⟨hy, hl⟩
      rw [show y = (⟨y, hy⟩ : Fin n).val from rfl, mem_blockRows]
      refine hinj ?_
      rw [hmk]
      have := hlabs ⟨y, hy⟩
      rw [hl] at this
      exact Fin.ext (Option.some.inj this).symm
    · intro hy
      have hyn : y < n := by
        unfold blockRows at hy
        obtain ⟨k, -, rfl⟩ := Finset.mem_map.mp hy
        exact k.isLt
      rw [show y = (⟨y, hyn⟩ : Fin n).val from rfl, mem_blockRows] at hy
      refine ⟨hyn, ?_⟩
      rw [← hy, hmk]
      exact hlabs ⟨y, hyn⟩
  refine ⟨Equiv.ofBijective e ⟨hinj, hsurj⟩, fun q => ⟨?_, ?_⟩⟩
  · rw [hs.ok.cons.on.cards _ _ (List.getElem?_eq_getElem _)]
    exact congrArg _ (congrArg _ (hmem q))
  · have hi := hs.info q.out
    unfold infoOf at hi
    have hq : lab q.out = e q := by rw [← hmk, Quotient.out_eq]
    rw [hlabs q.out, Option.bind_some, hq, List.getElem?_eq_getElem (e q).isLt, Option.map_some] at hi
    exact (Prod.mk.inj (Option.some.inj hi)).1

/-- What an estimate is in terms of partition and values, given that the code computes a mixture with
weights `ce` and `cn`. -/
theorem estimate_seen {E : Env G H Θ} {h : H} {σ : Setoid (Fin n)} {A : Finset (Fin n)} {x : Fin n → Θ}
    {s : Alg G H Θ} (hs : Seen E h σ A x s) {T : Type} {M : MixOps T} {st st' : T} {like : Θ → ℕ → ℝ}
    {marg : ℕ → EReal} {mdens : ℕ → ℝ} {ce cn : ℕ → ℝ} {F : ℕ → EReal} (hm : 0 ≤ mdens n)
    (hF : ∀ grid, marginalLpdf M st s.clus.length s.alloc.length (s.clus.map fun o => o.card.toNat)
      (clusterLpdf like s) marg grid = .ok (grid.map F, st'))
    (hmix : IsMixtureEstimate F ((s.clus.map fun o => o.card.toNat).map ce) (cn s.clus.length)
      (fun j x => if h : j < s.clus.length then Real.exp (like s.clus[j].state x) else 0) mdens) :
    estimateAt M st like marg n s = mixDens ce cn like (ENNReal.ofReal (mdens n)) σ x := by
  obtain ⟨e, he⟩ := hs.blocks
  have hv : estimateAt M st like marg n s = ENNReal.ofReal (stdExp (F n)) := by
    unfold estimateAt
    rw [hF]
    rfl
  have hw : ∀ j (hj : j < s.clus.length),
      ((s.clus.map fun o => o.card.toNat).map ce).getD j 0 = ce (s.clus[j].card.toNat) := by
    intro j hj
    simp [hj]
  have hpos : ∀ j (hj : j < s.clus.length), 0 ≤ ce (s.clus[j].card.toNat) := fun j hj =>
    hmix.nonneg _ (List.mem_map.mpr ⟨_, List.mem_map.mpr ⟨_, List.getElem_mem hj, rfl⟩, rfl⟩)
  rw [hv, stdExp_of_isLogOf (hmix.value n)]
  unfold mixture mixDens
  rw [List.length_map, List.length_map, Finset.sum_range]
  have hterm : ∀ j : Fin s.clus.length, ((s.clus.map fun o => o.card.toNat).map ce).getD j.val 0 *
      (if h : j.val < s.clus.length then Real.exp (like s.clus[j.val].state n) else 0) =
      ce (s.clus[j.val].card.toNat) * Real.exp (like s.clus[j.val].state n) := by
    intro j
    rw [hw _ j.isLt, dif_pos j.isLt]
  rw [Finset.sum_congr rfl fun j _ => hterm j]
  have hnn : ∀ j : Fin s.clus.length,
      0 ≤ ce (s.clus[j.val].card.toNat) * Real.exp (like s.clus[j.val].state n) := fun j =>
    mul_nonneg (hpos _ j.isLt) (Real.exp_pos _).le
  rw [ENNReal.ofReal_add (Finset.sum_nonneg fun j _ => hnn j) (mul_nonneg hmix.newNonneg hm),
    ENNReal.ofReal_mul hmix.newNonneg, ENNReal.ofReal_sum_of_nonneg fun j _ => hnn j, ← e.sum_comp,
    show Fintype.card (Quotient σ) = s.clus.length by rw [Fintype.card_congr e, Fintype.card_fin]]
  congr 1
  refine Finset.sum_congr rfl fun q _ => ?_
  rw [ENNReal.ofReal_mul (hpos _ _), (he q).1, (he q).2, Int.toNat_natCast]

theorem clusterLpdf_isLogOf (like : Θ → ℕ → ℝ) (s : Alg G H Θ) (j x : ℕ) :
    IsLogOf (clusterLpdf like s j x)
      (if h : j < s.clus.length then Real.exp (like s.clus[j].state x) else 0) := by
  unfold clusterLpdf
  by_cases hj : j < s.clus.length
  · rw [List.getElem?_eq_getElem hj, dif_pos hj]
    exact isLogOf_coe _
  · rw [List.getElem?_eq_none (by omega), dif_neg hj]
    exact Or.inr ⟨rfl, rfl⟩

theorem Seen.cards {E : Env G H Θ} {h : H} {σ : Setoid (Fin n)} {A : Finset (Fin n)} {x : Fin n → Θ}
    {s : Alg G H Θ} (hs : Seen E h σ A x s) :
    (s.clus.map fun o => o.card.toNat).sum = s.alloc.length ∧
      ∀ c ∈ s.clus.map fun o => o.card.toNat, 0 < c :=
  ⟨by rw [hs.ok.cons.len]; exact (c54_saved_cards hs.ok).1, (c54_saved_cards hs.ok).2⟩

/-- Pitman-Yor process. -/
theorem estimate_py {E : Env G H Θ} {h : H} {σ : Setoid (Fin n)} {A : Finset (Fin n)} {x : Fin n → Θ}
    {s : Alg G H Θ} (hs : Seen E h σ A x s) (hn : 0 < n) {a b : ℝ} {py : PYState}
    (hpy : pyInit a b = .ok py) (like : Θ → ℕ → ℝ) {marg : ℕ → EReal} {mdens : ℕ → ℝ}
    (hg : ∀ x, IsLogOf (marg x) (mdens x)) (hm : 0 ≤ mdens n) :
    estimateAt pyOps py like marg n s = mixDens (fun c => ((c : ℝ) - b) / (n + a))
      (fun k => (a + b * k) / (n + a)) like (ENNReal.ofReal (mdens n)) σ x := by
  have hlen := hs.ok.cons.len
  obtain ⟨F, hF, hmix⟩ := c54_pitman_yor hpy (clus_pos hs.ok.cons hn) hs.cards.1
    (by rw [hlen]; exact hn) hs.cards.2 (clusterLpdf_isLogOf like s) hg
  rw [List.length_map, hlen] at hmix
  exact estimate_seen hs hm hF hmix

/-- Dirichlet process. -/
theorem estimate_dp {E : Env G H Θ} {h : H} {σ : Setoid (Fin n)} {A : Finset (Fin n)} {x : Fin n → Θ}
    {s : Alg G H Θ} (hs : Seen E h σ A x s) (hn : 0 < n) {α : ℝ} (hα : 0 < α) (like : Θ → ℕ → ℝ)
    {marg : ℕ → EReal} {mdens : ℕ → ℝ} (hg : ∀ x, IsLogOf (marg x) (mdens x)) (hm : 0 ≤ mdens n) :
    estimateAt dpOps (dpSetState α) like marg n s = mixDens (fun c => (c : ℝ) / (n + α))
      (fun _ => α / (n + α)) like (ENNReal.ofReal (mdens n)) σ x := by
  have hlen := hs.ok.cons.len
  obtain ⟨F, hF, hmix⟩ := c54_dirichlet hα (clus_pos hs.ok.cons hn) hs.cards.1
    (clusterLpdf_isLogOf like s) hg
  rw [hlen] at hmix
  exact estimate_seen (cn := fun _ => α / (n + α)) hs hm hF hmix

/-! ### Means of the densities -/

section means

variable [MeasurableSpace Θ]

/-- The mean of the mixture density over new values of the clusters is finite. -/
theorem mixDens_int {E : Env G H Θ} {like : Θ → ℕ → ℝ} {pred : H → ℕ → ℝ} {ν : H → Measure Θ}
    {V : H → Prop} (C : Conjugate E like pred ν V) {h : H} (hv : V h) (ce cn : ℕ → ℝ) {m : ℝ≥0∞}
    (hm : m ≠ ∞) (z : Spot n) :
    ∫⁻ y, mixDens ce cn like m z.1 y ∂valueLaw E ν h z ≠ ∞ := by
  have hp := valueLaw_prob (C.clusters hv) z
  have hV : ∀ q, V (blockHyp E h z q) := by
    intro q
    unfold blockHyp
    split
    · exact hv
    · exact C.post hv _ (blockRows_nonempty _ _)
  have hq : ∀ q, IsProbabilityMeasure (ν (blockHyp E h z q)) := blockHyp_prob (C.clusters hv) z
  have hme : Measurable fun θ : Θ => ENNReal.ofReal (Real.exp (like θ n)) :=
    ENNReal.measurable_ofReal.comp (Real.measurable_exp.comp (C.meas n))
  have hmq : ∀ q : Quotient z.1, Measurable fun y : Fin n → Θ =>
    ENNReal.ofReal (Real.exp (like (y q.out) n)) := fun q => hme.comp (measurable_pi_apply _)
  unfold mixDens
  rw [lintegral_add_right _ measurable_const, lintegral_const, measure_univ, mul_one,
    lintegral_finsetSum _ fun q _ => (hmq q).const_mul _]
  refine ENNReal.add_ne_top.mpr ⟨ENNReal.sum_ne_top.mpr fun q _ => ?_,
    ENNReal.mul_ne_top ENNReal.ofReal_ne_top hm⟩
  rw [lintegral_const_mul _ (hmq q)]
  refine ENNReal.mul_ne_top ENNReal.ofReal_ne_top ?_
  have h1 : ∫⁻ y : Fin n → Θ, ENNReal.ofReal (Real.exp (like (y q.out) n)) ∂valueLaw E ν h z =
      ∫⁻ θ, ENNReal.ofReal (Real.exp (like θ n)) ∂ν (blockHyp E h z (Quotient.mk z.1 q.out)) := by
    unfold valueLaw
    rw [lintegral_map (f := fun y : Fin n → Θ => ENNReal.ofReal (Real.exp (like (y q.out) n)))
      (hme.comp (measurable_pi_apply _)) (measurable_rows _)]
    exact (measurePreserving_eval (fun q : Quotient z.1 => ν (blockHyp E h z q))
      (Quotient.mk z.1 q.out)).lintegral_comp hme
  have h2 := (C.row _ n (hV (Quotient.mk z.1 q.out))).rule (fun _ => 1) measurable_const
  simp only [mul_one, lintegral_const] at h2
  have := (C.row _ n (hV (Quotient.mk z.1 q.out))).post
  rw [h1, h2, measure_univ]
  simp

variable {w : Setoid (Fin n) → ℝ} {like : Θ → ℕ → ℝ}
  {R : Fin n → (Spot n → (Fin n → Θ) → ℝ≥0∞) → Spot n → (Fin n → Θ) → ℝ≥0∞}

/-- Convergence of means of unbounded functions, integrable over new values of the clusters. -/
theorem RowsOk.converges_int {E : Env G H Θ} {ν : H → Measure Θ} {h : H}
    (hR : RowsOk w like (ν h) R) (hB : BayesClusters E like ν h)
    (hlike : ∀ i, Measurable fun θ => like θ i) (hw : ∀ σ, 0 < w σ) :
    ∃ δ : ℝ, 0 < δ ∧ δ ≤ 1 ∧ ∀ (Φ : Spot n → (Fin n → Θ) → ℝ≥0∞), MeasX Φ →
      (∀ z, ∫⁻ y, Φ z y ∂valueLaw E ν h z ≠ ∞) → ∃ b : ℝ, ∀ (k : ℕ) (z : Spot n) (y : Fin n → Θ),
        (iterOp E ν h R)^[k + 1] Φ z y ≠ ∞ ∧
        |((iterOp E ν h R)^[k + 1] Φ z y).toReal -
          (partPost w like (ν h) (fun σ y => Φ (σ, ∅) y) /
            partPost w like (ν h) (fun _ _ => 1)).toReal| ≤ b * (1 - δ) ^ k := by
  classical
  obtain ⟨δ, d0, d1, hδ⟩ := hR.converges hB hlike hw
  refine ⟨δ, d0, d1, fun Φ hΦ hfin => ?_⟩
  have hV := valueLaw_prob (n := n) hB
  obtain ⟨c, hc⟩ : ∃ c : ℝ≥0∞, c = 1 + ∑ z, ∫⁻ y, Φ z y ∂valueLaw E ν h z := ⟨_, rfl⟩
  have hc1 : c ≠ ∞ := by
    rw [hc]
    exact ENNReal.add_ne_top.mpr ⟨ENNReal.one_ne_top, ENNReal.sum_ne_top.mpr fun z _ => hfin z⟩
  have hc0 : c ≠ 0 := by
    rw [hc]
    exact (lt_of_lt_of_le one_pos le_self_add).ne'
  obtain ⟨Ψ, hΨ⟩ : ∃ Ψ : Spot n → (Fin n → Θ) → ℝ≥0∞,
    Ψ = fun z _ => c⁻¹ * ∫⁻ y, Φ z y ∂valueLaw E ν h z := ⟨_, rfl⟩
  have hΨm : MeasX Ψ := by
    rw [hΨ]
    exact fun z => measurable_const
  have hΨ1 : ∀ z y, Ψ z y ≤ 1 := by
    intro z y
    rw [hΨ]
    dsimp only
    rw [← ENNReal.inv_mul_cancel hc0 hc1]
    refine mul_le_mul_right (le_trans ?_ (hc ▸ le_add_self)) _
    exact Finset.single_le_sum (f := fun z => ∫⁻ y, Φ z y ∂valueLaw E ν h z) (fun _ _ => zero_le)
      (Finset.mem_univ z)
  have hcΨ : ∀ z, ∫⁻ y, Φ z y ∂valueLaw E ν h z = ∫⁻ y, c * Ψ z y ∂valueLaw E ν h z := by
    intro z
    have := hV z
    rw [hΨ]
    dsimp only
    rw [lintegral_const, measure_univ, mul_one, ← mul_assoc, ENNReal.mul_inv_cancel hc0 hc1, one_mul]
  have hst : Step (iterOp E ν h R) := by
    have hv : Step fun (Φ : Spot n → (Fin n → Θ) → ℝ≥0∞) z (_ : Fin n → Θ) =>
        ∫⁻ y, Φ z y ∂valueLaw E ν h z := by
      refine ⟨fun _ _ _ => measurable_const, fun Φ Ψ h1 _ z _ => lintegral_add_left (h1 z) _,
        fun c Φ h1 z _ => lintegral_const_mul _ (h1 z), fun z _ => ?_⟩
      have := hV z
      simp
    exact (hR.sweep_step (List.finRange n)).comp hv
  have hfirst : iterOp E ν h R Φ = iterOp E ν h R (fun z y => c * Ψ z y) := by
    unfold iterOp
    congr 1
    exact funext fun z => funext fun _ => hcΨ z
  have hit : ∀ k z y, (iterOp E ν h R)^[k + 1] Φ z y = c * (iterOp E ν h R)^[k + 1] Ψ z y := by
    have hm : ∀ k, MeasX ((iterOp E ν h R)^[k + 1] Ψ) := by
      intro k
      induction k with
      | zero => exact hst.meas Ψ hΨm
      | succ k ih =>
        rw [Function.iterate_succ_apply']
        exact hst.meas _ ih
    intro k
    induction k with
    | zero =>
      intro z y
      rw [zero_add, Function.iterate_one, hfirst]
      exact hst.mul c Ψ hΨm z y
    | succ k ih =>
      intro z y
      rw [Function.iterate_succ_apply', Function.iterate_succ_apply' _ _ Ψ,
        show (iterOp E ν h R)^[k + 1] Φ = fun z y => c * (iterOp E ν h R)^[k + 1] Ψ z y from
          funext fun z => funext fun y => ih z y]
      exact hst.mul c _ (hm k) z y
  obtain ⟨m, hm, hmp⟩ := partPost_values (n := n) (w := w) hB hlike hw
  have hpp : partPost w like (ν h) (fun σ y => Φ (σ, ∅) y) =
      c * partPost w like (ν h) (fun σ y => Ψ (σ, ∅) y) := by
    rw [hmp _ fun σ => hΦ (σ, ∅), hmp _ fun σ => hΨm (σ, ∅), Finset.mul_sum]
    refine Finset.sum_congr rfl fun σ _ => ?_
    rw [hcΨ, lintegral_const_mul _ (hΨm _)]
    ring
  refine ⟨c.toReal, fun k z y => ⟨?_, ?_⟩⟩
  · rw [hit]
    refine ENNReal.mul_ne_top hc1 (ne_top_of_le_ne_top ENNReal.one_ne_top ?_)
    exact iterOp_le_one hR hB hΨ1 (k + 1) z y
  · rw [hit, hpp, mul_div_assoc, ENNReal.toReal_mul, ENNReal.toReal_mul, ← mul_sub, abs_mul,
      abs_of_nonneg ENNReal.toReal_nonneg]
    exact mul_le_mul_of_nonneg_left (hδ Ψ hΨm hΨ1 k z y) ENNReal.toReal_nonneg

end means

/-! ### The component for a new cluster -/

section component

variable [MeasurableSpace Θ] [Nonempty Θ]

omit [AddCommGroup G] [Nonempty Θ] in
/-- The prior predictive density is a mean over the prior. -/
theorem pred_int {E : Env G H Θ} {like : Θ → ℕ → ℝ} {pred : H → ℕ → ℝ} {ν : H → Measure Θ}
    {h : H} {i : ℕ} (B : BayesRow E like pred ν h i) :
    ∫⁻ θ, ENNReal.ofReal (Real.exp (like θ i)) ∂ν h = ENNReal.ofReal (Real.exp (pred h i)) := by
  have h2 := B.rule (fun _ => 1) measurable_const
  have := B.post
  simpa using h2

omit [AddCommGroup G] in
/-- The mean over the draws of Neal8 is the prior predictive density. -/
theorem mixDens_draws {like : Θ → ℕ → ℝ} (hlike : ∀ i, Measurable fun θ => like θ i)
    {ν : H → Measure Θ} {h : H} (hp : IsProbabilityMeasure (ν h)) {nAux : ℕ} (hA : 0 < nAux)
    (ce cn : ℕ → ℝ) {m : ℝ≥0∞} (hm : ∫⁻ θ, ENNReal.ofReal (Real.exp (like θ n)) ∂ν h = m)
    (σ : Setoid (Fin n)) (x : Fin n → Θ) :
    ∫⁻ d, mixDens ce cn like (ENNReal.ofReal
      ((∑ j ∈ Finset.range nAux, Real.exp (like (d (h, j)) n)) / nAux)) σ x ∂valueDraws ν =
    mixDens ce cn like m σ x := by
  have hme : Measurable fun θ : Θ => ENNReal.ofReal (Real.exp (like θ n)) :=
    ENNReal.measurable_ofReal.comp (Real.measurable_exp.comp (hlike n))
  have hone : ∀ j : ℕ, ∫⁻ d, ENNReal.ofReal (Real.exp (like (d (h, j)) n)) ∂valueDraws ν = m := by
    intro j
    have e := (measurePreserving_eval_infinitePi (fun p : H × ℕ => properLaw (ν p.1))
      (h, j)).lintegral_comp hme
    rw [properLaw_eq hp, hm] at e
    exact e
  have hp1 : IsProbabilityMeasure (valueDraws ν) := by
    unfold valueDraws
    infer_instance
  have hmj : ∀ j : ℕ, Measurable fun d : H × ℕ → Θ => ENNReal.ofReal (Real.exp (like (d (h, j)) n)) :=
    fun j => hme.comp (measurable_pi_apply _)
  have hr : (nAux : ℝ) ≠ 0 := by exact_mod_cast hA.ne'
  have e1 : ∀ d : H × ℕ → Θ, ENNReal.ofReal
      ((∑ j ∈ Finset.range nAux, Real.exp (like (d (h, j)) n)) / nAux) =
      (nAux : ℝ≥0∞)⁻¹ * ∑ j ∈ Finset.range nAux, ENNReal.ofReal (Real.exp (like (d (h, j)) n)) := by
    intro d
    rw [ENNReal.ofReal_div_of_pos (by exact_mod_cast hA), ENNReal.ofReal_sum_of_nonneg
      fun _ _ => (Real.exp_pos _).le, ENNReal.ofReal_natCast, ENNReal.div_eq_inv_mul]
  unfold mixDens
  simp only [e1]
  rw [lintegral_add_left measurable_const, lintegral_const, measure_univ, mul_one,
    lintegral_const_mul _ ((Finset.measurable_sum _ fun j _ => hmj j).const_mul _),
    lintegral_const_mul _ (Finset.measurable_sum _ fun j _ => hmj j),
    lintegral_finsetSum _ fun j _ => hmj j]
  simp only [hone, Finset.sum_const, Finset.card_range, nsmul_eq_mul]
  rw [← mul_assoc (nAux : ℝ≥0∞)⁻¹, ENNReal.inv_mul_cancel (by exact_mod_cast hA.ne')
    (ENNReal.natCast_ne_top _), one_mul]

end component

end Bayesmix.Chain
