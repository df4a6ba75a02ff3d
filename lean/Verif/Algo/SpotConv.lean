import Verif.Algo.PartValues

/-!
# Convergence of samplers with unique values, seen through the partition
-/

namespace Bayesmix.Chain
open Bayesmix Cond Gibbs SplitMerge Slice MeasureTheory ENNReal

variable {G H Θ : Type} [AddCommGroup G] {n : ℕ}

/-- The spot after row `i` started a cluster. -/
noncomputable def spotAlone (z : Spot n) (i : Fin n) : Spot n :=
  (alone i z.1, mark i (alone i z.1) z.2)

/-- Starting a cluster for each row in turn separates all rows and removes all marks. -/
theorem spotAlone_all (z : Spot n) : (List.finRange n).foldl spotAlone z = (⊥, ∅) := by
  have key : ∀ (l : List (Fin n)) (z : Spot n) (D : Fin n → Prop),
      (∀ i, D i → (∀ j, z.1 i j → i = j) ∧ i ∉ z.2) →
      ∀ i, (D i ∨ i ∈ l) → (∀ j, (l.foldl spotAlone z).1 i j → i = j) ∧ i ∉ (l.foldl spotAlone z).2 := by
    intro l
    induction l with
    | nil =>
      intro z D hD i hi
      rcases hi with hi | hi
      · exact hD i hi
      · cases hi
    | cons k l ih =>
      intro z D hD i hi
      rw [List.foldl_cons]
      refine ih (spotAlone z k) (fun i => D i ∨ i = k) ?_ i ?_
      · intro i hi
        have h1 : ∀ j, (spotAlone z k).1 i j → i = j := by
          intro j hj
          rcases (alone_rel k z.1 i j).mp hj with e | ⟨hik, -, hr⟩
          · exact e
          · rcases hi with hi | hi
            · exact (hD i hi).1 j hr
            · exact absurd hi hik
        refine ⟨h1, fun hm => ?_⟩
        obtain ⟨a, ha, hak, hr⟩ := mem_mark.mp hm
        have e := h1 a (Setoid.symm' _ hr)
        subst e
        rcases hi with hi | hi
        · exact (hD i hi).2 ha
        · exact hak hi
      · rcases hi with hi | hi
        · exact Or.inl (Or.inl hi)
        · rcases List.mem_cons.mp hi with rfl | hi
          · exact Or.inl (Or.inr rfl)
          · exact Or.inr hi
  have h := key (List.finRange n) z (fun _ => False) (fun _ h => h.elim)
  refine Prod.ext ?_ ?_
  · refine Setoid.ext fun a b => ?_
    rw [Setoid.bot_def]
    constructor
    · exact (h a (Or.inr (List.mem_finRange a))).1 b
    · rintro rfl
      exact Setoid.refl' _ a
  · exact Finset.eq_empty_of_forall_notMem fun i => (h i (Or.inr (List.mem_finRange i))).2

/-- Row updates one after the other. -/
def sweepOp (R : Fin n → (Spot n → (Fin n → Θ) → ℝ≥0∞) → Spot n → (Fin n → Θ) → ℝ≥0∞) :
    List (Fin n) → (Spot n → (Fin n → Θ) → ℝ≥0∞) → Spot n → (Fin n → Θ) → ℝ≥0∞
  | [], Ψ => Ψ
  | i :: is, Ψ => R i (sweepOp R is Ψ)

variable [MeasurableSpace Θ]

/-- What is asked of the row updates: they are means, leave the posterior invariant, and can let the
row start a cluster. -/
structure RowsOk (w : Setoid (Fin n) → ℝ) (like : Θ → ℕ → ℝ) (ν : Measure Θ)
    (R : Fin n → (Spot n → (Fin n → Θ) → ℝ≥0∞) → Spot n → (Fin n → Θ) → ℝ≥0∞) : Prop where
  step : ∀ i, Step (R i)
  inv : ∀ i Ψ, MeasX Ψ → partPost w like ν (fun σ y => R i Ψ (σ, ∅) y) =
    partPost w like ν fun σ y => Ψ (σ, ∅) y
  reach : ∀ i Ψ z, MeasX Ψ → (∀ y, 0 < Ψ (spotAlone z i) y) → ∀ y, 0 < R i Ψ z y

variable {w : Setoid (Fin n) → ℝ} {like : Θ → ℕ → ℝ} {ν : Measure Θ}
  {R : Fin n → (Spot n → (Fin n → Θ) → ℝ≥0∞) → Spot n → (Fin n → Θ) → ℝ≥0∞}

theorem RowsOk.sweep_step (h : RowsOk w like ν R) (l : List (Fin n)) : Step (sweepOp R l) := by
  induction l with
  | nil => exact Step.id
  | cons i l ih => exact (h.step i).comp ih

theorem RowsOk.sweep_inv (h : RowsOk w like ν R) (l : List (Fin n))
    {Ψ : Spot n → (Fin n → Θ) → ℝ≥0∞} (hΨ : MeasX Ψ) :
    partPost w like ν (fun σ y => sweepOp R l Ψ (σ, ∅) y) =
      partPost w like ν fun σ y => Ψ (σ, ∅) y := by
  induction l with
  | nil => rfl
  | cons i l ih => exact (h.inv i _ ((h.sweep_step l).meas Ψ hΨ)).trans ih

theorem RowsOk.sweep_reach (h : RowsOk w like ν R) (l : List (Fin n))
    {Ψ : Spot n → (Fin n → Θ) → ℝ≥0∞} (hΨ : MeasX Ψ) (z : Spot n)
    (hpos : ∀ y, 0 < Ψ (l.foldl spotAlone z) y) : ∀ y, 0 < sweepOp R l Ψ z y := by
  induction l generalizing z with
  | nil => exact hpos
  | cons i l ih =>
    exact h.reach i _ z ((h.sweep_step l).meas Ψ hΨ) (ih (spotAlone z i) hpos)

/-! ### The posterior, arranged by partition -/

theorem likOn_blocks (like : Θ → ℕ → ℝ) (σ : Setoid (Fin n)) (θ : Quotient σ → Θ) :
    likOn like Finset.univ (fun i => θ (Quotient.mk σ i)) =
      ∏ q, ENNReal.ofReal (∏ i ∈ blockRows σ q, Real.exp (like (θ q) i)) := by
  classical
  rw [← ENNReal.ofReal_prod_of_nonneg fun q _ => Finset.prod_nonneg fun _ _ => (Real.exp_pos _).le]
  unfold likOn
  congr 1
  rw [← Finset.prod_fiberwise_of_maps_to (s := Finset.univ) (t := Finset.univ)
    (g := fun i : Fin n => Quotient.mk σ i) fun _ _ => Finset.mem_univ _]
  refine Finset.prod_congr rfl fun q _ => ?_
  unfold blockRows
  rw [Finset.prod_map]
  refine Finset.prod_congr ?_ fun i hi => ?_
  · ext i
    simp
  · dsimp only
    rw [(Finset.mem_filter.mp hi).2]
    rfl

/-- The posterior: weights for the partitions, values as `sample_unique_values` draws them if nothing
is stale. -/
theorem partPost_values {E : Env G H Θ} {ν : H → Measure Θ} {h : H} (hB : BayesClusters E like ν h)
    (hlike : ∀ i, Measurable fun θ => like θ i) (hw : ∀ σ, 0 < w σ) :
    ∃ m : Setoid (Fin n) → ℝ≥0∞, (∀ σ, m σ ≠ 0 ∧ m σ ≠ ∞) ∧
      ∀ Φ, MeasP Φ → partPost w like (ν h) Φ =
        ∑ σ, m σ * ∫⁻ y, Φ σ y ∂valueLaw E ν h (σ, ∅) := by
  have hp := hB.prior
  choose Z hZ0 hZ1 hZ using hB.rule
  refine ⟨fun σ => ENNReal.ofReal (w σ) * ∏ q : Quotient σ, Z (blockRows σ q) (blockRows_nonempty σ q),
    fun σ => ⟨?_, ?_⟩, fun Φ hΦ => ?_⟩
  · exact mul_ne_zero (ENNReal.ofReal_pos.mpr (hw σ)).ne'
      (Finset.prod_ne_zero_iff.mpr fun q _ => hZ0 _ _)
  · exact ENNReal.mul_ne_top ENNReal.ofReal_ne_top (ENNReal.prod_ne_top fun q _ => hZ1 _ _)
  · unfold partPost
    refine Finset.sum_congr rfl fun σ _ => ?_
    rw [mul_assoc]
    congr 1
    unfold valueLaw
    rw [lintegral_map (hΦ σ) (measurable_rows _)]
    have hpost : ∀ q : Quotient σ, IsProbabilityMeasure (ν (E.post h (blockRows σ q).card
        (∑ i ∈ blockRows σ q, E.contrib i))) := fun q => hB.post _ (blockRows_nonempty σ q)
    have hL : ∀ q : Quotient σ, Measurable fun t : Θ =>
        ENNReal.ofReal (∏ i ∈ blockRows σ q, Real.exp (like t i)) := fun q =>
      ENNReal.measurable_ofReal.comp (Finset.measurable_prod _ fun i _ =>
        Real.measurable_exp.comp (hlike i))
    have key := pi_bayes (fun _ : Quotient σ => ν h)
      (fun q => ν (E.post h (blockRows σ q).card (∑ i ∈ blockRows σ q, E.contrib i)))
      (fun q t => ENNReal.ofReal (∏ i ∈ blockRows σ q, Real.exp (like t i))) hL
      (fun q => Z (blockRows σ q) (blockRows_nonempty σ q)) (fun q => hZ1 _ _)
      (fun q φ hφ => hZ _ (blockRows_nonempty σ q) φ hφ)
      (φ := fun θ => Φ σ fun i => θ (Quotient.mk σ i)) ((hΦ σ).comp (measurable_rows σ))
    have e : (fun q : Quotient σ => ν (blockHyp E h (σ, ∅) q)) = fun q =>
        ν (E.post h (blockRows σ q).card (∑ i ∈ blockRows σ q, E.contrib i)) := by
      funext q
      simp [blockHyp]
    dsimp only at e ⊢
    rw [e, ← key]
    exact lintegral_congr fun θ => by rw [likOn_blocks]

/-- **Convergence.** Row updates for all rows and new values, repeated, from every start. -/
theorem RowsOk.converges {E : Env G H Θ} {ν : H → Measure Θ} {h : H}
    (hR : RowsOk w like (ν h) R) (hB : BayesClusters E like ν h)
    (hlike : ∀ i, Measurable fun θ => like θ i) (hw : ∀ σ, 0 < w σ) :
    ∃ δ : ℝ, 0 < δ ∧ δ ≤ 1 ∧ ∀ (Φ : Spot n → (Fin n → Θ) → ℝ≥0∞), MeasX Φ → (∀ z y, Φ z y ≤ 1) →
      ∀ (k : ℕ) (z : Spot n) (y : Fin n → Θ),
      |(((fun Ψ => sweepOp R (List.finRange n) fun z _ => ∫⁻ y, Ψ z y ∂valueLaw E ν h z)^[k + 1])
          Φ z y).toReal -
        (partPost w like (ν h) (fun σ y => Φ (σ, ∅) y) /
          partPost w like (ν h) (fun _ _ => 1)).toReal| ≤ (1 - δ) ^ k := by
  classical
  have hV := valueLaw_prob (n := n) hB
  obtain ⟨m, hm, hmp⟩ := partPost_values (n := n) (w := w) hB hlike hw
  obtain ⟨m', hm'⟩ : ∃ m' : Spot n → ℝ≥0∞, m' = fun z => if z.2 = ∅ then m z.1 else 0 := ⟨_, rfl⟩
  have hsum : ∀ F : Spot n → ℝ≥0∞, ∑ z, m' z * F z = ∑ σ, m σ * F (σ, ∅) := by
    intro F
    rw [Fintype.sum_prod_type]
    refine Finset.sum_congr rfl fun σ _ => ?_
    rw [Finset.sum_eq_single ∅]
    · simp [hm']
    · intro A _ hA
      simp [hm', hA]
    · exact fun h => absurd (Finset.mem_univ _) h
  have hpp : ∀ Ψ : Spot n → (Fin n → Θ) → ℝ≥0∞, MeasX Ψ →
      ∑ z, m' z * ∫⁻ y, Ψ z y ∂valueLaw E ν h z = partPost w like (ν h) fun σ y => Ψ (σ, ∅) y := by
    intro Ψ hΨ
    rw [hsum fun z => ∫⁻ y, Ψ z y ∂valueLaw E ν h z, hmp _ fun σ => hΨ (σ, ∅)]
  have hone : ∑ z, m' z = partPost w like (ν h) fun _ _ => 1 := by
    rw [← hpp (fun _ _ => 1) fun _ => measurable_const]
    refine Finset.sum_congr rfl fun z _ => ?_
    simp
  have h0 : ∑ z, m' z = ∑ σ, m σ := by
    have := hsum fun _ => 1
    simpa using this
  have hz0 : ∑ z, m' z ≠ 0 := by
    rw [h0]
    intro e
    have := (Finset.sum_eq_zero_iff.mp e) ⊥ (Finset.mem_univ _)
    exact (hm ⊥).1 this
  have hz1 : ∑ z, m' z ≠ ∞ := by
    rw [h0]
    exact ENNReal.sum_ne_top.mpr fun σ _ => (hm σ).2
  have hst := hR.sweep_step (List.finRange n)
  obtain ⟨δ, d0, d1, hδ⟩ := hst.converges (V := valueLaw E ν h) hV hz0 hz1
    (fun Φ hΦ => by rw [hpp _ (hst.meas Φ hΦ), hpp _ hΦ, hR.sweep_inv _ hΦ]) (z0 := (⊥, ∅))
    (fun z y => hR.sweep_reach (List.finRange n) (measX_ind _) z (fun y => by
      rw [spotAlone_all]
      simp [ind]) y)
  refine ⟨δ, d0, d1, fun Φ hΦm hΦ k z y => ?_⟩
  have := hδ Φ hΦ k z y
  rwa [hpp Φ hΦm, hone] at this

/-- The posterior is invariant under row updates for all rows and new values. -/
theorem RowsOk.invariant {E : Env G H Θ} {ν : H → Measure Θ} {h : H}
    (hR : RowsOk w like (ν h) R) (hB : BayesClusters E like ν h)
    (hlike : ∀ i, Measurable fun θ => like θ i) (hw : ∀ σ, 0 < w σ)
    {Φ : Spot n → (Fin n → Θ) → ℝ≥0∞} (hΦ : MeasX Φ) :
    partPost w like (ν h) (fun σ y => sweepOp R (List.finRange n)
      (fun z _ => ∫⁻ y, Φ z y ∂valueLaw E ν h z) (σ, ∅) y) =
      partPost w like (ν h) fun σ y => Φ (σ, ∅) y := by
  have hV := valueLaw_prob (n := n) hB
  obtain ⟨m, hm, hmp⟩ := partPost_values (n := n) (w := w) hB hlike hw
  rw [hR.sweep_inv _ (Ψ := fun z _ => ∫⁻ y, Φ z y ∂valueLaw E ν h z) fun _ => measurable_const,
    hmp _ fun _ => measurable_const, hmp _ fun σ => hΦ (σ, ∅)]
  refine Finset.sum_congr rfl fun σ _ => ?_
  have := hV (σ, ∅)
  rw [lintegral_const, measure_univ, mul_one]

/-! ### The update of Neal2 -/

theorem rowOp_rows [IsProbabilityMeasure ν] (hlike : ∀ i, Measurable fun θ => like θ i)
    (hw : ∀ σ, 0 < w σ) (hok : FlowOk w like ν) :
    RowsOk w like ν (rowOp w like ν) := by
  classical
  have hsw : ∀ (τ : Setoid (Fin n)) (A : Finset (Fin n)) (i : Fin n)
      (Ψ : Spot n → (Fin n → Θ) → ℝ≥0∞), MeasX Ψ →
      MeasP fun τ y => Ψ (τ, mark i τ A) y := fun _ _ _ _ hΨ τ => hΨ _
  have hupd : ∀ (x : Fin n → Θ) (i : Fin n), Measurable fun t : Θ => Function.update x i t := by
    intro x i
    refine measurable_pi_iff.mpr fun j => ?_
    by_cases hj : j = i
    · subst hj
      simpa using measurable_id'
    · simp only [Function.update_of_ne hj]
      exact measurable_const
  refine ⟨fun i => ⟨?_, ?_, ?_, ?_⟩, ?_, ?_⟩
  · intro Φ hΦ z
    exact MeasP.row hlike i (hsw z.1 z.2 i Φ hΦ) z.1
  · intro Φ Ψ hΦ hΨ z y
    unfold rowOp rowKernel
    rw [← ENNReal.add_div]
    congr 1
    unfold rowFlow
    have hm1 : Measurable fun t : Θ => ENNReal.ofReal (Real.exp (like t i)) *
        Φ (alone i z.1, mark i (alone i z.1) z.2) (Function.update y i t) :=
      (measurable_expLike hlike i).mul ((hΦ _).comp (hupd y i))
    simp only [mul_add]
    rw [lintegral_add_left hm1, mul_add, Finset.sum_add_distrib]
    ring
  · intro c Φ hΦ z y
    unfold rowOp rowKernel
    rw [← mul_div_assoc]
    congr 1
    unfold rowFlow
    have hm1 : Measurable fun t : Θ => ENNReal.ofReal (Real.exp (like t i)) *
        Φ (alone i z.1, mark i (alone i z.1) z.2) (Function.update y i t) :=
      (measurable_expLike hlike i).mul ((hΦ _).comp (hupd y i))
    rw [mul_add, Finset.mul_sum]
    congr 1
    · exact Finset.sum_congr rfl fun τ _ => by ring
    · rw [← mul_assoc, mul_comm c, mul_assoc, ← lintegral_const_mul _ hm1]
      congr 1
      exact lintegral_congr fun t => by ring
  · intro z y
    exact ENNReal.div_self (hok i z.1 y).1 (hok i z.1 y).2
  · intro i Ψ hΨ
    have := row_invariant hlike hok i (Φ := fun τ y => Ψ (τ, mark i τ ∅) y) (hsw ⊥ ∅ i Ψ hΨ)
    simp only [mark_empty] at this
    rw [← this]
    unfold rowOp
    simp only [mark_empty]
  · intro i Ψ z hΨ hpos y
    unfold rowOp rowKernel
    refine ENNReal.div_pos ?_ (hok i z.1 y).2
    unfold rowFlow
    have hm1 : Measurable fun t : Θ => ENNReal.ofReal (Real.exp (like t i)) *
        Ψ (alone i z.1, mark i (alone i z.1) z.2) (Function.update y i t) :=
      (measurable_expLike hlike i).mul ((hΨ _).comp (hupd y i))
    have hint : ∫⁻ t, ENNReal.ofReal (Real.exp (like t i)) *
        Ψ (alone i z.1, mark i (alone i z.1) z.2) (Function.update y i t) ∂ν ≠ 0 := by
      rw [← pos_iff_ne_zero, lintegral_pos_iff_support hm1]
      have : Function.support (fun t : Θ => ENNReal.ofReal (Real.exp (like t i)) *
          Ψ (alone i z.1, mark i (alone i z.1) z.2) (Function.update y i t)) = Set.univ := by
        ext t
        simp only [Function.mem_support, Set.mem_univ, iff_true]
        exact mul_ne_zero (ENNReal.ofReal_pos.mpr (Real.exp_pos _)).ne' (hpos _).ne'
      rw [this]
      simp
    intro e
    exact mul_ne_zero (ENNReal.ofReal_pos.mpr (hw _)).ne' hint (add_eq_zero.mp e).2

end Bayesmix.Chain
