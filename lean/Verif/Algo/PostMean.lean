import Verif.Algo.SpotConv
import Verif.Algo.PropsNeal3Chain

/-!
# Posterior means of functions of partition and values
-/

namespace Bayesmix.Chain
open Bayesmix Cond Gibbs SplitMerge Slice Mixing Hierarchies MeasureTheory ENNReal

variable {G H Θ : Type} [AddCommGroup G] {n : ℕ} [MeasurableSpace Θ]

/-- Posterior mean of a function of the partition and of the values of the rows: a partition has prior
weight `prior`, the values of its blocks are independent with law `ν`, rows of a block share its value,
and row `i` has log density `like (value of row i) i`. -/
noncomputable def jointMean (prior : List ℕ → ℝ) (like : Θ → ℕ → ℝ) (ν : Measure Θ)
    (φ : Setoid (Fin n) → (Fin n → Θ) → ℝ≥0∞) : ℝ :=
  (partPost (weight prior) like ν φ / partPost (n := n) (weight prior) like ν fun _ _ => 1).toReal

/-- The posterior mean of a function of the partition alone is that under the posterior over
partitions, with integrated likelihoods. -/
theorem jointMean_part {E : Env G H Θ} {like : Θ → ℕ → ℝ} {pred : H → ℕ → ℝ} {ν : H → Measure Θ}
    {V : H → Prop} (C : Conjugate E like pred ν V) {h : H} (hv : V h) {prior : List ℕ → ℝ}
    (hpos : ∀ al : List ℕ, al.length = n → 0 < prior al) (A : Finset (Setoid (Fin n))) :
    jointMean prior like (ν h) (fun σ _ => open Classical in if σ ∈ A then 1 else 0) =
      postProb n (mixPosterior prior like (ν h)) A := by
  classical
  have hB := C.clusters hv
  have hp := hB.prior
  have hval : ∀ D : Finset ℕ, D.Nonempty →
      ∫⁻ θ, ENNReal.ofReal (∏ i ∈ D, Real.exp (like θ i)) ∂ν h = ENNReal.ofReal (intLik like (ν h) D) := by
    intro D hD
    obtain ⟨Z, z0, z1, hZ⟩ := hB.rule D hD
    have hp' := hB.post D hD
    have := hZ (fun _ => 1) measurable_const
    simp only [mul_one, lintegral_const, measure_univ] at this
    rw [intLik, this, ENNReal.ofReal_toReal z1]
  have hint : ∀ σ : Setoid (Fin n), ∫⁻ θ : Quotient σ → Θ,
      likOn like Finset.univ (fun i => θ (Quotient.mk σ i)) ∂Measure.pi (fun _ => ν h) =
      ∏ q : Quotient σ, ENNReal.ofReal (intLik like (ν h) (blockRows σ q)) := by
    intro σ
    choose Z hZ0 hZ1 hZ using hB.rule
    have hpost : ∀ q : Quotient σ, IsProbabilityMeasure (ν (E.post h (blockRows σ q).card
        (∑ i ∈ blockRows σ q, E.contrib i))) := fun q => hB.post _ (blockRows_nonempty σ q)
    have hL : ∀ q : Quotient σ, Measurable fun t : Θ =>
        ENNReal.ofReal (∏ i ∈ blockRows σ q, Real.exp (like t i)) := fun q =>
      ENNReal.measurable_ofReal.comp (Finset.measurable_prod _ fun i _ =>
        Real.measurable_exp.comp (C.meas i))
    have key := pi_bayes (fun _ : Quotient σ => ν h)
      (fun q => ν (E.post h (blockRows σ q).card (∑ i ∈ blockRows σ q, E.contrib i)))
      (fun q t => ENNReal.ofReal (∏ i ∈ blockRows σ q, Real.exp (like t i))) hL
      (fun q => Z (blockRows σ q) (blockRows_nonempty σ q)) (fun q => hZ1 _ _)
      (fun q φ hφ => hZ _ (blockRows_nonempty σ q) φ hφ)
      (φ := fun _ => 1) measurable_const
    simp only [mul_one, lintegral_const, measure_univ] at key
    rw [lintegral_congr fun θ : Quotient σ → Θ => likOn_blocks like σ θ, key]
    refine Finset.prod_congr rfl fun q _ => ?_
    have := hZ _ (blockRows_nonempty σ q) (fun _ => 1) measurable_const
    have hp' := hpost q
    simp only [mul_one, lintegral_const, measure_univ] at this
    rw [← this, hval _ (blockRows_nonempty σ q)]
  have hprod : ∀ σ : Setoid (Fin n), ∏ q : Quotient σ, intLik like (ν h) (blockRows σ q) =
      ∏ c ∈ (labelsOf σ).toFinset, intLik like (ν h)
        (membersIn (Finset.range (labelsOf σ).length) (labelsOf σ) c) := by
    intro σ
    have hlab : ∀ j : Fin n, (labelsOf σ)[j.val]? = some ((Quotient.mk σ j).out).val := by
      intro j
      rw [labelsOf, List.getElem?_ofFn, dif_pos j.isLt]
    refine Finset.prod_bij (fun q _ => q.out.val) (fun q _ => ?_) (fun q _ q' _ e => ?_) (fun c hc => ?_)
      fun q _ => ?_
    · rw [List.mem_toFinset, List.mem_iff_getElem?]
      exact ⟨q.out.val, by rw [hlab, Quotient.out_eq]⟩
    · have := Fin.ext e
      rw [← Quotient.out_eq q, ← Quotient.out_eq q', this]
    · rw [List.mem_toFinset, List.mem_iff_getElem?] at hc
      obtain ⟨j, hj⟩ := hc
      have hjn : j < n := by
        have := (List.getElem?_eq_some_iff.mp hj).1
        rwa [labelsOf_length] at this
      have := hlab ⟨j, hjn⟩
      dsimp only at this
      rw [this] at hj
      exact ⟨Quotient.mk σ ⟨j, hjn⟩, Finset.mem_univ _, Option.some.inj hj⟩
    · congr 1
      ext j
      rw [mem_membersIn, labelsOf_length, Finset.mem_range]
      constructor
      · intro hj
        unfold blockRows at hj
        rw [Finset.mem_map] at hj
        obtain ⟨i, hi, rfl⟩ := hj
        have hi' := (Finset.mem_filter.mp hi).2
        refine ⟨i.isLt, ?_⟩
        change (labelsOf σ)[i.val]? = _
        rw [hlab i, hi']
      · rintro ⟨hj, e⟩
        have e' := hlab ⟨j, hj⟩
        dsimp only at e'
        rw [e'] at e
        have e2 := Fin.ext (Option.some.inj e)
        have : (⟨j, hj⟩ : Fin n).val ∈ blockRows σ q := by
          rw [mem_blockRows, ← Quotient.out_eq q, ← e2, Quotient.out_eq]
        exact this
  have hw : ∀ σ : Setoid (Fin n), 0 < weight prior σ := fun σ => hpos _ (labelsOf_length σ)
  have hmix : ∀ σ : Setoid (Fin n), 0 < mixPosterior prior like (ν h) (labelsOf σ) := by
    intro σ
    rw [mixPosterior, ← hprod]
    exact mul_pos (hw σ) (Finset.prod_pos fun q _ => lik_pos C hv _ (blockRows_nonempty σ q))
  have hpp : ∀ A : Finset (Setoid (Fin n)), partPost (weight prior) like (ν h)
      (fun σ _ => if σ ∈ A then 1 else 0) =
      ENNReal.ofReal (∑ σ ∈ A, mixPosterior prior like (ν h) (labelsOf σ)) := by
    intro A
    have hnn : ∀ σ : Setoid (Fin n), ∀ q : Quotient σ, 0 ≤ intLik like (ν h) (blockRows σ q) :=
      fun σ q => ENNReal.toReal_nonneg
    have hterm : ∀ σ : Setoid (Fin n), ENNReal.ofReal (weight prior σ) *
        ∏ q : Quotient σ, ENNReal.ofReal (intLik like (ν h) (blockRows σ q)) =
        ENNReal.ofReal (mixPosterior prior like (ν h) (labelsOf σ)) := by
      intro σ
      rw [← ENNReal.ofReal_prod_of_nonneg fun q _ => hnn σ q, ← ENNReal.ofReal_mul (hw σ).le, hprod,
        mixPosterior, weight]
    rw [ENNReal.ofReal_sum_of_nonneg fun σ _ => (hmix σ).le,
      show ∑ σ ∈ A, ENNReal.ofReal (mixPosterior prior like (ν h) (labelsOf σ)) =
        ∑ σ ∈ Finset.univ.filter (fun σ => σ ∈ A),
          ENNReal.ofReal (mixPosterior prior like (ν h) (labelsOf σ)) by
        rw [Finset.filter_univ_mem]]
    unfold partPost
    rw [Finset.sum_filter]
    refine Finset.sum_congr rfl fun σ _ => ?_
    by_cases hA : σ ∈ A
    · simp only [hA, if_true, mul_one]
      rw [hint, hterm]
    · simp [hA]
  have hone : partPost (n := n) (weight prior) like (ν h) (fun _ _ => 1) =
      ENNReal.ofReal (∑ σ : Setoid (Fin n), mixPosterior prior like (ν h) (labelsOf σ)) := by
    rw [← hpp Finset.univ]
    simp
  have hsum : 0 < ∑ σ : Setoid (Fin n), mixPosterior prior like (ν h) (labelsOf σ) :=
    Finset.sum_pos (fun σ _ => hmix σ) Finset.univ_nonempty
  have e : (fun (σ : Setoid (Fin n)) (_ : Fin n → Θ) =>
      (open Classical in if σ ∈ A then (1 : ℝ≥0∞) else 0)) = fun σ _ => if σ ∈ A then 1 else 0 := by
    funext σ _
    congr
  unfold jointMean
  rw [e, hpp, hone, ← ENNReal.ofReal_div_of_pos hsum, ENNReal.toReal_ofReal, postProb]
  exact div_nonneg (Finset.sum_nonneg fun σ _ => (hmix σ).le) hsum.le

theorem partPost_mono {w : Setoid (Fin n) → ℝ} {like : Θ → ℕ → ℝ} {ν : Measure Θ}
    {Φ Ψ : Setoid (Fin n) → (Fin n → Θ) → ℝ≥0∞}
    (hle : ∀ (σ : Setoid (Fin n)) (θ : Quotient σ → Θ),
      Φ σ (fun i => θ (Quotient.mk σ i)) ≤ Ψ σ (fun i => θ (Quotient.mk σ i))) :
    partPost w like ν Φ ≤ partPost w like ν Ψ := by
  unfold partPost
  exact Finset.sum_le_sum fun σ _ => mul_le_mul_right (lintegral_mono fun θ =>
    mul_le_mul_right (hle σ θ) _) _

theorem partPost_const {w : Setoid (Fin n) → ℝ} {like : Θ → ℕ → ℝ} {ν : Measure Θ}
    (hlike : ∀ i, Measurable fun θ => like θ i) (c : ℝ≥0∞) :
    partPost w like ν (fun _ _ => c) = c * partPost w like ν fun _ _ => 1 := by
  unfold partPost
  rw [Finset.mul_sum]
  refine Finset.sum_congr rfl fun σ _ => ?_
  have hm : Measurable fun θ : Quotient σ → Θ =>
      likOn like Finset.univ (fun i => θ (Quotient.mk σ i)) :=
    (measurable_likOn hlike Finset.univ).comp (measurable_rows σ)
  dsimp only
  rw [lintegral_mul_const _ hm]
  simp only [mul_one]
  ring

/-- If a function differs little from a constant, so does its posterior mean. -/
theorem jointMean_near {E : Env G H Θ} {like : Θ → ℕ → ℝ} {ν : H → Measure Θ} {h : H}
    (hB : BayesClusters E like ν h) (hlike : ∀ i, Measurable fun θ => like θ i) {prior : List ℕ → ℝ}
    (hpos : ∀ al : List ℕ, al.length = n → 0 < prior al)
    {Φ : Setoid (Fin n) → (Fin n → Θ) → ℝ≥0∞} (hfin : ∀ σ y, Φ σ y ≠ ∞) {c ε : ℝ}
    (hc : ∀ σ y, |(Φ σ y).toReal - c| ≤ ε) : |jointMean prior like (ν h) Φ - c| ≤ ε := by
  have hw : ∀ σ : Setoid (Fin n), 0 < weight prior σ := fun σ => hpos _ (labelsOf_length σ)
  obtain ⟨m, hm, hmp⟩ := partPost_values (n := n) (w := weight prior) hB hlike hw
  have hV := valueLaw_prob (n := n) hB
  have hone : partPost (n := n) (weight prior) like (ν h) (fun _ _ => 1) = ∑ σ, m σ := by
    rw [hmp _ fun _ => measurable_const]
    exact Finset.sum_congr rfl fun σ _ => by simp
  have h0 : partPost (n := n) (weight prior) like (ν h) (fun _ _ => 1) ≠ 0 := by
    rw [hone]
    intro e
    exact (hm ⊥).1 ((Finset.sum_eq_zero_iff.mp e) ⊥ (Finset.mem_univ _))
  have h1 : partPost (n := n) (weight prior) like (ν h) (fun _ _ => 1) ≠ ∞ := by
    rw [hone]
    exact ENNReal.sum_ne_top.mpr fun σ _ => (hm σ).2
  have hup : partPost (weight prior) like (ν h) Φ ≤
      ENNReal.ofReal (c + ε) * partPost (n := n) (weight prior) like (ν h) fun _ _ => 1 := by
    rw [← partPost_const hlike]
    refine partPost_mono fun σ θ => ?_
    rw [← ENNReal.ofReal_toReal (hfin σ _)]
    exact ENNReal.ofReal_le_ofReal (by have := (abs_le.mp (hc σ fun i => θ (Quotient.mk σ i))).2; linarith)
  have hlo : ENNReal.ofReal (c - ε) * partPost (n := n) (weight prior) like (ν h) (fun _ _ => 1) ≤
      partPost (weight prior) like (ν h) Φ := by
    rw [← partPost_const hlike]
    refine partPost_mono fun σ θ => ?_
    rw [← ENNReal.ofReal_toReal (hfin σ _)]
    exact ENNReal.ofReal_le_ofReal (by have := (abs_le.mp (hc σ fun i => θ (Quotient.mk σ i))).1; linarith)
  have hd1 := ENNReal.div_le_of_le_mul hup
  have hd2 := (ENNReal.le_div_iff_mul_le (Or.inl h0) (Or.inl h1)).mpr hlo
  have hnn : 0 ≤ c + ε := by
    have hp := hB.prior
    obtain ⟨t⟩ := nonempty_of_isProbabilityMeasure (ν h)
    have := (abs_le.mp (hc ⊥ fun _ => t)).2
    have h2 := ENNReal.toReal_nonneg (a := Φ ⊥ fun _ => t)
    linarith
  unfold jointMean
  have e1 := ENNReal.toReal_mono ENNReal.ofReal_ne_top hd1
  rw [ENNReal.toReal_ofReal hnn] at e1
  have e2 := ENNReal.toReal_mono (ne_top_of_le_ne_top ENNReal.ofReal_ne_top hd1) hd2
  rw [abs_le]
  constructor
  · have := le_trans (le_max_left (c - ε) 0) (le_of_eq ENNReal.toReal_ofReal'.symm)
    linarith
  · linarith

end Bayesmix.Chain
