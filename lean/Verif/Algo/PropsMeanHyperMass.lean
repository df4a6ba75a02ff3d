import Verif.Algo.PropsMeanHyper

/-!
# C138: with a total mass other than one the joint posterior of the configured model is not kept
-/

namespace Bayesmix.Chain
open Bayesmix Cond Gibbs SplitMerge Slice Mixing Hierarchies MeasureTheory ENNReal

section weights

variable {n : ℕ}

theorem labels_card_bot : (labelsOf (⊥ : Setoid (Fin n))).toFinset.card = n := by
  have hnd : (labelsOf (⊥ : Setoid (Fin n))).Nodup := by
    rw [List.nodup_iff_injective_getElem]
    intro a b hab
    have hl := labelsOf_length (⊥ : Setoid (Fin n))
    have : partOf n (labelsOf (⊥ : Setoid (Fin n))) ⟨a, by omega⟩ ⟨b, by omega⟩ := by
      rw [partOf_rel, together]
      simp only [List.getElem?_eq_getElem a.isLt, List.getElem?_eq_getElem b.isLt]
      exact congrArg some hab
    rw [partOf_labelsOf] at this
    exact Fin.ext (Fin.mk.inj (Setoid.bot_def ▸ this))
  rw [List.toFinset_card_of_nodup hnd, labelsOf_length]

theorem labels_card_le (σ : Setoid (Fin n)) : (labelsOf σ).toFinset.card ≤ n :=
  (List.toFinset_card_le _).trans (labelsOf_length σ).le

theorem labels_card_top (hn : 2 ≤ n) : (labelsOf (⊤ : Setoid (Fin n))).toFinset.card < n := by
  refine lt_of_le_of_ne (labels_card_le _) fun h => ?_
  have hl := labelsOf_length (⊤ : Setoid (Fin n))
  have hnd : (labelsOf (⊤ : Setoid (Fin n))).Nodup := by
    rw [← Multiset.coe_nodup, ← Multiset.toFinset_card_eq_card_iff_nodup]
    simpa [hl] using h
  have ht : partOf n (labelsOf (⊤ : Setoid (Fin n))) ⟨0, by omega⟩ ⟨1, by omega⟩ := by
    rw [partOf_labelsOf]
    trivial
  rw [partOf_rel, together] at ht
  simp only [List.getElem?_eq_getElem (show 0 < (labelsOf (⊤ : Setoid (Fin n))).length by omega),
    List.getElem?_eq_getElem (show 1 < (labelsOf (⊤ : Setoid (Fin n))).length by omega),
    Option.some.injEq] at ht
  have := (List.Nodup.getElem_inj_iff hnd).mp ht
  omega

/-- The prior with total mass `α` is the prior with total mass one, tilted by `α` to the number of
blocks. -/
theorem dp_tilt {α : ℝ} (hα : 0 < α) (hn : 0 < n) : ∃ κ : ℝ, 0 < κ ∧ ∀ σ : Setoid (Fin n),
    weight (dpPrior α) σ = κ * α ^ ((labelsOf σ).toFinset.card - 1) * weight (dpPrior 1) σ := by
  have hA : ∀ β k, pyA ⟨β, 0⟩ k = β ^ (k - 1) := by
    intro β k
    simp [pyA]
  refine ⟨(pyD ⟨α, 0⟩ n)⁻¹ * pyD ⟨1, 0⟩ n, mul_pos (inv_pos.mpr (pyD_pos (by simp only; linarith) n))
    (pyD_pos (by norm_num) n), fun σ => ?_⟩
  have hD := (pyD_pos (st := ⟨1, 0⟩) (by norm_num) n).ne'
  rw [weight, weight, dpPrior_prod hα hn _ (labelsOf_length σ), dpPrior_prod one_pos hn _ (labelsOf_length σ),
    prodPost, prodPost, hA, hA, one_pow]
  field_simp

end weights

/-- One over the likelihood of the values, if every row is alone. -/
noncomputable def loneFn {n : ℕ} (y : ℕ → ℝ) :
    NIG → Setoid (Fin n) → (Fin n → UniLS) → ℝ≥0∞ := fun _ σ x => open Classical in
  if σ = ⊥ then (likOn (fun st i => uniNormLpdf st (y i)) Finset.univ x)⁻¹ else 0

section lone

variable {n : ℕ} {y : ℕ → ℝ} {mu00 sig200 lam sh sc : ℝ} {Z : Type} [MeasurableSpace Z]
  {ζ : Measure Z} {gen : Z → ℝ → ℝ → ℝ} {draw : NIG → ℕ → UniLS} {S : Scores NIG}

theorem loneFn_meas : MeasH lam sh sc (loneFn (n := n) y) := by
  classical
  intro σ
  unfold loneFn
  by_cases h : σ = ⊥
  · simp only [h, if_true]
    exact ((measurable_likOn (fun i => measurable_uniNormLpdf (y i)) Finset.univ).comp
      measurable_snd).inv
  · simp only [h, if_false]
    exact measurable_const

theorem loneFn_part (hl : 0 < lam) (ha : 0 < sh) (hb : 0 < sc) (prior : List ℕ → ℝ) (m : ℝ) :
    partPost (weight prior) (fun st i => uniNormLpdf st (y i)) (nigLaw ⟨m, lam, sh, sc⟩)
      (loneFn (n := n) y ⟨m, lam, sh, sc⟩) = ENNReal.ofReal (weight prior (⊥ : Setoid (Fin n))) := by
  classical
  haveI : Nonempty UniLS := ⟨⟨0, 1⟩⟩
  have := nigLaw_prob ⟨m, lam, sh, sc⟩ hl ha hb
  unfold partPost loneFn
  rw [Finset.sum_eq_single ⊥]
  · simp only [if_true]
    have e : ∀ θ : Quotient (⊥ : Setoid (Fin n)) → UniLS,
        likOn (fun st i => uniNormLpdf st (y i)) Finset.univ
          (fun i => θ (Quotient.mk (⊥ : Setoid (Fin n)) i)) *
        (likOn (fun st i => uniNormLpdf st (y i)) Finset.univ
          (fun i => θ (Quotient.mk (⊥ : Setoid (Fin n)) i)))⁻¹ = 1 := fun θ =>
      ENNReal.mul_inv_cancel (likOn_ne _ _ _).1 (likOn_ne _ _ _).2
    simp only [e, lintegral_const, measure_univ, mul_one]
  · intro σ _ h
    simp [h]
  · exact fun h => absurd (Finset.mem_univ _) h

theorem loneFn_posterior (hs : 0 < sig200) (hl : 0 < lam) (ha : 0 < sh) (hb : 0 < sc)
    (prior : List ℕ → ℝ) :
    meanPosterior y prior mu00 sig200 lam sh sc (loneFn (n := n) y) =
      ENNReal.ofReal (weight prior (⊥ : Setoid (Fin n))) := by
  have := normalLaw_prob mu00 hs
  unfold meanPosterior
  simp only [loneFn_part hl ha hb, lintegral_const, measure_univ, mul_one]

/-- Two priors that differ by a strict tilt to the number of blocks are not both kept. -/
theorem not_both_kept (hn : 2 ≤ n) (hs : 0 < sig200) (hl : 0 < lam) (ha : 0 < sh) (hb : 0 < sc)
    {α : ℝ} (hα : 0 < α) (hmass : α ≠ 1) {θ0 : UniLS} {after : Alg (ℝ × ℝ) NIG UniLS → ℝ≥0∞}
    {M M1 : NIG → Setoid (Fin n) → (Fin n → UniLS) → ℝ≥0∞}
    (h1 : KeepsMean y draw (dpPrior 1) mu00 sig200 lam sh sc θ0 after (loneFn y) M1)
    (hM : KeepsMean y draw (dpPrior α) mu00 sig200 lam sh sc θ0 after (loneFn y) M)
    (hpos : ∀ m s, Clean (plainEnv y draw) n ⟨m, lam, sh, sc⟩ s → 0 < after s) : False := by
  classical
  haveI : Nonempty UniLS := ⟨⟨0, 1⟩⟩
  have hN := normalLaw_prob mu00 hs
  have heq : ∀ m σ (θ : Quotient σ → UniLS),
      M ⟨m, lam, sh, sc⟩ σ (fun j => θ (Quotient.mk σ j)) =
        M1 ⟨m, lam, sh, sc⟩ σ (fun j => θ (Quotient.mk σ j)) ∧
      0 < M1 ⟨m, lam, sh, sc⟩ σ (fun j => θ (Quotient.mk σ j)) := by
    intro m σ θ
    obtain ⟨s, hc, rfl, hv⟩ := h1.reach m σ θ
    have e1 := h1.step m s hc
    have e2 := hM.step m s hc
    have hp := hpos m s hc
    rw [observeH_clean hc, hv] at e1 e2
    exact ⟨e2.symm.trans e1, e1 ▸ hp⟩
  obtain ⟨A, hA⟩ : ∃ A : ℝ → Setoid (Fin n) → ℝ≥0∞, A = fun m σ => ∫⁻ θ : Quotient σ → UniLS,
    likOn (fun st i => uniNormLpdf st (y i)) Finset.univ (fun i => θ (Quotient.mk σ i)) *
      M1 ⟨m, lam, sh, sc⟩ σ (fun i => θ (Quotient.mk σ i))
      ∂Measure.pi fun _ => nigLaw ⟨m, lam, sh, sc⟩ := ⟨_, rfl⟩
  have hP : ∀ (prior : List ℕ → ℝ) m, partPost (weight prior) (fun st i => uniNormLpdf st (y i))
      (nigLaw ⟨m, lam, sh, sc⟩) (M1 ⟨m, lam, sh, sc⟩) =
      ∑ σ : Setoid (Fin n), ENNReal.ofReal (weight prior σ) * A m σ := by
    intro prior m
    rw [hA]
    rfl
  have hP' : ∀ m, partPost (weight (dpPrior α)) (fun st i => uniNormLpdf st (y i))
      (nigLaw ⟨m, lam, sh, sc⟩) (M ⟨m, lam, sh, sc⟩) =
      ∑ σ : Setoid (Fin n), ENNReal.ofReal (weight (dpPrior α) σ) * A m σ := by
    intro m
    rw [← hP]
    unfold partPost
    refine Finset.sum_congr rfl fun σ _ => ?_
    congr 1
    exact lintegral_congr fun θ => by rw [(heq m σ θ).1]
  have hApos : ∀ m, A m ⊤ ≠ 0 := by
    intro m
    have := nigLaw_prob ⟨m, lam, sh, sc⟩ hl ha hb
    rw [hA]
    dsimp only
    intro e
    have hrow := measurable_rows (Θ := UniLS) (⊤ : Setoid (Fin n))
    have hmm : Measurable fun θ : Quotient (⊤ : Setoid (Fin n)) → UniLS =>
        likOn (fun st i => uniNormLpdf st (y i)) Finset.univ (fun i => θ (Quotient.mk ⊤ i)) *
          M1 ⟨m, lam, sh, sc⟩ ⊤ (fun i => θ (Quotient.mk ⊤ i)) :=
      ((measurable_likOn (fun i => measurable_uniNormLpdf (y i)) Finset.univ).comp hrow).mul
        ((h1.meas m ⊤).comp hrow)
    rw [lintegral_eq_zero_iff hmm] at e
    obtain ⟨θ, hθ⟩ := e.exists
    exact (mul_ne_zero (likOn_ne _ _ _).1 (heq m ⊤ θ).2.ne') hθ
  have w1 : ∀ σ : Setoid (Fin n), 0 < weight (dpPrior 1) σ := by
    intro σ
    rw [weight, dpPrior_prod one_pos (by omega : 0 < n) _ (labelsOf_length σ)]
    exact mul_pos (inv_pos.mpr (pyD_pos (by norm_num) n))
      (mul_pos (pyA_pos (by norm_num) le_rfl _) (Finset.prod_pos fun c _ => pyB_pos one_pos _))
  obtain ⟨κ, hκ, htilt⟩ := dp_tilt (n := n) hα (by omega)
  obtain ⟨F, hF⟩ : ∃ F : ℝ → ℝ≥0∞, F = fun m =>
    ∑ σ : Setoid (Fin n), ENNReal.ofReal (weight (dpPrior α) σ) * A m σ := ⟨_, rfl⟩
  obtain ⟨F1, hF1⟩ : ∃ F1 : ℝ → ℝ≥0∞, F1 = fun m => ENNReal.ofReal (κ * α ^ (n - 1)) *
    ∑ σ : Setoid (Fin n), ENNReal.ofReal (weight (dpPrior 1) σ) * A m σ := ⟨_, rfl⟩
  have mF : Measurable F := by
    rw [hF]
    simpa only [hP'] using hM.measMean
  have mS : Measurable fun m =>
      ∑ σ : Setoid (Fin n), ENNReal.ofReal (weight (dpPrior 1) σ) * A m σ := by
    simpa only [hP] using h1.measMean
  have mF1 : Measurable F1 := by
    rw [hF1]
    exact mS.const_mul _
  have iF : ∫⁻ m, F m ∂normalLaw mu00 (Real.sqrt sig200) =
      ENNReal.ofReal (weight (dpPrior α) (⊥ : Setoid (Fin n))) := by
    have := hM.same
    rw [loneFn_posterior hs hl ha hb, meanPosterior] at this
    simpa only [hP', hF] using this
  have iS : ∫⁻ m, ∑ σ : Setoid (Fin n), ENNReal.ofReal (weight (dpPrior 1) σ) * A m σ
      ∂normalLaw mu00 (Real.sqrt sig200) =
      ENNReal.ofReal (weight (dpPrior 1) (⊥ : Setoid (Fin n))) := by
    have := h1.same
    rw [loneFn_posterior hs hl ha hb, meanPosterior] at this
    simpa only [hP] using this
  have iF1 : ∫⁻ m, F1 m ∂normalLaw mu00 (Real.sqrt sig200) =
      ENNReal.ofReal (weight (dpPrior α) (⊥ : Setoid (Fin n))) := by
    rw [hF1, lintegral_const_mul _ mS, iS, htilt ⊥, labels_card_bot,
      ← ENNReal.ofReal_mul (mul_pos hκ (pow_pos hα _)).le]
  have hfin : ∀ᵐ m ∂normalLaw mu00 (Real.sqrt sig200), ∀ σ, A m σ ≠ ∞ := by
    have := ae_lt_top mS (by rw [iS]; exact ENNReal.ofReal_ne_top)
    filter_upwards [this] with m hm σ e
    have := (ENNReal.sum_lt_top.mp hm) σ (Finset.mem_univ _)
    rw [e, ENNReal.mul_top (ENNReal.ofReal_pos.mpr (w1 σ)).ne'] at this
    exact lt_irrefl _ this
  have hterm : ∀ m σ, ENNReal.ofReal (κ * α ^ (n - 1)) *
      (ENNReal.ofReal (weight (dpPrior 1) σ) * A m σ) =
      ENNReal.ofReal (κ * α ^ (n - 1) * weight (dpPrior 1) σ) * A m σ := by
    intro m σ
    rw [← mul_assoc, ← ENNReal.ofReal_mul (mul_pos hκ (pow_pos hα _)).le]
  have hμ : normalLaw mu00 (Real.sqrt sig200) ≠ 0 := IsProbabilityMeasure.ne_zero _
  have htop := labels_card_top (n := n) hn
  have hsum : ∀ {f g : Setoid (Fin n) → ℝ≥0∞}, (∀ σ, f σ ≤ g σ) → f ⊤ < g ⊤ → (∀ σ, f σ ≠ ∞) →
      ∑ σ, f σ < ∑ σ, g σ := by
    intro f g hle hlt hf
    rw [← Finset.add_sum_erase _ f (Finset.mem_univ ⊤), ← Finset.add_sum_erase _ g (Finset.mem_univ ⊤)]
    exact ENNReal.add_lt_add_of_lt_of_le (ENNReal.sum_ne_top.mpr fun σ _ => hf σ) hlt
      (Finset.sum_le_sum fun σ _ => hle σ)
  have k1 : 0 < (labelsOf (⊤ : Setoid (Fin n))).toFinset.card := by
    have hl := labelsOf_length (⊤ : Setoid (Fin n))
    refine Finset.card_pos.mpr ⟨(labelsOf (⊤ : Setoid (Fin n)))[0]'(by omega), ?_⟩
    exact List.mem_toFinset.mpr (List.getElem_mem _)
  rcases lt_or_gt_of_ne hmass with hlt | hgt
  · have hc : ∀ σ : Setoid (Fin n), κ * α ^ (n - 1) * weight (dpPrior 1) σ ≤ weight (dpPrior α) σ := by
      intro σ
      rw [htilt σ]
      refine mul_le_mul_of_nonneg_right (mul_le_mul_of_nonneg_left ?_ hκ.le) (w1 σ).le
      exact pow_le_pow_of_le_one hα.le hlt.le (Nat.sub_le_sub_right (labels_card_le σ) 1)
    have hc' : κ * α ^ (n - 1) * weight (dpPrior 1) (⊤ : Setoid (Fin n)) <
        weight (dpPrior α) (⊤ : Setoid (Fin n)) := by
      rw [htilt ⊤]
      refine mul_lt_mul_of_pos_right (mul_lt_mul_of_pos_left ?_ hκ) (w1 ⊤)
      exact pow_lt_pow_right_of_lt_one₀ hα hlt (by omega)
    have : ∫⁻ m, F1 m ∂normalLaw mu00 (Real.sqrt sig200) <
        ∫⁻ m, F m ∂normalLaw mu00 (Real.sqrt sig200) := by
      refine lintegral_strict_mono hμ mF.aemeasurable (by rw [iF1]; exact ENNReal.ofReal_ne_top) ?_
      filter_upwards [hfin] with m hm
      rw [hF, hF1]
      simp only [Finset.mul_sum, hterm]
      refine hsum (fun σ => ?_) ?_ fun σ => ENNReal.mul_ne_top ENNReal.ofReal_ne_top (hm σ)
      · gcongr
        exact hc σ
      · refine ENNReal.mul_lt_mul_left (hApos m) (hm ⊤) ?_
        exact (ENNReal.ofReal_lt_ofReal_iff_of_nonneg
          (mul_pos (mul_pos hκ (pow_pos hα _)) (w1 ⊤)).le).mpr hc'
    rw [iF, iF1] at this
    exact lt_irrefl _ this
  · have wα : ∀ σ : Setoid (Fin n), 0 < weight (dpPrior α) σ := fun σ => by
      rw [htilt σ]
      exact mul_pos (mul_pos hκ (pow_pos hα _)) (w1 σ)
    have hc : ∀ σ : Setoid (Fin n), weight (dpPrior α) σ ≤ κ * α ^ (n - 1) * weight (dpPrior 1) σ := by
      intro σ
      rw [htilt σ]
      refine mul_le_mul_of_nonneg_right (mul_le_mul_of_nonneg_left ?_ hκ.le) (w1 σ).le
      exact pow_le_pow_right₀ hgt.le (Nat.sub_le_sub_right (labels_card_le σ) 1)
    have hc' : weight (dpPrior α) (⊤ : Setoid (Fin n)) <
        κ * α ^ (n - 1) * weight (dpPrior 1) (⊤ : Setoid (Fin n)) := by
      rw [htilt ⊤]
      refine mul_lt_mul_of_pos_right (mul_lt_mul_of_pos_left ?_ hκ) (w1 ⊤)
      exact pow_lt_pow_right₀ hgt (by omega)
    have : ∫⁻ m, F m ∂normalLaw mu00 (Real.sqrt sig200) <
        ∫⁻ m, F1 m ∂normalLaw mu00 (Real.sqrt sig200) := by
      refine lintegral_strict_mono hμ mF1.aemeasurable (by rw [iF]; exact ENNReal.ofReal_ne_top) ?_
      filter_upwards [hfin] with m hm
      rw [hF, hF1]
      simp only [Finset.mul_sum, hterm]
      refine hsum (fun σ => ?_) ?_ fun σ => ENNReal.mul_ne_top ENNReal.ofReal_ne_top (hm σ)
      · gcongr
        exact hc σ
      · refine ENNReal.mul_lt_mul_left (hApos m) (hm ⊤) ?_
        exact (ENNReal.ofReal_lt_ofReal_iff_of_nonneg (wα ⊤).le).mpr hc'
    rw [iF, iF1] at this
    exact lt_irrefl _ this

/-- All rows can be alone after an iteration. -/
theorem iter_lone_pos {h : NIG} {w : Setoid (Fin n) → ℝ}
    {R : Fin n → (Spot n → (Fin n → UniLS) → ℝ≥0∞) → Spot n → (Fin n → UniLS) → ℝ≥0∞}
    (hR : RowsOk w (fun st i => uniNormLpdf st (y i)) (nigLaw h) R)
    (hB : BayesClusters (plainEnv y draw) (fun st i => uniNormLpdf st (y i)) nigLaw h)
    (hg : NormalGen ζ gen) (z : Spot n) (x : Fin n → UniLS) :
    0 < iterOp (plainEnv y draw) nigLaw h R (hyperOp (meanUp mu00 sig200 gen) ζ (loneFn y) h) z x := by
  classical
  haveI : Nonempty UniLS := ⟨⟨0, 1⟩⟩
  have := hg.prob
  have hV := valueLaw_prob (n := n) hB
  unfold iterOp
  refine hR.sweep_reach (List.finRange n) (fun _ => measurable_const) z (fun v => ?_) x
  rw [spotAlone_all]
  have := hV (⊥, ∅)
  have e : ∀ v : Fin n → UniLS, hyperOp (meanUp mu00 sig200 gen) ζ (loneFn y) h (⊥, ∅) v =
      (likOn (fun st i => uniNormLpdf st (y i)) Finset.univ v)⁻¹ := by
    intro v
    simp [hyperOp, loneFn]
  simp only [e]
  rw [pos_iff_ne_zero]
  intro e0
  have hmm : Measurable fun v : Fin n → UniLS =>
      (likOn (fun st i => uniNormLpdf st (y i)) Finset.univ v)⁻¹ :=
    (measurable_likOn (fun i => measurable_uniNormLpdf (y i)) Finset.univ).inv
  rw [lintegral_eq_zero_iff hmm] at e0
  obtain ⟨v, hv⟩ := e0.exists
  exact (ENNReal.inv_ne_zero.mpr (likOn_ne _ _ _).2) hv

end lone

/-- **C138, Dirichlet process, violation.** If the configured total mass is not one, neither Neal2 nor
Neal8 with a Normal prior on the mean of the base measure keeps the joint posterior of the configured
model. -/
theorem c138_dirichlet_violated (y : ℕ → ℝ) (draw : NIG → ℕ → UniLS) {prior : DPPrior} {dp : DPState}
    (hdp : DPRun prior dp) (hmass : dp.totalmass ≠ 1) {n : ℕ} (hn : 2 ≤ n)
    {mu00 sig200 lam sh sc : ℝ} (hs : 0 < sig200)
    (hl : 0 < lam) (ha : 0 < sh) (hb : 0 < sc) {Z : Type} [MeasurableSpace Z] {ζ : Measure Z}
    {gen : Z → ℝ → ℝ → ℝ} (hg : NormalGen ζ gen) (θ0 : UniLS) :
    haveI : Nonempty UniLS := ⟨θ0⟩
    ∃ φ : NIG → Setoid (Fin n) → (Fin n → UniLS) → ℝ≥0∞, MeasH lam sh sc φ ∧
      (¬ ∃ M, KeepsMean y draw (dpPrior dp.totalmass) mu00 sig200 lam sh sc θ0
        (neal2MeanIter y draw (dpScores (fun h i => nnigMargLpdf h (y i)) dp) mu00 sig200 gen ζ n
          (observeH θ0 φ)) φ M) ∧
      ∀ aux : List (Hier (ℝ × ℝ) NIG UniLS), aux ≠ [] →
        ¬ ∃ M, KeepsMean y draw (dpPrior dp.totalmass) mu00 sig200 lam sh sc θ0
          (fun s => neal8MeanIter y draw (dpScores (fun h i => nnigMargLpdf h (y i)) dp) mu00 sig200
            gen ζ n (fun t => observeH θ0 φ t.base) ⟨s, aux⟩) φ M := by
  haveI : Nonempty UniLS := ⟨θ0⟩
  have hprob := hg.prob
  have hα := hdp.pos.1
  have hφ := loneFn_meas (n := n) (y := y) (lam := lam) (sh := sh) (sc := sc)
  have hX := fun m => hyperOp_meas (mu00 := mu00) (sig200 := sig200) hg hφ m
  refine ⟨loneFn y, hφ, ?_, ?_⟩
  · rintro ⟨M, hM⟩
    obtain ⟨M1, h1⟩ := (c138_dirichlet_partial y draw hdp hn (mu00 := mu00) hs hl ha hb hg θ0 0 _ hφ).1
    refine not_both_kept hn hs hl ha hb hα hmass h1 hM fun m s hc => ?_
    have hO := dp_neal2Ok (plainEnv y draw) (fun _ _ _ => rfl) (by simp [nnigEnv])
      (nnig_conjugate y draw fun h _ _ => h) hdp hn (h0 := ⟨m, lam, sh, sc⟩) ⟨hl, ha, hb⟩
    have := hO.iter_reads (hX m)
      (hyper_reads (by omega) (meanEnv_up y draw mu00 sig200) θ0 (loneFn y) _) _ _ _ _ (hc.seen θ0)
    unfold neal2MeanIter
    rw [this]
    exact iter_lone_pos hO.rows hO.clusters hg _ _
  · rintro aux haux ⟨M, hM⟩
    obtain ⟨k, hk⟩ : ∃ k, aux.length = k + 1 := Nat.exists_eq_succ_of_ne_zero (by simpa using haux)
    obtain ⟨M1, h1⟩ := (c138_dirichlet_partial y draw hdp hn (mu00 := mu00) hs hl ha hb hg θ0 k _ hφ).2
    refine not_both_kept hn hs hl ha hb hα hmass (h1 aux hk) hM fun m s hc => ?_
    have hO := dp_neal8Ok (plainEnv y draw) (fun _ _ _ => rfl) (by simp [nnigEnv])
      (nnig_conjugate y draw fun h _ _ => h) hdp hn (h0 := ⟨m, lam, sh, sc⟩) ⟨hl, ha, hb⟩
    have := hO.iter_reads (m := k) (hX m) (g := fun t : Alg8 (ℝ × ℝ) NIG UniLS =>
        hyperMean (fun z => meanEnv y draw mu00 sig200 fun _ => gen z) ζ
          (observeH θ0 (loneFn y)) t.base) (fun σ A x t ht _ =>
        hyper_reads (by omega) (meanEnv_up y draw mu00 sig200) θ0 (loneFn y) _ σ A x t.base ht)
      _ _ _ ⟨s, aux⟩ (hc.seen θ0) hk
    have e : neal8MeanIter y draw (dpScores (fun h i => nnigMargLpdf h (y i)) dp) mu00 sig200 gen ζ n
        (fun t => observeH θ0 (loneFn (n := n) y) t.base) ⟨s, aux⟩ = _ := this
    rw [e]
    exact iter_lone_pos (hO.rows k) hO.clusters hg _ _

/-- Three rows, total mass two, mean of the base measure `N(0, 4)`, three auxiliary clusters. -/
example (y : ℕ → ℝ) (draw : NIG → ℕ → UniLS) (θ0 : UniLS) (u : Hier (ℝ × ℝ) NIG UniLS) :
    haveI : Nonempty UniLS := ⟨θ0⟩
    ∃ φ : NIG → Setoid (Fin 3) → (Fin 3 → UniLS) → ℝ≥0∞, MeasH 1 2 1 φ ∧
      ¬ ∃ M, KeepsMean y draw (dpPrior 2) 0 4 1 2 1 θ0
        (fun s => neal8MeanIter y draw (dpScores (fun h i => nnigMargLpdf h (y i)) ⟨2, 0⟩) 0 4
          (fun z m s => m + s * z) (normalLaw 0 1) 3 (fun t => observeH θ0 φ t.base) ⟨s, [u, u, u]⟩)
        φ M := by
  obtain ⟨φ, h1, -, h2⟩ := c138_dirichlet_violated y draw (prior := .fixed 2) (dp := ⟨2, 0⟩)
    (.init (by norm_num [dpInit, dpFresh])) (by norm_num) (by omega : 2 ≤ 3)
    (mu00 := 0) (sig200 := 4) (by norm_num) one_pos two_pos one_pos affine_normalGen θ0
  exact ⟨φ, h1, h2 _ (by simp)⟩

end Bayesmix.Chain
