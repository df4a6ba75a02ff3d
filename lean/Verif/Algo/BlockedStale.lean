import Verif.Algo.BlockedFirst

/-!
# The posterior of the first value is not the prior
-/

namespace Bayesmix.Cond
open Bayesmix Mixing Slice Gibbs MeasureTheory ENNReal Hierarchies Chain Real

/-- The mean precision. -/
theorem nigLaw_precision {h : NIG} (hv : NigValid h) :
    ∫⁻ st, ENNReal.ofReal (1 / st.var) ∂nigLaw h = ENNReal.ofReal (h.shape / h.scale) := by
  obtain ⟨hl, ha, hb⟩ := hv
  have hp := nigLaw_prob { h with shape := h.shape + 1 } hl (by positivity : 0 < h.shape + 1) hb
  have hm : Measurable fun st : UniLS => ENNReal.ofReal (1 / st.var) :=
    ENNReal.measurable_ofReal.comp (measurable_const.div measurable_var)
  have e1 := lintegral_nigLaw { h with shape := h.shape + 1 }
    (φ := fun _ => ENNReal.ofReal (h.shape / h.scale)) measurable_const
  rw [lintegral_const, measure_univ, mul_one] at e1
  rw [lintegral_nigLaw h hm, e1]
  refine setLIntegral_congr_fun measurableSet_Ioi fun v hv => ?_
  have hv' : 0 < v := hv
  refine lintegral_congr fun m => ?_
  rw [← ENNReal.ofReal_mul (exp_pos _).le, ← ENNReal.ofReal_mul (exp_pos _).le]
  congr 1
  simp only [nigLpdf, invGammaLpdf]
  have hG : Gamma (h.shape + 1) = h.shape * Gamma h.shape := Gamma_add_one ha.ne'
  have hG0 := Gamma_pos_of_pos ha
  rw [hG, log_mul ha.ne' hG0.ne']
  have e2 : ∀ N : ℝ, N + ((h.shape + 1) * log h.scale - (log h.shape + log (Gamma h.shape)) -
      (h.shape + 1 + 1) * log v - h.scale / v) =
      N + (h.shape * log h.scale - log (Gamma h.shape) - (h.shape + 1) * log v - h.scale / v) +
        (log h.scale - log h.shape - log v) := fun N => by ring
  rw [e2, Real.exp_add _ (log h.scale - log h.shape - log v), Real.exp_sub, Real.exp_sub, exp_log hb,
    exp_log ha, exp_log hv']
  field_simp

/-- If all data equal the prior mean, the scale does not change and the shape grows. -/
theorem nnig_const {h : NIG} (hv : NigValid h) (draw : NIG → ℕ → UniLS)
    (hyp : NIG → List (UniLS × ℤ) → ℕ → NIG) {n K : ℕ} (c : Fin n → Fin K) (k : Fin K) :
    (condHyp (SplitMerge.nnigEnv (fun _ => h.mean) draw hyp) h c k).shape = h.shape + cnt c k / 2 ∧
    (condHyp (SplitMerge.nnigEnv (fun _ => h.mean) draw hyp) h c k).scale = h.scale := by
  unfold condHyp
  by_cases h0 : cnt c k = 0
  · simp [h0]
  · rw [if_neg h0]
    have hc : (cnt c k : ℝ) ≠ 0 := by exact_mod_cast h0
    have hcz : (cnt c k : ℤ) ≠ 0 := by exact_mod_cast h0
    simp only [SplitMerge.nnigEnv, nnigPosterior, if_neg hcz, Finset.sum_const, rowsOf_card,
      Prod.smul_mk, nsmul_eq_mul, Int.cast_natCast]
    have e5 : (0.5 : ℝ) = 1 / 2 := by norm_num
    have e1 : (1.0 : ℝ) = 1 := by norm_num
    rw [e5, e1, one_mul]
    refine ⟨by ring, ?_⟩
    have e : (cnt c k : ℝ) * h.mean / cnt c k = h.mean := by field_simp
    rw [e]
    ring

/-- The posterior law of the first value, and the law of the prior, differ when all data equal the
prior mean. -/
theorem nnig_first_ne {h : NIG} (hv : NigValid h) (draw : NIG → ℕ → UniLS) {n K : ℕ} (hn : 0 < n)
    {prior : SBPrior} {a b : Fin K → ℝ}
    (S : RunSetup (SplitMerge.nnigEnv (fun _ => h.mean) draw fun h _ _ => h)
      (fun st _ => uniNormLpdf st h.mean) nigLaw (firstSaved h) h prior a b) :
    ∃ A : Set UniLS, MeasurableSet A ∧
      (nigLaw h A).toReal ≠ (posteriorMean (fun st _ => uniNormLpdf st h.mean) n a b (nigLaw h)
        (fun _ θ _ => A.indicator 1 (θ ⟨0, S.some⟩))).toReal := by
  by_contra hcon
  push Not at hcon
  obtain ⟨E, hE⟩ : ∃ E, E = SplitMerge.nnigEnv (fun _ => h.mean) draw fun h _ _ => h := ⟨_, rfl⟩
  have hμ : ∀ (c : Fin n → Fin K) k, IsProbabilityMeasure (drawLaws E nigLaw noneSaved h c k) := by
    rw [hE]
    exact none_prob S.bayes
  obtain ⟨w, w0, w1, winv, wpost⟩ := labelPost (n := n) S.like_meas S.bayes S.apos S.bpos S.some
  rw [← hE] at winv wpost
  obtain ⟨k0, hk0⟩ : ∃ k0 : Fin K, k0 = ⟨0, S.some⟩ := ⟨_, rfl⟩
  rw [← hk0] at hcon
  have hmeas : nigLaw h = ∑ c : Fin n → Fin K, ENNReal.ofReal (w c) •
      drawLaws E nigLaw noneSaved h c k0 := by
    ext A hA
    have h1 := hcon A hA
    have hm : Measurable (A.indicator (1 : UniLS → ℝ≥0∞)) := measurable_one.indicator hA
    have hφm : Meas fun (_ : Fin n → Fin K) (θ : Fin K → UniLS) (_ : Fin K → ℝ) =>
        A.indicator (1 : UniLS → ℝ≥0∞) (θ k0) := fun c =>
      hm.comp ((measurable_pi_apply _).comp measurable_fst)
    rw [wpost _ hφm fun c θ v => Set.indicator_le_self' (fun _ _ => zero_le) _] at h1
    have hc : ∀ c : Fin n → Fin K, condMean (drawLaws E nigLaw noneSaved h) a b
        (fun _ θ _ => A.indicator (1 : UniLS → ℝ≥0∞) (θ k0)) c =
        drawLaws E nigLaw noneSaved h c k0 A := fun c => by
      rw [condMean_value hμ S.apos S.bpos hm, lintegral_indicator_one hA]
    rw [Finset.sum_congr rfl fun c _ => by rw [hc c]] at h1
    have hp := S.bayes.prior
    rw [← ENNReal.ofReal_toReal (measure_ne_top (nigLaw h) A), h1, ENNReal.ofReal_sum_of_nonneg
      fun c _ => mul_nonneg (w0 c) ENNReal.toReal_nonneg]
    simp only [Measure.coe_finsetSum, Finset.sum_apply, Measure.smul_apply, smul_eq_mul]
    refine Finset.sum_congr rfl fun c _ => ?_
    have := hμ c k0
    rw [ENNReal.ofReal_mul (w0 c), ENNReal.ofReal_toReal (measure_ne_top _ A)]
  have hprec := nigLaw_precision hv
  nth_rw 1 [hmeas] at hprec
  rw [lintegral_finsetSum_measure] at hprec
  have hterm : ∀ c : Fin n → Fin K, ∫⁻ st, ENNReal.ofReal (1 / st.var)
      ∂(ENNReal.ofReal (w c) • drawLaws E nigLaw noneSaved h c k0) =
      ENNReal.ofReal (w c * ((h.shape + cnt c k0 / 2) / h.scale)) := by
    intro c
    have hval : NigValid (condHyp E h c k0) := by
      obtain ⟨e1, e2⟩ := nnig_const hv draw (fun h _ _ => h) c k0
      rw [← hE] at e1 e2
      refine ⟨?_, ?_, ?_⟩
      · rw [hE]
        unfold condHyp
        split
        · exact hv.1
        · rename_i h0
          have hcz : (cnt c k0 : ℤ) ≠ 0 := by exact_mod_cast h0
          simp only [SplitMerge.nnigEnv, nnigPosterior, if_neg hcz, Int.cast_natCast]
          have := hv.1
          positivity
      · rw [e1]
        have := hv.2.1
        positivity
      · rw [e2]
        exact hv.2.2
    rw [lintegral_smul_measure, smul_eq_mul]
    have := nigLaw_precision hval
    rw [drawLaws, drawHyp_noneSaved, this, ← ENNReal.ofReal_mul (w0 c)]
    obtain ⟨e1, e2⟩ := nnig_const hv draw (fun h _ _ => h) c k0
    rw [← hE] at e1 e2
    rw [e1, e2]
  have hb := hv.2.2
  have ha := hv.2.1
  rw [Finset.sum_congr rfl fun c _ => hterm c, ← ENNReal.ofReal_sum_of_nonneg fun c _ =>
    mul_nonneg (w0 c) (by positivity)] at hprec
  have hr := (ENNReal.ofReal_eq_ofReal_iff (Finset.sum_nonneg fun c _ =>
    mul_nonneg (w0 c) (by positivity)) (by positivity)).mp hprec
  have hz : ∑ c : Fin n → Fin K, w c * (cnt c k0 : ℝ) = 0 := by
    have e : ∀ c : Fin n → Fin K, w c * ((h.shape + cnt c k0 / 2) / h.scale) =
        w c * (h.shape / h.scale) + w c * (cnt c k0 : ℝ) * (1 / (2 * h.scale)) := fun c => by
      field_simp
    rw [Finset.sum_congr rfl fun c _ => e c, Finset.sum_add_distrib, ← Finset.sum_mul,
      ← Finset.sum_mul, w1, one_mul] at hr
    have h2 : (1 / (2 * h.scale)) ≠ 0 := by positivity
    have h3 : (∑ c : Fin n → Fin K, w c * (cnt c k0 : ℝ)) * (1 / (2 * h.scale)) = 0 := by linarith
    exact (mul_eq_zero.mp h3).resolve_right h2
  have hw : 0 < w fun _ => k0 := by
    rw [← winv]
    have hP := labelMatrix_pos (n := n) S.like_meas hμ S.apos S.bpos S.some
    obtain ⟨c, hc⟩ : ∃ c, 0 < w c := by
      by_contra hno
      push Not at hno
      have : ∑ c, w c ≤ 0 := Finset.sum_nonpos fun c _ => hno c
      linarith
    exact Finset.sum_pos' (fun c _ => mul_nonneg (w0 c) (hP c _).le)
      ⟨c, Finset.mem_univ c, mul_pos hc (hP c _)⟩
  have hcnt : cnt (fun _ : Fin n => k0) k0 = n := by
    simp [cnt]
  have hle := Finset.single_le_sum (f := fun c : Fin n → Fin K => w c * (cnt c k0 : ℝ))
    (fun c _ => mul_nonneg (w0 c) (Nat.cast_nonneg _)) (Finset.mem_univ fun _ => k0)
  simp only [hz, hcnt] at hle
  have hn' : (0 : ℝ) < n := by exact_mod_cast hn
  exact absurd hle (not_le.mpr (mul_pos hw hn'))

end Bayesmix.Cond
