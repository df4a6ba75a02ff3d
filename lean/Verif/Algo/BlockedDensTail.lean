import Verif.Algo.BlockedDens
import Verif.Algo.BlockedStale
import Mathlib.Order.Filter.AtTopBot.Field

/-!
# Tails of the predictive density of the normal hierarchy

Data at the prior mean make the tails of the predictive density lighter.
-/

namespace Bayesmix.Cond
open Bayesmix Mixing Slice Gibbs MeasureTheory ENNReal Hierarchies Chain Density Filter Topology

section general

variable {G H Θ : Type} [AddCommGroup G] [MeasurableSpace Θ] {E : Env G H Θ} {like : Θ → ℕ → ℝ}
  {ν : H → Measure Θ} {Q : ℕ → Option H} {h : H} {prior : SBPrior} {n K : ℕ} {a b : Fin K → ℝ}

theorem kernel_iterate_ge (S : RunSetup E like ν Q h prior a b)
    {Φ : (Fin n → Fin K) → (Fin K → Θ) → (Fin K → ℝ) → ℝ≥0∞} {x : ℝ≥0∞}
    (hΦ : ∀ c θ v, (∀ k, 0 < v k ∧ v k ≤ 1) → x ≤ Φ c θ v) (k : ℕ) :
    ∀ c θ v, (∀ k, 0 < v k ∧ v k ≤ 1) →
      x ≤ (lawKernel like (drawLaws E ν Q h) a b)^[k] Φ c θ v := by
  induction k with
  | zero => exact hΦ
  | succ k ih =>
    intro c θ v hv
    rw [Function.iterate_succ_apply', ← kernel_const S x c θ hv]
    exact kernel_mono S (fun c θ v hv => ih c θ v hv) c θ v

/-- The law of the labels under the posterior, for unbounded functions as well. -/
theorem labelPost_int (S : RunSetup E like ν noneSaved h prior a b) (n : ℕ) :
    ∃ w : (Fin n → Fin K) → ℝ, (∀ c, 0 < w c) ∧ ∑ c, w c = 1 ∧
      ∀ φ : (Fin n → Fin K) → (Fin K → Θ) → (Fin K → ℝ) → ℝ≥0∞, Meas φ →
        (∀ c, condMean (drawLaws E ν noneSaved h) a b φ c ≠ ∞) →
        posteriorMean like n a b (ν h) φ ≠ ∞ ∧
        (posteriorMean like n a b (ν h) φ).toReal =
          ∑ c, w c * (condMean (drawLaws E ν noneSaved h) a b φ c).toReal := by
  have hμ := drawLaws_prob (n := n) (K := K) S.bayes S.saved
  obtain ⟨w, w0, w1, winv, wpost⟩ := labelPost (n := n) S.like_meas S.bayes S.apos S.bpos S.some
  obtain ⟨z0, z1⟩ := posteriorAt_one (n := n) S.like_meas S.bayes S.apos S.bpos S.some
  have hZ : posteriorAt like n a b (ν h) (fun _ _ _ => 1) =
      ∑ c : Fin n → Fin K, labelWeight like (ν h) a b c := by
    have := posteriorAt_labels (n := n) (a := a) (b := b) S.like_meas S.bayes.prior fun _ => 1
    simpa using this
  have hlt : ∀ c : Fin n → Fin K, labelWeight like (ν h) a b c ≠ ∞ := fun c =>
    ne_top_of_le_ne_top z1 (hZ ▸ Finset.single_le_sum (f := labelWeight like (ν h) a b)
      (fun _ _ => zero_le) (Finset.mem_univ c))
  have hw : ∀ c : Fin n → Fin K, w c = (labelWeight like (ν h) a b c /
      posteriorAt like n a b (ν h) fun _ _ _ => 1).toReal := by
    intro c0
    obtain ⟨g, hg⟩ : ∃ g : (Fin n → Fin K) → ℝ≥0∞, g = fun c => if c = c0 then 1 else 0 := ⟨_, rfl⟩
    have h1 := wpost (fun c _ _ => g c) (fun c => measurable_const)
      (fun c _ _ => by rw [hg]; dsimp only; split <;> simp)
    have h3 : ∑ c, w c * (condMean (drawLaws E ν noneSaved h) a b (fun c _ _ => g c) c).toReal =
        ∑ c, w c * (g c).toReal :=
      Finset.sum_congr rfl fun c _ => by rw [condMean_label hμ S.apos S.bpos g c]
    rw [posteriorMean, posteriorAt_labels S.like_meas S.bayes.prior g, h3] at h1
    rw [hg] at h1
    simp only [mul_ite, mul_one, mul_zero, Finset.sum_ite_eq', Finset.mem_univ, if_true,
      apply_ite ENNReal.toReal, toReal_one, toReal_zero] at h1
    exact h1.symm
  have hpos : ∀ c, 0 < w c := by
    intro c0
    rw [← winv]
    have hP := labelMatrix_pos (n := n) S.like_meas hμ S.apos S.bpos S.some
    obtain ⟨c, hc⟩ : ∃ c, 0 < w c := by
      by_contra hno
      push Not at hno
      have : ∑ c, w c ≤ 0 := Finset.sum_nonpos fun c _ => hno c
      linarith
    exact Finset.sum_pos' (fun c _ => mul_nonneg (w0 c) (hP c _).le)
      ⟨c, Finset.mem_univ c, mul_pos hc (hP c _)⟩
  refine ⟨w, hpos, w1, fun φ hφ hfin => ?_⟩
  have hdiv : ∀ c : Fin n → Fin K, labelWeight like (ν h) a b c /
      (posteriorAt like n a b (ν h) fun _ _ _ => 1) ≠ ∞ := fun c => ENNReal.div_ne_top (hlt c) z0
  have he : posteriorMean like n a b (ν h) φ = ∑ c, labelWeight like (ν h) a b c /
      (posteriorAt like n a b (ν h) fun _ _ _ => 1) *
        condMean (drawLaws E ν noneSaved h) a b φ c := by
    rw [posteriorMean, posteriorAt_condMean S.like_meas S.bayes S.apos S.bpos hφ, div_eq_mul_inv,
      Finset.sum_mul]
    refine Finset.sum_congr rfl fun c _ => ?_
    rw [div_eq_mul_inv]
    ring
  rw [he]
  refine ⟨ENNReal.sum_ne_top.mpr fun c _ => ENNReal.mul_ne_top (hdiv c) (hfin c), ?_⟩
  rw [ENNReal.toReal_sum fun c _ => ENNReal.mul_ne_top (hdiv c) (hfin c)]
  refine Finset.sum_congr rfl fun c _ => ?_
  rw [toReal_mul, hw]

end general

theorem nnigMargLpdf_eq {h : NIG} (hv : NigValid h) : ∃ C : ℝ, ∀ y : ℝ, nnigMargLpdf h y =
    C - (h.shape + 1 / 2) *
      Real.log (1 + (y - h.mean) ^ 2 / (2 * h.scale * (1 + 1 / h.varScaling))) := by
  obtain ⟨hl, ha, hb⟩ := hv
  refine ⟨Real.log (Real.Gamma ((2 * h.shape + 1) / 2)) - Real.log (Real.Gamma (2 * h.shape / 2)) -
    (1 / 2) * Real.log (2 * h.shape * Real.pi) -
      Real.log (Real.sqrt (h.scale * (h.varScaling + 1) / (h.shape * h.varScaling))), fun y => ?_⟩
  unfold nnigMargLpdf studentTLpdf
  have e1 : (2 * h.shape + 1) / 2 = h.shape + 1 / 2 := by ring
  have hpos : 0 ≤ h.scale * (h.varScaling + 1) / (h.shape * h.varScaling) := by positivity
  have e2 : 1 / (2 * h.shape) * ((y - h.mean) /
      Real.sqrt (h.scale * (h.varScaling + 1) / (h.shape * h.varScaling))) ^ 2 =
      (y - h.mean) ^ 2 / (2 * h.scale * (1 + 1 / h.varScaling)) := by
    rw [div_pow, Real.sq_sqrt hpos]
    field_simp
  simp only [e2]
  rw [e1]

/-- A larger shape and a smaller spread: the ratio of the densities vanishes. -/
theorem nnig_tail {h g : NIG} (hv : NigValid h) (gv : NigValid g) (hm : g.mean = h.mean)
    (hs : g.scale = h.scale) (hl : h.varScaling ≤ g.varScaling) (hsh : h.shape < g.shape) {C : ℝ}
    (hC : 0 < C) : ∀ᶠ y in atTop, Real.exp (nnigMargLpdf g y) < C * Real.exp (nnigMargLpdf h y) := by
  obtain ⟨c1, e1⟩ := nnigMargLpdf_eq hv
  obtain ⟨c2, e2⟩ := nnigMargLpdf_eq gv
  obtain ⟨l1, a1, b1⟩ := hv
  obtain ⟨l2, a2, b2⟩ := gv
  have hA : 0 < 2 * h.scale * (1 + 1 / h.varScaling) := by positivity
  have hB : 0 < 2 * g.scale * (1 + 1 / g.varScaling) := by positivity
  have hBA : 2 * g.scale * (1 + 1 / g.varScaling) ≤ 2 * h.scale * (1 + 1 / h.varScaling) := by
    rw [hs]
    gcongr
  have ht : Tendsto (fun y : ℝ => (g.shape - h.shape) * Real.log (1 + (y - h.mean) ^ 2 /
      (2 * h.scale * (1 + 1 / h.varScaling)))) atTop atTop := by
    refine Tendsto.const_mul_atTop (by linarith) (Real.tendsto_log_atTop.comp ?_)
    refine tendsto_atTop_add_const_left _ _ (Tendsto.atTop_div_const hA ?_)
    exact (tendsto_pow_atTop two_ne_zero).comp (tendsto_atTop_add_const_right _ _ tendsto_id)
  filter_upwards [ht.eventually_gt_atTop (c2 - c1 - Real.log C)] with y hy
  rw [← Real.exp_log hC, ← Real.exp_add, Real.exp_lt_exp, e1, e2, hm]
  have hlog : Real.log (1 + (y - h.mean) ^ 2 / (2 * h.scale * (1 + 1 / h.varScaling))) ≤
      Real.log (1 + (y - h.mean) ^ 2 / (2 * g.scale * (1 + 1 / g.varScaling))) := by
    refine Real.log_le_log (by positivity) ?_
    gcongr
  have := mul_le_mul_of_nonneg_left hlog (by positivity : 0 ≤ g.shape + 1 / 2)
  nlinarith [this, hy]

/-- The posterior hyperparameters of a component whose rows are all at the prior mean. -/
theorem nnig_rows {h : NIG} (hv : NigValid h) {y : ℕ → ℝ} (draw : NIG → ℕ → UniLS)
    (hyp : NIG → List (UniLS × ℤ) → ℕ → NIG) {n K : ℕ} (hy : ∀ i < n, y i = h.mean) (c : Fin n → Fin K)
    (k : Fin K) (hc : cnt c k ≠ 0) :
    condHyp (SplitMerge.nnigEnv y draw hyp) h c k =
      ⟨h.mean, h.varScaling + cnt c k, h.shape + cnt c k / 2, h.scale⟩ := by
  have hr : (cnt c k : ℝ) ≠ 0 := by exact_mod_cast hc
  have hcz : (cnt c k : ℤ) ≠ 0 := by exact_mod_cast hc
  have hmem : ∀ i ∈ rowsOf c k, y i = h.mean := by
    intro i hi
    obtain ⟨j, -, rfl⟩ := Finset.mem_map.mp hi
    exact hy _ j.isLt
  have hl := hv.1
  have hne : h.varScaling + (cnt c k : ℝ) ≠ 0 := by positivity
  have hsum : ∑ i ∈ rowsOf c k, (y i, y i ^ 2) =
      ((cnt c k : ℝ) * h.mean, (cnt c k : ℝ) * h.mean ^ 2) := by
    rw [Finset.sum_congr rfl fun i hi => by rw [hmem i hi], Finset.sum_const, rowsOf_card]
    simp
  unfold condHyp
  rw [if_neg hc]
  simp only [SplitMerge.nnigEnv, hsum, nnigPosterior, if_neg hcz, Int.cast_natCast]
  have e5 : (0.5 : ℝ) = 1 / 2 := by norm_num
  have e1 : (1.0 : ℝ) = 1 := by norm_num
  have e : (cnt c k : ℝ) * h.mean / cnt c k = h.mean := by field_simp
  rw [e5, e1, one_mul, e]
  congr 1
  · field_simp
  · ring
  · ring

theorem cnt_two {n : ℕ} (c : Fin n → Fin 2) : cnt c 0 + cnt c 1 = n ∧ later c 0 = cnt c 1 := by
  have h1 : later c 0 = cnt c 1 := by
    unfold later cnt
    congr 1
    ext i
    simp only [Finset.mem_filter, Finset.mem_univ, true_and]
    omega
  refine ⟨?_, h1⟩
  unfold cnt
  rw [← Finset.card_union_of_disjoint]
  · have : (Finset.univ.filter fun i => c i = 0) ∪ (Finset.univ.filter fun i => c i = 1) =
        Finset.univ := by
      ext i
      simp only [Finset.mem_union, Finset.mem_filter, Finset.mem_univ, true_and, iff_true]
      omega
    rw [this]
    simp
  · rw [Finset.disjoint_filter]
    intro i _ h0 h1
    omega

/-- The mean of the estimate given the labels, two components: without the first component's stale
density, at most the share of an empty component. -/
theorem two_bound {G H Θ : Type} [AddCommGroup G] [MeasurableSpace Θ] {E : Env G H Θ}
    {like : Θ → ℕ → ℝ} {ν : H → Measure Θ} {h : H} {pred : H → ℕ → ℝ} {V : H → Prop}
    (C : Conjugate E like pred ν V) (hv : V h) {a b : Fin 2 → ℝ} (ha : ∀ k, 0 < a k)
    (hb : ∀ k, 0 < b k) (hab : b 0 ≤ a 0) {n : ℕ} (hn : 0 < n) {x : ℕ} {q : ℝ} (hq : 0 < q)
    (c : Fin n → Fin 2) (hc : ∀ k, cnt c k ≠ 0 →
      Real.exp (pred (condHyp E h c k) x) ≤ q * Real.exp (pred h x)) :
    (condMean (drawLaws E ν noneSaved h) a b
      (fun _ θ v => ENNReal.ofReal (stickDens like x θ v)) c).toReal ≤
      q * Real.exp (pred h x) + (if cnt c 0 ≠ 0 ∧ cnt c 1 ≠ 0 then 0 else
        a 0 / (a 0 + b 0 + n) * Real.exp (pred h x)) := by
  have ha' := shape_pos ha (cnt c)
  have hb' := shape_pos hb (later c)
  have h1 := ha 0
  have h2 := hb 0
  have hp := Real.exp_pos (pred h x)
  have hcm := condMean_pred (Q := noneSaved) C (fun k p hp => by cases hp) hv ha hb x c
  obtain ⟨hsum, hlat⟩ := cnt_two c
  have hs : (cnt c 0 : ℝ) + cnt c 1 = n := by exact_mod_cast hsum
  have hm := sum_meanWeight_le ha' hb'
  rw [Fin.sum_univ_two] at hm hcm
  have hm0 : meanWeight (fun k => a k + cnt c k) (fun k => b k + later c k) 0 ≤ 1 :=
    meanWeight_le ha' hb' 0
  have hm1 : meanWeight (fun k => a k + cnt c k) (fun k => b k + later c k) 1 ≤ 1 :=
    meanWeight_le ha' hb' 1
  have hrhs : 0 ≤ q * Real.exp (pred h x) + (if cnt c 0 ≠ 0 ∧ cnt c 1 ≠ 0 then 0 else
        a 0 / (a 0 + b 0 + n) * Real.exp (pred h x)) := by
    split <;> positivity
  refine ENNReal.toReal_le_of_le_ofReal hrhs ?_
  rw [hcm]
  simp only [drawHyp_noneSaved]
  by_cases h0 : cnt c 0 = 0
  · have h10 : cnt c 1 ≠ 0 := by omega
    rw [if_neg (by simp [h0]), add_comm, ENNReal.ofReal_add (by positivity) (by positivity)]
    refine add_le_add ?_ ?_
    · refine (mul_le_of_le_one_left zero_le hm1).trans (ENNReal.ofReal_le_ofReal (hc 1 h10))
    · have hw := meanWeight_first ha' hb' (by norm_num)
      have hc0 : condHyp E h c 0 = h := by simp [condHyp, h0]
      rw [hc0, ENNReal.ofReal_mul (by positivity)]
      refine mul_le_mul_left ?_ _
      refine hw.le.trans (ENNReal.ofReal_le_ofReal (le_of_eq ?_))
      change (a 0 + (cnt c 0 : ℝ)) / (a 0 + (cnt c 0 : ℝ) + (b 0 + (later c 0 : ℝ))) = _
      rw [hlat, ← hs, h0]
      simp [add_assoc]
  · by_cases h10 : cnt c 1 = 0
    · rw [if_neg (by simp [h10]), ENNReal.ofReal_add (by positivity) (by positivity)]
      refine add_le_add ?_ ?_
      · refine (mul_le_of_le_one_left zero_le hm0).trans (ENNReal.ofReal_le_ofReal (hc 0 h0))
      · have hw := meanWeight_second ha' hb'
        have hc1 : condHyp E h c 1 = h := by simp [condHyp, h10]
        rw [hc1, ENNReal.ofReal_mul (by positivity)]
        refine mul_le_mul_left ?_ _
        refine hw.trans (ENNReal.ofReal_le_ofReal ?_)
        rw [hlat, ← hs, h10]
        simp only [Nat.cast_zero, add_zero]
        rw [show a 0 + (cnt c 0 : ℝ) + b 0 = a 0 + b 0 + cnt c 0 by ring]
        gcongr
    · rw [if_pos ⟨h0, h10⟩, add_zero]
      refine (add_le_add (mul_le_mul_right (ENNReal.ofReal_le_ofReal (hc 0 h0)) _)
        (mul_le_mul_right (ENNReal.ofReal_le_ofReal (hc 1 h10)) _)).trans ?_
      rw [← add_mul]
      exact mul_le_of_le_one_left zero_le hm

end Bayesmix.Cond
