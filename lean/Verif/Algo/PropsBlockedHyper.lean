import Verif.Algo.BlockedHyper

/-!
# C100: blocked Gibbs with a prior on the hyperparameters
-/

namespace Bayesmix.Cond
open Bayesmix Mixing Slice Gibbs MeasureTheory ENNReal Hierarchies

/-- Normal - Normal-inverse-Gamma hierarchy with a Normal prior on the mean of the base measure. The
update of the hyperparameters is `nigUpdateHypers` on the values in use; `normal r` is the generator
with noise `r`. -/
noncomputable def meanEnv (y : ℕ → ℝ) (draw : NIG → ℕ → UniLS) (mu00 sig200 : ℝ)
    (normal : ℕ → ℝ → ℝ → ℝ) : Env (ℝ × ℝ) NIG UniLS :=
  SplitMerge.nnigEnv y draw fun h l r =>
    match nigUpdateHypers (.normalMean mu00 sig200 h.varScaling h.shape h.scale) h (l.map Prod.fst)
      (normal r) (normal r) (normal r) with
    | .ok h' => h'
    | .error _ => h

theorem meanEnv_hyper (y : ℕ → ℝ) (draw : NIG → ℕ → UniLS) {mu00 sig200 : ℝ} (hs : 0 < sig200)
    (normal : ℕ → ℝ → ℝ → ℝ) {h : NIG} (hl : 0 < h.varScaling) (l : List (UniLS × ℤ))
    (hvar : ∀ x ∈ l, 0 < x.1.var) (r : ℕ) :
    (meanEnv y draw mu00 sig200 normal).hyperUpdate h l r =
      { h with
        mean := normal r (nigMeanParams mu00 sig200 h.varScaling (l.map Prod.fst)).1
          (nigMeanParams mu00 sig200 h.varScaling (l.map Prod.fst)).2 } := by
  have hst : ∀ st ∈ l.map Prod.fst, 0 < st.var := by
    intro st hst
    obtain ⟨x, hx, rfl⟩ := List.mem_map.mp hst
    exact hvar x hx
  have hp : 0 < 1 / sig200 + h.varScaling * ((l.map Prod.fst).map (fun st => 1 / st.var)).sum := by
    have h1 := sum_inv_nonneg _ hst
    have h2 : 0 < 1 / sig200 := one_div_pos.2 hs
    have h3 := mul_nonneg hl.le h1
    linarith
  have hsd : 0 < (nigMeanParams mu00 sig200 h.varScaling (l.map Prod.fst)).2 :=
    Real.sqrt_pos.2 (one_div_pos.2 hp)
  simp only [meanEnv, SplitMerge.nnigEnv, nigUpdateHypers, normalRngChk, not_le.2 hsd, if_false,
    ok_bind]

/-- The joint posterior distribution of labels, values, sticks and mean of the base measure, up to
its normalizing constant. -/
noncomputable def posteriorH (y : ℕ → ℝ) (n : ℕ) {K : ℕ} (a b : Fin K → ℝ)
    (mu00 sig200 lam sh sc : ℝ)
    (φ : (Fin n → Fin K) → (Fin K → UniLS) → (Fin K → ℝ) → ℝ → ℝ≥0∞) : ℝ≥0∞ :=
  ∫⁻ m, posteriorAt (fun st i => uniNormLpdf st (y i)) n a b (nigLaw ⟨m, lam, sh, sc⟩)
    (fun c θ v => φ c θ v m) ∂normalLaw mu00 (Real.sqrt sig200)

/-- An iteration: labels, then values, then the mean of the base measure given the values in use,
then sticks. -/
noncomputable def blockedKernelH (E : Env (ℝ × ℝ) NIG UniLS) (y : ℕ → ℝ) {n K : ℕ} (a b : Fin K → ℝ)
    (mu00 sig200 lam sh sc : ℝ)
    (φ : (Fin n → Fin K) → (Fin K → UniLS) → (Fin K → ℝ) → ℝ → ℝ≥0∞) :
    (Fin n → Fin K) → (Fin K → UniLS) → (Fin K → ℝ) → ℝ → ℝ≥0∞ := fun c θ v m =>
  labelsStep (fun st i => uniNormLpdf st (y i)) (valuesStep E nigLaw ⟨m, lam, sh, sc⟩
    fun c θ v => ∫⁻ m', sticksStep a b (fun c θ v => φ c θ v m') c θ v
      ∂normalLaw (nigMeanParams mu00 sig200 lam ((inUse c θ).map Prod.fst)).1
        (nigMeanParams mu00 sig200 lam ((inUse c θ).map Prod.fst)).2) c θ v

theorem inUse_const {Θ : Type} {n K : ℕ} (hn : 0 < n) (k0 : Fin K) (θ : Fin K → Θ) :
    inUse (fun _ : Fin n => k0) θ = [(θ k0, (n : ℤ))] := by
  have hcnt : ∀ k : Fin K, cnt (fun _ : Fin n => k0) k = if k = k0 then n else 0 := by
    intro k
    unfold cnt
    by_cases hk : k = k0
    · simp [hk]
    · rw [if_neg hk, Finset.card_eq_zero, Finset.filter_eq_empty_iff]
      exact fun _ _ h => hk h.symm
  have h1 : inUse (fun _ : Fin n => k0) θ = ((List.finRange K).filter (· = k0)).map
      fun _ => (θ k0, (n : ℤ)) := by
    rw [inUse, ← List.filterMap_eq_map, List.filterMap_filter]
    refine List.filterMap_congr fun k _ => ?_
    rw [hcnt]
    by_cases hk : k = k0
    · simp [hk, hn.ne']
    · simp [hk]
  have h2 : (List.finRange K).filter (· = k0) = [k0] := by
    rw [List.filter_eq, List.count_eq_one_of_mem (List.nodup_finRange K) (List.mem_finRange k0)]
    rfl
  rw [h1, h2]
  rfl

section test

variable {n K : ℕ} {y : ℕ → ℝ}

/-- A function of the state that is zero unless all rows are in component `k0`. -/
noncomputable def testFn (y : ℕ → ℝ) (lam : ℝ) (n : ℕ) {K : ℕ} (k0 k1 : Fin K) (g : UniLS → ℝ≥0∞)
    (c : Fin n → Fin K) (θ : Fin K → UniLS) (_ : Fin K → ℝ) : ℝ≥0∞ :=
  if c = fun _ => k0 then
    (ENNReal.ofReal (∏ i : Fin n, Real.exp (uniNormLpdf (θ k0) (y i))))⁻¹ * (tilt lam (θ k1) * g (θ k0))
  else 0

theorem testFn_meas (lam : ℝ) (k0 k1 : Fin K) {g : UniLS → ℝ≥0∞} (hg : Measurable g) :
    Meas (testFn y lam n k0 k1 g) := by
  intro c
  unfold testFn
  by_cases hc : c = fun _ => k0
  · simp only [hc, if_true]
    have h1 := measurable_rows (n := n) (like := fun st i => uniNormLpdf st (y i))
      (fun i => measurable_uniNormLpdf (y i)) (fun _ : Fin n => k0)
    exact (h1.comp measurable_fst).inv.mul
      (((measurable_tilt lam).comp ((measurable_pi_apply k1).comp measurable_fst)).mul
        (hg.comp ((measurable_pi_apply k0).comp measurable_fst)))
  · simp only [hc, if_false]
    exact measurable_const

/-- Probability that all rows are in component `k0`. -/
noncomputable def allIn (n : ℕ) {K : ℕ} (a b : Fin K → ℝ) (k0 : Fin K) : ℝ≥0∞ :=
  ∫⁻ v, ENNReal.ofReal (∏ _i : Fin n, stickWeight v k0) ∂stickLaw a b

theorem allIn_ne {a b : Fin K → ℝ} (ha : ∀ k, 0 < a k) (hb : ∀ k, 0 < b k) (k0 : Fin K) :
    allIn n a b k0 ≠ 0 ∧ allIn n a b k0 ≠ ∞ := by
  obtain ⟨Z, z0, z1, hZ⟩ := stick_bayes (n := n) ha hb fun _ => k0
  have h2 := stickLaw_isProb (shape_pos ha (cnt fun _ : Fin n => k0))
    (shape_pos hb (later fun _ : Fin n => k0))
  have := hZ (fun _ => 1) measurable_const
  rw [lintegral_const, measure_univ, mul_one, mul_one] at this
  simp only [mul_one] at this
  rw [allIn, this]
  exact ⟨z0, z1⟩

theorem posteriorAt_testFn {a b : Fin K → ℝ} {lam sh sc m : ℝ} (hl : 0 < lam) (hsh : 0 < sh)
    (hsc : 0 < sc) {k0 k1 : Fin K} (hk : k0 ≠ k1) {g : UniLS → ℝ≥0∞} (hg : Measurable g) :
    posteriorAt (fun st i => uniNormLpdf st (y i)) n a b (nigLaw ⟨m, lam, sh, sc⟩)
      (testFn y lam n k0 k1 g) =
      allIn n a b k0 * (ENNReal.ofReal (Real.exp m) * ∫⁻ st, g st ∂nigLaw ⟨m, lam, sh, sc⟩) := by
  have hp := nigLaw_prob ⟨m, lam, sh, sc⟩ hl hsh hsc
  have hin : ∀ v : Fin K → ℝ,
      ∫⁻ θ, ENNReal.ofReal (∏ i : Fin n, Real.exp (uniNormLpdf (θ k0) (y i))) *
        testFn y lam n k0 k1 g (fun _ => k0) θ v ∂Measure.pi (fun _ => nigLaw ⟨m, lam, sh, sc⟩) =
      ENNReal.ofReal (Real.exp m) * ∫⁻ st, g st ∂nigLaw ⟨m, lam, sh, sc⟩ := by
    intro v
    have e : ∀ θ : Fin K → UniLS, ENNReal.ofReal (∏ i : Fin n, Real.exp (uniNormLpdf (θ k0) (y i))) *
        testFn y lam n k0 k1 g (fun _ => k0) θ v =
        ∏ k, (fun k st => if k = k0 then g st else if k = k1 then tilt lam st else 1) k (θ k) := by
      intro θ
      rw [testFn, if_pos rfl, ← mul_assoc, ENNReal.mul_inv_cancel
        (ENNReal.ofReal_pos.mpr (Finset.prod_pos fun i _ => Real.exp_pos _)).ne' ofReal_ne_top, one_mul]
      rw [Finset.prod_eq_mul k0 k1 hk]
      · simp only [if_true]
        rw [if_neg hk.symm, mul_comm]
      · intro k _ h
        simp only [if_neg h.1, if_neg h.2]
      · simp
      · simp
    rw [lintegral_congr e, lintegral_prod_pi _
      (fun k st => if k = k0 then g st else if k = k1 then tilt lam st else 1) (fun k => by
        by_cases h0 : k = k0
        · simpa [h0] using hg
        · by_cases h1 : k = k1
          · simpa [h0, h1, hk.symm] using measurable_tilt lam
          · simp [h0, h1])]
    rw [Finset.prod_eq_mul k0 k1 hk]
    · simp only [if_true]
      simp only [if_neg hk.symm]
      rw [nigLaw_tilt m hl hsh hsc, mul_comm]
    · intro k _ h
      simp only [if_neg h.1, if_neg h.2]
      simp
    · simp
    · simp
  rw [posteriorAt_eq (ν := fun m => nigLaw ⟨m, lam, sh, sc⟩) (h := m)
    (fun i => measurable_uniNormLpdf (y i)) (testFn_meas lam k0 k1 hg),
    Finset.sum_eq_single (fun _ => k0)]
  · simp only [hin]
    have hm : Measurable fun v : Fin K → ℝ => ENNReal.ofReal (∏ _i : Fin n, stickWeight v k0) :=
      ENNReal.measurable_ofReal.comp (Finset.measurable_prod _ fun _ _ => measurable_stickWeight k0)
    rw [lintegral_mul_const _ hm]
    rfl
  · intro c _ hc
    simp [testFn, hc]
  · simp

end test

/-- **C100, violation.** With a Normal prior on the mean of the base measure, for every data set and
every mixture with at least two components, an iteration of blocked Gibbs does not leave the joint
posterior distribution of labels, values, sticks and hyperparameters invariant: the mean is drawn given
the values in use only, and the values of the other components, drawn with the previous mean, are
kept for the next draw of the labels. -/
theorem c100_blocked_hyperprior_violated (y : ℕ → ℝ) (draw : NIG → ℕ → UniLS)
    (normal : ℕ → ℝ → ℝ → ℝ) {mu00 sig200 lam sh sc : ℝ} (hs : 0 < sig200) (hl : 0 < lam)
    (hsh : 0 < sh) (hsc : 0 < sc) {n K : ℕ} (hn : 0 < n) (hK : 2 ≤ K) (prior : SBPrior)
    {a b : Fin K → ℝ} (hab : ∀ k : Fin K, betaParams prior K k = .ok (a k, b k))
    (ha : ∀ k, 0 < a k) (hb : ∀ k, 0 < b k) :
    (∀ (c : Fin n → Fin K) (θ : Fin K → UniLS) (v : Fin K → ℝ) (m : ℝ) (s : Alg (ℝ × ℝ) NIG UniLS)
      (mix : SBState), BlockedState (meanEnv y draw mu00 sig200 normal) prior noneSaved c θ v ⟨m, lam, sh, sc⟩
        s mix → (∀ k, 0 < v k ∧ v k ≤ 1) →
      ∃ l, blockedLaw (meanEnv y draw mu00 sig200 normal) (fun st i => uniNormLpdf st (y i))
          (fun _ => mix.logweights) K n s = .ok l ∧
        (∀ c' : Fin n → Fin K, l.prob (fun t => t.alloc = List.ofFn fun i => (c' i).val) =
          dataWeight (fun st i => uniNormLpdf st (y i)) c' θ v /
            ∑ c'' : Fin n → Fin K, dataWeight (fun st i => uniNormLpdf st (y i)) c'' θ v) ∧
        ∀ x ∈ l, ∃ c' : Fin n → Fin K, x.2.alloc = (List.ofFn fun i => (c' i).val) ∧
          ∀ (r : ℕ → ℕ) (rh : ℕ) (draws : ℕ → ℝ → ℝ → ℝ) (θ' : Fin K → UniLS),
            (∀ k, θ' k = draw (condHyp (meanEnv y draw mu00 sig200 normal) ⟨m, lam, sh, sc⟩ c' k)
              (r k)) → (∀ k, 0 < (θ' k).var) →
            ∃ s' mix', blockedRest (meanEnv y draw mu00 sig200 normal) prior false r rh draws mix x.2 =
                .ok (s', mix') ∧
              BlockedState (meanEnv y draw mu00 sig200 normal) prior noneSaved c' θ'
                (fun k => if k.val + 1 = K then 1 else
                  draws k (a k + cnt c' k) (b k + later c' k))
                ⟨normal rh (nigMeanParams mu00 sig200 lam ((inUse c' θ').map Prod.fst)).1
                  (nigMeanParams mu00 sig200 lam ((inUse c' θ').map Prod.fst)).2, lam, sh, sc⟩
                s' mix') ∧
    ∃ φ : (Fin n → Fin K) → (Fin K → UniLS) → (Fin K → ℝ) → ℝ → ℝ≥0∞,
      (∀ c, Measurable fun x : (Fin K → UniLS) × (Fin K → ℝ) × ℝ => φ c x.1 x.2.1 x.2.2) ∧
      posteriorH y n a b mu00 sig200 lam sh sc φ ≠ ∞ ∧
      posteriorH y n a b mu00 sig200 lam sh sc
        (blockedKernelH (meanEnv y draw mu00 sig200 normal) y a b mu00 sig200 lam sh sc φ) ≠
        posteriorH y n a b mu00 sig200 lam sh sc φ := by
  constructor
  · intro c θ v m s mix hst hv
    obtain ⟨l, e, h1, h2⟩ := c100_blocked_step (meanEnv y draw mu00 sig200 normal)
      (by simp [meanEnv, SplitMerge.nnigEnv]) (fun st i => uniNormLpdf st (y i)) (by omega) prior hab
      ha hb hst hv
    refine ⟨l, e, h1, fun x hx => ?_⟩
    obtain ⟨c', hc', hr⟩ := h2 x hx
    refine ⟨c', hc', fun r rh draws θ' hθ' hvar => ?_⟩
    obtain ⟨s', mix', e', hs'⟩ := hr r rh draws
    have hθ : (fun k => (meanEnv y draw mu00 sig200 normal).sample
        (drawHyp (meanEnv y draw mu00 sig200 normal) noneSaved ⟨m, lam, sh, sc⟩ c' k) (r k)) = θ' := by
      funext k
      exact (hθ' k).symm
    rw [hθ, meanEnv_hyper y draw hs normal (h := ⟨m, lam, sh, sc⟩) hl] at hs'
    · exact ⟨s', mix', e', hs'⟩
    · intro x hx
      unfold inUse at hx
      obtain ⟨k, -, hk⟩ := List.mem_filterMap.mp hx
      split at hk
      · cases hk
      · rw [← Option.some.inj hk]
        exact hvar k
  · obtain ⟨k0, hk0⟩ : ∃ k0 : Fin K, k0.val = 0 := ⟨⟨0, by omega⟩, rfl⟩
    obtain ⟨k1, hk1⟩ : ∃ k1 : Fin K, k1.val = 1 := ⟨⟨1, by omega⟩, rfl⟩
    have hk : k0 ≠ k1 := fun h => by rw [h] at hk0; omega
    have hN := normalLaw_prob mu00 hs
    obtain ⟨c0, ctop⟩ := allIn_ne (n := n) ha hb k0
    have hexp : Measurable fun m : ℝ => ENNReal.ofReal (Real.exp (-m)) := by fun_prop
    have hφ : posteriorH y n a b mu00 sig200 lam sh sc
        (fun c θ v m => testFn y lam n k0 k1 (fun _ => ENNReal.ofReal (Real.exp (-m))) c θ v) =
        allIn n a b k0 := by
      have e : ∀ m : ℝ, posteriorAt (fun st i => uniNormLpdf st (y i)) n a b
          (nigLaw ⟨m, lam, sh, sc⟩)
          (testFn y lam n k0 k1 (fun _ => ENNReal.ofReal (Real.exp (-m)))) = allIn n a b k0 := by
        intro m
        have hp := nigLaw_prob ⟨m, lam, sh, sc⟩ hl hsh hsc
        rw [posteriorAt_testFn hl hsh hsc hk measurable_const, lintegral_const, measure_univ, mul_one,
          ← ENNReal.ofReal_mul (Real.exp_pos _).le, ← Real.exp_add, add_neg_cancel, Real.exp_zero,
          ENNReal.ofReal_one, mul_one]
      exact (lintegral_congr e).trans (by rw [lintegral_const, measure_univ, mul_one])
    refine ⟨fun c θ v m => testFn y lam n k0 k1 (fun _ => ENNReal.ofReal (Real.exp (-m))) c θ v,
      fun c => ?_, by rw [hφ]; exact ctop, ?_⟩
    · unfold testFn
      by_cases hc : c = fun _ => k0
      · simp only [hc, if_true]
        have h1 := measurable_rows (n := n) (like := fun st i => uniNormLpdf st (y i))
          (fun i => measurable_uniNormLpdf (y i)) (fun _ : Fin n => k0)
        exact (h1.comp measurable_fst).inv.mul
          (((measurable_tilt lam).comp ((measurable_pi_apply k1).comp measurable_fst)).mul
            (hexp.comp (measurable_snd.comp measurable_snd)))
      · simp only [hc, if_false]
        exact measurable_const
    · rw [hφ]
      have hkern : ∀ m, posteriorAt (fun st i => uniNormLpdf st (y i)) n a b (nigLaw ⟨m, lam, sh, sc⟩)
          (fun c θ v => blockedKernelH (meanEnv y draw mu00 sig200 normal) y a b mu00 sig200 lam sh sc
            (fun c θ v m => testFn y lam n k0 k1 (fun _ => ENNReal.ofReal (Real.exp (-m))) c θ v)
            c θ v m) = allIn n a b k0 * (ENNReal.ofReal (Real.exp m) *
              ∫⁻ st, redrawn mu00 sig200 lam st ∂nigLaw ⟨m, lam, sh, sc⟩) := by
        intro m
        have hB := nnig_bayesClusters y draw (fun h l r =>
          match nigUpdateHypers (.normalMean mu00 sig200 h.varScaling h.shape h.scale) h
            (l.map Prod.fst) (normal r) (normal r) (normal r) with
          | .ok h' => h'
          | .error _ => h) (h := ⟨m, lam, sh, sc⟩) ⟨hl, hsh, hsc⟩
        have hψ : (fun (c : Fin n → Fin K) (θ : Fin K → UniLS) (v : Fin K → ℝ) =>
            ∫⁻ m', sticksStep a b (fun c θ v =>
              testFn y lam n k0 k1 (fun _ => ENNReal.ofReal (Real.exp (-m'))) c θ v) c θ v
            ∂normalLaw (nigMeanParams mu00 sig200 lam ((inUse c θ).map Prod.fst)).1
              (nigMeanParams mu00 sig200 lam ((inUse c θ).map Prod.fst)).2) =
            testFn y lam n k0 k1 (redrawn mu00 sig200 lam) := by
          funext c θ v
          have hst : ∀ m' : ℝ, sticksStep a b (fun c θ v =>
              testFn y lam n k0 k1 (fun _ => ENNReal.ofReal (Real.exp (-m'))) c θ v) c θ v =
              testFn y lam n k0 k1 (fun _ => ENNReal.ofReal (Real.exp (-m'))) c θ v := by
            intro m'
            have := stickLaw_isProb (shape_pos ha (cnt c)) (shape_pos hb (later c))
            unfold sticksStep testFn
            rw [lintegral_const, measure_univ, mul_one]
          rw [lintegral_congr hst]
          by_cases hc : c = fun _ => k0
          · simp only [testFn, hc, if_true]
            rw [inUse_const hn]
            simp only [List.map_cons, List.map_nil]
            have hm1 : Measurable fun m' : ℝ => tilt lam (θ k1) * ENNReal.ofReal (Real.exp (-m')) :=
              hexp.const_mul _
            rw [lintegral_const_mul _ hm1, lintegral_const_mul _ hexp]
            rfl
          · simp [testFn, hc]
        have hR := testFn_meas (n := n) (y := y) lam k0 k1 (measurable_redrawn mu00 sig200 lam)
        unfold blockedKernelH
        rw [hψ]
        have h1 := labels_invariant (n := n) (ν := nigLaw) (fun i => measurable_uniNormLpdf (y i))
          hB.prior ha hb (hR.values hB)
        have h2 := values_invariant (n := n) (a := a) (b := b)
          (fun i => measurable_uniNormLpdf (y i)) hB hR
        exact h1.trans (h2.trans (posteriorAt_testFn hl hsh hsc hk (measurable_redrawn _ _ _)))
      have hfin : posteriorH y n a b mu00 sig200 lam sh sc
          (blockedKernelH (meanEnv y draw mu00 sig200 normal) y a b mu00 sig200 lam sh sc
            (fun c θ v m => testFn y lam n k0 k1 (fun _ => ENNReal.ofReal (Real.exp (-m))) c θ v)) =
          allIn n a b k0 * ∫⁻ m, ENNReal.ofReal (Real.exp m) *
            ∫⁻ st, redrawn mu00 sig200 lam st ∂nigLaw ⟨m, lam, sh, sc⟩
              ∂normalLaw mu00 (Real.sqrt sig200) := by
        rw [posteriorH, lintegral_congr hkern, lintegral_const_mul' _ _ ctop]
      rw [hfin]
      have hgt := redraw_gt (mu00 := mu00) hs hl hsh hsc
      refine ne_of_gt ?_
      calc allIn n a b k0 = allIn n a b k0 * 1 := (mul_one _).symm
        _ < _ := (ENNReal.mul_lt_mul_iff_right c0 ctop).mpr hgt

/-- Non-vacuity: ten rows, three components. -/
example (y : ℕ → ℝ) (draw : NIG → ℕ → UniLS) (normal : ℕ → ℝ → ℝ → ℝ) :
    ∃ φ : (Fin 10 → Fin 3) → (Fin 3 → UniLS) → (Fin 3 → ℝ) → ℝ → ℝ≥0∞,
      posteriorH y 10 (fun _ => 1) (fun _ => 2) 0 4 1 2 1
        (blockedKernelH (meanEnv y draw 0 4 normal) y (fun _ => 1) (fun _ => 2) 0 4 1 2 1 φ) ≠
        posteriorH y 10 (fun _ => 1) (fun _ => 2) 0 4 1 2 1 φ := by
  obtain ⟨-, φ, -, -, h⟩ := c100_blocked_hyperprior_violated y draw normal (mu00 := 0) (sig200 := 4)
    (lam := 1) (sh := 2) (sc := 1) (by norm_num) (by norm_num) (by norm_num) (by norm_num) (n := 10)
    (K := 3) (by omega) (by omega) (.dp 2) (a := fun _ => 1) (b := fun _ => 2) (fun _ => rfl) (by simp)
    (by simp)
  exact ⟨φ, h⟩

end Bayesmix.Cond
