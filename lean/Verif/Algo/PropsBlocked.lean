import Verif.Algo.BlockedIter
import Verif.Algo.PropsGibbsMore

/-!
# C100: blocked Gibbs and the posterior distribution
-/

namespace Bayesmix.Cond
open Bayesmix Mixing Slice Gibbs MeasureTheory ENNReal Hierarchies

variable {G H Θ : Type} [AddCommGroup G]

/-! ### Conjugate hierarchies -/

section conjugate

variable [MeasurableSpace Θ]

/-- A conjugate hierarchy: for hyperparameters with `V`, the laws `ν` of the drawn values, the
likelihood, the predictive density and the posterior hyperparameters fit together. -/
structure Conjugate (E : Env G H Θ) (like : Θ → ℕ → ℝ) (pred : H → ℕ → ℝ) (ν : H → Measure Θ)
    (V : H → Prop) : Prop where
  meas : ∀ i, Measurable fun θ => like θ i
  row : ∀ h i, V h → BayesRow E like pred ν h i
  valid : ∀ h i, V h → V (E.post h 1 (E.contrib i))
  chain : ∀ h, V h → ∀ (D : Finset ℕ) i, D.Nonempty → i ∉ D →
    E.post (E.post h D.card (∑ j ∈ D, E.contrib j)) 1 (E.contrib i) =
      E.post h (insert i D).card (∑ j ∈ insert i D, E.contrib j)

theorem Conjugate.post {E : Env G H Θ} {like : Θ → ℕ → ℝ} {pred : H → ℕ → ℝ} {ν : H → Measure Θ}
    {V : H → Prop} (C : Conjugate E like pred ν V) {h : H} (hv : V h) (D : Finset ℕ)
    (hD : D.Nonempty) : V (E.post h D.card (∑ j ∈ D, E.contrib j)) := by
  induction hD using Finset.Nonempty.cons_induction with
  | singleton i => simpa using C.valid h i hv
  | cons i D hi hD ih =>
    rw [Finset.cons_eq_insert, ← C.chain h hv D i hD hi]
    exact C.valid _ _ ih

theorem Conjugate.clusters {E : Env G H Θ} {like : Θ → ℕ → ℝ} {pred : H → ℕ → ℝ}
    {ν : H → Measure Θ} {V : H → Prop} (C : Conjugate E like pred ν V) {h : H} (hv : V h) :
    BayesClusters E like ν h := by
  have hpost := C.post hv
  refine ⟨(C.row h 0 hv).prior, fun D hD => (C.row _ 0 (hpost D hD)).prior, fun D hD => ?_⟩
  induction hD using Finset.Nonempty.cons_induction with
  | singleton i =>
    refine ⟨ENNReal.ofReal (Real.exp (pred h i)), (ENNReal.ofReal_pos.mpr (Real.exp_pos _)).ne',
      ofReal_ne_top, fun φ hφ => ?_⟩
    simpa using (C.row h i hv).rule φ hφ
  | cons i D hi hD ih =>
    obtain ⟨Z, z0, z1, hZ⟩ := ih
    obtain ⟨p, hp⟩ : ∃ p, p = E.post h D.card (∑ j ∈ D, E.contrib j) := ⟨_, rfl⟩
    refine ⟨Z * ENNReal.ofReal (Real.exp (pred p i)),
      mul_ne_zero z0 (ENNReal.ofReal_pos.mpr (Real.exp_pos _)).ne',
      ENNReal.mul_ne_top z1 ofReal_ne_top, fun φ hφ => ?_⟩
    have hm : Measurable fun θ => ENNReal.ofReal (Real.exp (like θ i)) * φ θ :=
      (ENNReal.measurable_ofReal.comp (Real.measurable_exp.comp (C.meas i))).mul hφ
    have h1 := hZ _ hm
    rw [← hp] at h1
    rw [(C.row p i (hp ▸ hpost D hD)).rule φ hφ, ← mul_assoc] at h1
    rw [Finset.cons_eq_insert, ← C.chain h hv D i hD hi, ← hp, ← h1]
    refine lintegral_congr fun θ => ?_
    rw [Finset.prod_insert hi, ENNReal.ofReal_mul (Real.exp_pos _).le]
    ring

theorem nnig_conjugate (y : ℕ → ℝ) (draw : NIG → ℕ → UniLS)
    (hyp : NIG → List (UniLS × ℤ) → ℕ → NIG) :
    Conjugate (SplitMerge.nnigEnv y draw hyp) (fun st i => uniNormLpdf st (y i))
      (fun h i => nnigMargLpdf h (y i)) nigLaw NigValid := by
  refine ⟨fun i => measurable_uniNormLpdf (y i), fun h i hv => nnig_bayesRow y draw hyp hv i, ?_, ?_⟩
  · intro h i hv
    exact nnigPosterior_one_pos h hv.1 hv.2.1 hv.2.2 (y i)
  · intro h hv D i hD hi
    simp only [SplitMerge.nnigEnv, Prod.fst_sum, Prod.snd_sum]
    have := nnigPosterior_add h hv.1 D.card ⟨∑ x ∈ D, y x, ∑ x ∈ D, y x ^ 2⟩ ⟨y i, y i ^ 2⟩
      (by intro h0; exact absurd h0 hD.card_ne_zero) 1 (by simp)
    simp only [Nat.cast_one] at this
    rw [this, Finset.card_insert_of_notMem hi, Finset.sum_insert hi, Finset.sum_insert hi]
    push_cast
    congr 2 <;> ring

theorem nnig_bayesClusters (y : ℕ → ℝ) (draw : NIG → ℕ → UniLS)
    (hyp : NIG → List (UniLS × ℤ) → ℕ → NIG) {h : NIG} (hv : NigValid h) :
    BayesClusters (SplitMerge.nnigEnv y draw hyp) (fun st i => uniNormLpdf st (y i)) nigLaw h :=
  (nnig_conjugate y draw hyp).clusters hv

theorem linReg_conjugate {d : ℕ} (y : ℕ → ℝ) (x : ℕ → Fin d → ℝ)
    (draw : MNIG d → ℕ → UniLinRegLS d)
    (hyp : MNIG d → List (UniLinRegLS d × ℤ) → ℕ → MNIG d) :
    Conjugate (linRegEnv y x draw hyp) (fun st i => linRegLpdf st (y i) (x i))
      (fun h i => linRegMargLpdf h (y i) (x i)) mnigLaw MnigValid := by
  refine ⟨fun i => (measurable_linRegLpdf (x i)).comp (measurable_const.prodMk measurable_id),
    fun h i hv => linReg_bayesRow y x draw hyp hv i, ?_, ?_⟩
  · intro h i hv
    exact mnigPosterior_one_pos h hv.1 hv.2.1 hv.2.2 (y i) (x i)
  · intro h hv D i hD hi
    simp only [linRegEnv, Prod.fst_sum, Prod.snd_sum]
    have hpd : (∑ j ∈ D, Matrix.vecMulVec (x j) (x j) + h.varScaling).PosDef := by
      clear hi hD
      induction D using Finset.induction_on with
      | empty => simpa using hv.1
      | insert j D hj ih =>
        rw [Finset.sum_insert hj, add_assoc]
        exact posDef_add_vecMulVec ih (x j)
    have := mnigPosterior_add h D.card 1 ⟨∑ j ∈ D, y j ^ 2, ∑ j ∈ D, Matrix.vecMulVec (x j) (x j),
      ∑ j ∈ D, y j • x j⟩ ⟨y i ^ 2, Matrix.vecMulVec (x i) (x i), y i • x i⟩ hpd
      (by intro h0; exact absurd h0 hD.card_ne_zero) (by simp)
    simp only [Nat.cast_one] at this
    rw [this, Finset.card_insert_of_notMem hi, Finset.sum_insert hi, Finset.sum_insert hi,
      Finset.sum_insert hi]
    push_cast
    congr 2
    · ring
    · exact add_comm _ _
    · exact add_comm _ _

theorem linReg_bayesClusters {d : ℕ} (y : ℕ → ℝ) (x : ℕ → Fin d → ℝ)
    (draw : MNIG d → ℕ → UniLinRegLS d)
    (hyp : MNIG d → List (UniLinRegLS d × ℤ) → ℕ → MNIG d) {h : MNIG d} (hv : MnigValid h) :
    BayesClusters (linRegEnv y x draw hyp) (fun st i => linRegLpdf st (y i) (x i)) mnigLaw h :=
  (linReg_conjugate y x draw hyp).clusters hv

end conjugate

/-! ### States -/

/-- A state with given labels, values, hyperparameters and saved hyperparameters. -/
def stateOf (E : Env G H Θ) (Q : ℕ → Option H) {n K : ℕ} (c : Fin n → Fin K) (θ : Fin K → Θ) (h : H) :
    Alg G H Θ :=
  ⟨List.ofFn fun i => (c i).val, List.ofFn fun k => ⟨θ k, cnt c k, rowsOf c k,
    ∑ i ∈ rowsOf c k, E.contrib i, (Q k).isSome, Q k⟩, h⟩

/-- Every combination of labels, values, sticks and hyperparameters occurs. -/
theorem exists_blockedState (E : Env G H Θ) (prior : SBPrior) (Q : ℕ → Option H) {n K : ℕ}
    (c : Fin n → Fin K) (θ : Fin K → Θ) (v : Fin K → ℝ) (h : H) :
    ∃ s mix, BlockedState E prior Q c θ v h s mix := by
  obtain ⟨lw, hlw, -⟩ := logweights_ok (List.ofFn v)
  have hset : sbSetSticks (List.ofFn v) = .ok ⟨List.ofFn v, lw, (List.ofFn v).length⟩ := by
    rw [sbSetSticks, hlw, ok_bind]
  have hget : ∀ k o, (stateOf E Q c θ h).clus[k]? = some o → ∃ hk : k < K, o = ⟨θ ⟨k, hk⟩,
      cnt c ⟨k, hk⟩, rowsOf c ⟨k, hk⟩, ∑ i ∈ rowsOf c ⟨k, hk⟩, E.contrib i, (Q k).isSome, Q k⟩ := by
    intro k o ho
    rw [stateOf, List.getElem?_ofFn] at ho
    split at ho
    · rename_i hk
      exact ⟨hk, (Option.some.inj ho).symm⟩
    · cases ho
  refine ⟨stateOf E Q c θ h, _, rfl, ?_, rfl, rfl, ⟨by simp [stateOf], ?_, ?_, ?_, ?_⟩, ?_, .set hset⟩
  · simp [stateOf, List.map_ofFn, Function.comp_def]
  · intro i hi
    rw [Finset.mem_range] at hi
    exact ⟨(c ⟨i, hi⟩).val, by simp [stateOf, hi], by simp [stateOf]⟩
  · intro k o ho
    obtain ⟨hk, rfl⟩ := hget k o ho
    exact (members_ofFn c ⟨k, hk⟩).symm
  · intro k o ho
    obtain ⟨hk, rfl⟩ := hget k o ho
    have := members_ofFn c ⟨k, hk⟩
    simp only [stateOf] at this ⊢
    rw [this, rowsOf_card]
  · intro k o ho
    obtain ⟨hk, rfl⟩ := hget k o ho
    have := members_ofFn c ⟨k, hk⟩
    simp only [stateOf] at this ⊢
    rw [this]
  · intro k o ho
    obtain ⟨hk, rfl⟩ := hget k o ho
    exact ⟨rfl, fun p hp => hp⟩

/-! ### The iteration -/

/-- **C100, what the code draws.** From a state with labels `c`, values `θ`, sticks `v` and
hyperparameters `h`, an iteration of blocked Gibbs does not fail. The new labels `c'` have probability
proportional to weights times likelihood. Then each value is drawn, independently, with the prior
hyperparameters if no row has its label and with the posterior ones else (but with the saved ones if
the object has any: see `c100_blocked_stale_violated`); the hyperparameters are updated from the values
in use; and each stick but the last is drawn from a Beta distribution whose parameters grow by the
numbers of rows in this component and in later ones. -/
theorem c100_blocked_step (E : Env G H Θ) (hk : E.kind ≠ .other) (like : Θ → ℕ → ℝ) {n K : ℕ}
    (hK : 0 < K) (prior : SBPrior) {a b : Fin K → ℝ}
    (hsh : ∀ k : Fin K, betaParams prior K k = .ok (a k, b k)) (ha : ∀ k, 0 < a k)
    (hb : ∀ k, 0 < b k) {c : Fin n → Fin K} {θ : Fin K → Θ} {v : Fin K → ℝ} {h : H}
    {Q : ℕ → Option H} {s : Alg G H Θ} {mix : SBState} (hs : BlockedState E prior Q c θ v h s mix)
    (hv : ∀ k, 0 < v k ∧ v k ≤ 1) :
    ∃ l, blockedLaw E like (fun _ => mix.logweights) K n s = .ok l ∧
      (∀ c' : Fin n → Fin K, l.prob (fun t => t.alloc = List.ofFn fun i => (c' i).val) =
        dataWeight like c' θ v / ∑ c'' : Fin n → Fin K, dataWeight like c'' θ v) ∧
      ∀ x ∈ l, ∃ c' : Fin n → Fin K, x.2.alloc = (List.ofFn fun i => (c' i).val) ∧
        ∀ (r : ℕ → ℕ) (rh : ℕ) (draws : ℕ → ℝ → ℝ → ℝ), ∃ s' mix',
          blockedRest E prior false r rh draws mix x.2 = .ok (s', mix') ∧
          BlockedState E prior Q c' (fun k => E.sample (drawHyp E Q h c' k) (r k))
            (fun k => if k.val + 1 = K then 1 else draws k (a k + cnt c' k) (b k + later c' k))
            (E.hyperUpdate h (inUse c' fun k => E.sample (drawHyp E Q h c' k) (r k)) rh) s' mix' := by
  obtain ⟨l, e, h1, h2⟩ := blocked_labels (like := like) hK hs hv
  refine ⟨l, e, h1, fun x hx => ?_⟩
  obtain ⟨c', hl, hlen, hc, hy, hu⟩ := h2 x hx
  refine ⟨c', hl, fun r rh draws => ?_⟩
  have hnum : mix.num = K := by
    rw [hs.run.inv.1, hs.sticks, List.length_ofFn]
  obtain ⟨s', mix', e', hs'⟩ := blockedRest_ok hk hs.run hK hnum hsh ha hb hl hlen hc hu r rh draws
  rw [hy] at hs'
  exact ⟨s', mix', e', hs'⟩

/-- Non-vacuity: three rows, two components in use out of three. -/
example (y : ℕ → ℝ) (draw : NIG → ℕ → UniLS) (θ : Fin 3 → UniLS) :
    ∃ s mix, BlockedState (SplitMerge.nnigEnv y draw fun h _ _ => h) (.dp 2)
        (firstSaved ⟨0, 1, 2, 1⟩) ![0, 2, 0] θ
        ![1 / 2, 1 / 3, 1] ⟨0, 1, 2, 1⟩ s mix ∧
      (∀ k : Fin 3, betaParams (.dp 2) 3 k = .ok (1, 2)) ∧
      ∀ k : Fin 3, 0 < ![1 / 2, 1 / 3, (1 : ℝ)] k ∧ ![1 / 2, 1 / 3, (1 : ℝ)] k ≤ 1 := by
  obtain ⟨s, mix, h⟩ := exists_blockedState (SplitMerge.nnigEnv y draw fun h _ _ => h) (.dp 2)
    (firstSaved ⟨0, 1, 2, 1⟩) (![0, 2, 0] : Fin 3 → Fin 3) θ ![1 / 2, 1 / 3, 1] ⟨0, 1, 2, 1⟩
  refine ⟨s, mix, h, fun _ => rfl, fun k => ?_⟩
  fin_cases k <;> norm_num

variable [MeasurableSpace Θ]

/-- The distribution of labels, values and sticks after an iteration from a given state, integrated
against `φ`: labels, then values, then sticks, with the laws of `c100_blocked_step`. -/
noncomputable def blockedKernel (E : Env G H Θ) (like : Θ → ℕ → ℝ) (ν : H → Measure Θ) (h : H)
    {n K : ℕ} (a b : Fin K → ℝ) (φ : (Fin n → Fin K) → (Fin K → Θ) → (Fin K → ℝ) → ℝ≥0∞) :
    (Fin n → Fin K) → (Fin K → Θ) → (Fin K → ℝ) → ℝ≥0∞ :=
  labelsStep like (valuesStep E ν h (sticksStep a b φ))

/-- **C100 (partial: hyperparameters fixed, nothing saved).** If the hyperparameters are fixed and the hierarchy is
conjugate, an iteration of blocked Gibbs leaves the posterior distribution of labels, values and
sticks invariant, and this posterior is proper. With a prior on the hyperparameters the statement is
false: see `c100_blocked_hyperprior_violated`. The kernel is that of states without saved
hyperparameters; initialization saves some in the first object: see `c100_blocked_stale_violated`. -/
theorem c100_blocked_invariant_partial (E : Env G H Θ) (like : Θ → ℕ → ℝ)
    (hlike : ∀ i, Measurable fun θ => like θ i) (ν : H → Measure Θ) (h : H)
    (hB : BayesClusters E like ν h) {n K : ℕ} (hK : 0 < K) {a b : Fin K → ℝ} (ha : ∀ k, 0 < a k)
    (hb : ∀ k, 0 < b k) :
    (∀ φ : (Fin n → Fin K) → (Fin K → Θ) → (Fin K → ℝ) → ℝ≥0∞, Meas φ →
      posteriorAt like n a b (ν h) (blockedKernel E like ν h a b φ) =
        posteriorAt like n a b (ν h) φ) ∧
    posteriorAt like n a b (ν h) (fun _ _ _ => 1) ≠ 0 ∧
      posteriorAt like n a b (ν h) (fun _ _ _ => 1) ≠ ∞ := by
  refine ⟨fun φ hφ => ?_, posteriorAt_one hlike hB ha hb hK⟩
  rw [blockedKernel, labels_invariant hlike hB.prior ha hb ((hφ.sticks ha hb).values hB),
    values_invariant hlike hB (hφ.sticks ha hb), sticks_invariant hlike hB.prior ha hb hφ]

/-- The iteration of the code with fixed hyperparameters: from every state with labels `c`, values
`θ` and sticks `v`, its laws are those of `blockedKernel`, and the posterior is invariant. -/
structure BlockedInvariant (E : Env G H Θ) (like : Θ → ℕ → ℝ) (ν : H → Measure Θ) (h : H)
    (prior : SBPrior) (n : ℕ) {K : ℕ} (a b : Fin K → ℝ) : Prop where
  step : ∀ (c : Fin n → Fin K) (θ : Fin K → Θ) (v : Fin K → ℝ) (s : Alg G H Θ) (mix : SBState),
    BlockedState E prior noneSaved c θ v h s mix → (∀ k, 0 < v k ∧ v k ≤ 1) →
    ∃ l, blockedLaw E like (fun _ => mix.logweights) K n s = .ok l ∧
      (∀ c' : Fin n → Fin K, l.prob (fun t => t.alloc = List.ofFn fun i => (c' i).val) =
        dataWeight like c' θ v / ∑ c'' : Fin n → Fin K, dataWeight like c'' θ v) ∧
      ∀ x ∈ l, ∃ c' : Fin n → Fin K, x.2.alloc = (List.ofFn fun i => (c' i).val) ∧
        ∀ (r : ℕ → ℕ) (rh : ℕ) (draws : ℕ → ℝ → ℝ → ℝ), ∃ s' mix',
          blockedRest E prior false r rh draws mix x.2 = .ok (s', mix') ∧
          BlockedState E prior noneSaved c' (fun k => E.sample (condHyp E h c' k) (r k))
            (fun k => if k.val + 1 = K then 1 else draws k (a k + cnt c' k) (b k + later c' k))
            h s' mix'
  invariant : ∀ φ : (Fin n → Fin K) → (Fin K → Θ) → (Fin K → ℝ) → ℝ≥0∞, Meas φ →
    posteriorAt like n a b (ν h) (blockedKernel E like ν h a b φ) = posteriorAt like n a b (ν h) φ
  proper : posteriorAt like n a b (ν h) (fun _ _ _ => 1) ≠ 0 ∧
    posteriorAt like n a b (ν h) (fun _ _ _ => 1) ≠ ∞

/-- **C100 (partial: nothing saved), normal model.** Normal - Normal-inverse-Gamma hierarchy with fixed
hyperparameters, for
every data set and every prior on the sticks: no assumption on the hierarchy is left. -/
theorem c100_blocked_nnig_partial (y : ℕ → ℝ) (draw : NIG → ℕ → UniLS) {h : NIG} (hv : NigValid h) (n : ℕ)
    {K : ℕ} (hK : 0 < K) (prior : SBPrior) {a b : Fin K → ℝ}
    (hsh : ∀ k : Fin K, betaParams prior K k = .ok (a k, b k)) (ha : ∀ k, 0 < a k)
    (hb : ∀ k, 0 < b k) :
    BlockedInvariant (SplitMerge.nnigEnv y draw fun h _ _ => h) (fun st i => uniNormLpdf st (y i))
      nigLaw h prior n a b := by
  obtain ⟨h1, h2⟩ := c100_blocked_invariant_partial (n := n) _ _
    (fun i => measurable_uniNormLpdf (y i)) nigLaw h
    (nnig_bayesClusters y draw (fun h _ _ => h) hv) hK ha hb
  exact ⟨fun c θ v s mix hs hv => c100_blocked_step _ (by simp [SplitMerge.nnigEnv]) _ hK prior hsh ha
    hb hs hv, h1, h2⟩

example (y : ℕ → ℝ) (draw : NIG → ℕ → UniLS) :
    BlockedInvariant (SplitMerge.nnigEnv y draw fun h _ _ => h) (fun st i => uniNormLpdf st (y i))
      nigLaw ⟨0, 1, 2, 1⟩ (.dp 2) 10 (K := 3) (fun _ => 1) (fun _ => 2) :=
  c100_blocked_nnig_partial y draw (by norm_num [NigValid]) 10 (by omega) _ (fun _ => rfl) (by simp) (by simp)

/-- **C100 (partial: nothing saved), linear regression.** -/
theorem c100_blocked_linreg_partial {d : ℕ} (y : ℕ → ℝ) (x : ℕ → Fin d → ℝ)
    (draw : MNIG d → ℕ → UniLinRegLS d) {h : MNIG d} (hv : MnigValid h) (n : ℕ)
    {K : ℕ} (hK : 0 < K) (prior : SBPrior) {a b : Fin K → ℝ}
    (hsh : ∀ k : Fin K, betaParams prior K k = .ok (a k, b k)) (ha : ∀ k, 0 < a k)
    (hb : ∀ k, 0 < b k) :
    BlockedInvariant (linRegEnv y x draw fun h _ _ => h) (fun st i => linRegLpdf st (y i) (x i))
      mnigLaw h prior n a b := by
  obtain ⟨h1, h2⟩ := c100_blocked_invariant_partial (n := n) _ _
    (fun i => (measurable_linRegLpdf (x i)).comp (measurable_const.prodMk measurable_id)) mnigLaw h
    (linReg_bayesClusters y x draw (fun h _ _ => h) hv) hK ha hb
  exact ⟨fun c θ v s mix hs hv => c100_blocked_step _ (by simp [linRegEnv]) _ hK prior hsh ha
    hb hs hv, h1, h2⟩

example (y : ℕ → ℝ) (x : ℕ → Fin 2 → ℝ) (draw : MNIG 2 → ℕ → UniLinRegLS 2) :
    BlockedInvariant (linRegEnv y x draw fun h _ _ => h) (fun st i => linRegLpdf st (y i) (x i))
      mnigLaw exMNIG (.py 1 (1 / 2)) 10 (K := 3) (fun _ => 1 - 1 / 2)
      (fun k => 1 + (k.val : ℝ) * (1 / 2)) :=
  c100_blocked_linreg_partial y x draw (mnigInit_pos exMNIG_valid) 10 (by omega) _ (fun _ => rfl) (fun _ => by norm_num)
    (fun k => by positivity)

end Bayesmix.Cond
