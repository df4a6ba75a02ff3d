import Verif.Algo.Neal2Iter
import Verif.Algo.PostMean

/-!
# C113, C114: Neal2 converges to the posterior over partitions and unique values, and keeps it

The hyperparameters are fixed. The posterior objects saved in the first hierarchy at initialization
(`PropsBlocked`) spoil its first draws of values, not the limit.
-/

namespace Bayesmix.Chain
open Bayesmix Cond Gibbs SplitMerge Slice Mixing Hierarchies MeasureTheory ENNReal

variable {G H Θ : Type} [AddCommGroup G] [MeasurableSpace Θ] [Nonempty Θ]

/-- What is observed of a state: its partition, and for each row the value of its cluster. -/
def observe {n : ℕ} (d : Θ) (φ : Setoid (Fin n) → (Fin n → Θ) → ℝ≥0∞) (s : Alg G H Θ) : ℝ≥0∞ :=
  φ (partOf n s.alloc) (rowValues n d s)

/-- **Convergence of Neal2.** Neal2 is initialized with `K` clusters, whatever the noise. No iteration
fails, and the mean of any function of partition and values bounded by one after `k + 1` iterations
differs from its posterior mean by at most `(1 - δ)^k`. -/
def Neal2Converges (E : Env G H Θ) (like : Θ → ℕ → ℝ) (S : Scores H) (ν : H → Measure Θ) (K n : ℕ)
    (h0 : H) (θ0 : Θ) (prior : List ℕ → ℝ) : Prop :=
  ∃ δ : ℝ, 0 < δ ∧ δ ≤ 1 ∧ ∀ (zi : InitNoise) (o : Hier G H Θ), o.CacheOk →
    ∃ s0, initAlloc E false K n h0 θ0 zi [o] = .ok s0 ∧
      (∀ k, (neal2IterMean E like S ν n)^[k] (fun _ => 1) s0 = 1) ∧
      ∀ φ : Setoid (Fin n) → (Fin n → Θ) → ℝ≥0∞, (∀ σ, Measurable (φ σ)) → (∀ σ x, φ σ x ≤ 1) →
        ∀ k, |((neal2IterMean E like S ν n)^[k + 1] (observe θ0 φ) s0).toReal -
          jointMean prior like (ν h0) φ| ≤ (1 - δ) ^ k

/-- **Invariance under Neal2.** The mean of `φ` after an iteration, as a function of the partition and
the values before, has the same posterior mean as `φ`. -/
def Neal2Keeps (E : Env G H Θ) (like : Θ → ℕ → ℝ) (S : Scores H) (ν : H → Measure Θ) (n : ℕ) (h0 : H)
    (θ0 : Θ) (prior : List ℕ → ℝ) : Prop :=
  ∀ φ : Setoid (Fin n) → (Fin n → Θ) → ℝ≥0∞, (∀ σ, Measurable (φ σ)) →
    ∃ M : Setoid (Fin n) → (Fin n → Θ) → ℝ≥0∞, (∀ σ, Measurable (M σ)) ∧
      (∀ s, Clean E n h0 s → neal2IterMean E like S ν n (observe θ0 φ) s = observe θ0 M s) ∧
      (∀ (σ : Setoid (Fin n)) (θ : Quotient σ → Θ), ∃ s, Clean E n h0 s ∧ partOf n s.alloc = σ ∧
        rowValues n θ0 s = fun j => θ (Quotient.mk σ j)) ∧
      partPost (weight prior) like (ν h0) M = partPost (weight prior) like (ν h0) φ

theorem Neal2Ok.converges {E : Env G H Θ} {like : Θ → ℕ → ℝ} {S : Scores H} {ν : H → Measure Θ}
    {n : ℕ} {h0 : H} {prior : List ℕ → ℝ} (hO : Neal2Ok E like S ν n h0 prior)
    (hk : E.kind = .conjugate) {K : ℕ} (hK : 0 < K) (hKn : K ≤ n) (θ0 : Θ) :
    Neal2Converges E like S ν K n h0 θ0 prior := by
  obtain ⟨δ, d0, d1, hδ⟩ := hO.rows.converges hO.clusters hO.meas hO.weight_pos
  refine ⟨δ, d0, d1, fun zi o ho => ?_⟩
  obtain ⟨s0, e, hs⟩ := init_seen (E := E) (n := n) hk hK hKn h0 θ0 zi ho
  refine ⟨s0, e, fun k => ?_, fun φ hφ hle k => ?_⟩
  · have h1 := (hO.iterates (g := fun _ => 1) (Ψ := fun _ _ => 1) (fun _ => measurable_const)
      (fun _ _ _ _ _ => rfl) k).2 _ _ _ _ hs
    rw [h1, iterOp_one hO.rows hO.clusters]
  · have h1 := (hO.iterates (Ψ := fun z x => φ z.1 x) (fun z => hφ z.1)
      (reads_observable θ0 φ) (k + 1)).2 _ _ _ _ hs
    change (neal2IterMean E like S ν n)^[k + 1] (observe θ0 φ) s0 = _ at h1
    rw [h1]
    exact hδ (fun z x => φ z.1 x) (fun z => hφ z.1) (fun z x => hle _ _) k _ _

theorem Neal2Ok.keeps {E : Env G H Θ} {like : Θ → ℕ → ℝ} {S : Scores H} {ν : H → Measure Θ}
    {n : ℕ} {h0 : H} {prior : List ℕ → ℝ} (hO : Neal2Ok E like S ν n h0 prior) (θ0 : Θ) :
    Neal2Keeps E like S ν n h0 θ0 prior := by
  intro φ hφ
  obtain ⟨F, hF⟩ : ∃ F, F = iterOp E ν h0 (rowOp (weight prior) like (ν h0))
    (fun (z : Spot n) x => φ z.1 x) := ⟨_, rfl⟩
  refine ⟨fun σ y => F (σ, ∅) y, fun σ => by rw [hF]; exact hO.iter_meas _ _, fun s hs => ?_,
    fun σ θ => exists_clean E h0 θ0 σ θ, ?_⟩
  · rw [hF]
    exact hO.iter_reads (Ψ := fun z x => φ z.1 x) (fun z => hφ z.1) (reads_observable θ0 φ) _ _ _ _
      (hs.seen θ0)
  · rw [hF]
    exact hO.rows.invariant hO.clusters hO.meas hO.weight_pos (Φ := fun z x => φ z.1 x)
      fun z => hφ z.1

/-! ### Pitman-Yor process -/

theorem pyPrior_pos {a b : ℝ} {py : PYState} (hpy : pyInit a b = .ok py) {n : ℕ} (hn : 2 ≤ n)
    (al : List ℕ) (hl : al.length = n) : 0 < pyPrior py al := by
  obtain ⟨rfl, p1, p2, p3⟩ := pyInit_ok hpy
  have hst : -1 < a := by linarith
  rw [pyPrior_prod (st := ⟨a, b⟩) hst (by omega) al hl]
  exact mul_pos (inv_pos.mpr (pyD_pos hst n)) (mul_pos (pyA_pos p1 p2 _)
    (Finset.prod_pos fun c _ => pyB_pos p3 _))

theorem dpPrior_pos {α : ℝ} (hα : 0 < α) {n : ℕ} (hn : 2 ≤ n) (al : List ℕ) (hl : al.length = n) :
    0 < dpPrior α al := by
  rw [dpPrior_prod hα (by omega) al hl]
  exact mul_pos (inv_pos.mpr (pyD_pos (st := ⟨α, 0⟩) (by simp only; linarith) n))
    (mul_pos (pyA_pos (st := ⟨α, 0⟩) (by simpa using hα) le_rfl _)
      (Finset.prod_pos fun c _ => pyB_pos one_pos _))

theorem py_neal2Ok (E : Env G H Θ) (hfix : ∀ h l r, E.hyperUpdate h l r = h) (hk : E.kind ≠ .other)
    {like : Θ → ℕ → ℝ} {pred : H → ℕ → ℝ} {ν : H → Measure Θ} {V : H → Prop}
    (C : Conjugate E like pred ν V) {a b : ℝ} {py : PYState} (hpy : pyInit a b = .ok py) {n : ℕ}
    (hn : 2 ≤ n) {h0 : H} (hv : V h0) : Neal2Ok E like (pyScores pred py) ν n h0 (pyPrior py) := by
  refine ⟨hk, hn, C.meas, fun al al' h1 h2 h => ?_, pyPrior_pos hpy hn, C.clusters hv, hfix h0,
    fun s hs hh i hi => ?_⟩
  · obtain ⟨rfl, p1, p2, p3⟩ := pyInit_ok hpy
    have hst : -1 < a := by linarith
    rw [pyPrior_prod (st := ⟨a, b⟩) hst (by omega) al h1,
      pyPrior_prod (st := ⟨a, b⟩) hst (by omega) al' h2, prodPost_congr _ _ h1 h2 h]
  · obtain ⟨rfl, p1, p2, p3⟩ := pyInit_ok hpy
    have hst : -1 < a := by linarith
    obtain ⟨s1, pl, p, -, -, -, -, -, -, hall⟩ := neal2_core E (pyScores pred ⟨a, b⟩) hn hk hs hi
      (C.meas i) ν (by rw [hh]; exact C.row h0 i hv)
    exact ⟨s1, pl, p, hall _ (pyD ⟨a, b⟩ n)⁻¹ (pyA ⟨a, b⟩) (pyB ⟨a, b⟩)
      (inv_pos.mpr (pyD_pos hst n)) (pyA_pos p1 p2 _) (fun c => pyB_pos p3 c)
      (pyPrior_prod hst (by omega)) (fun h1 => py_fresh pred p1 p2 _ h1)
      (fun c hc => py_exist pred p3 _ _ hc)⟩

/-- **C113, Pitman-Yor process.** With a conjugate hierarchy and fixed hyperparameters, partition and
unique values converge in total variation, geometrically, to the posterior. -/
theorem c113_neal2_pitman_yor (E : Env G H Θ) (hfix : ∀ h l r, E.hyperUpdate h l r = h)
    (hk : E.kind = .conjugate) (like : Θ → ℕ → ℝ) (pred : H → ℕ → ℝ) (ν : H → Measure Θ) (V : H → Prop)
    (C : Conjugate E like pred ν V) {a b : ℝ} {py : PYState} (hpy : pyInit a b = .ok py) (K n : ℕ)
    (hn : 2 ≤ n) (hK : 0 < K) (hKn : K ≤ n) (h0 : H) (hv : V h0) (θ0 : Θ) :
    Neal2Converges E like (pyScores pred py) ν K n h0 θ0 (pyPrior py) :=
  (py_neal2Ok E hfix (by simp [hk]) C hpy hn hv).converges hk hK hKn θ0

/-- **C113, Pitman-Yor process, normal hierarchy.** No assumption on the hierarchy is left. -/
theorem c113_neal2_nnig (y : ℕ → ℝ) (draw : NIG → ℕ → UniLS) {a b : ℝ} {py : PYState}
    (hpy : pyInit a b = .ok py) (K n : ℕ) (hn : 2 ≤ n) (hK : 0 < K) (hKn : K ≤ n) (h0 : NIG)
    (hv : NigValid h0) (θ0 : UniLS) :
    haveI : Nonempty UniLS := ⟨θ0⟩
    Neal2Converges (nnigEnv y draw fun h _ _ => h) (fun st i => uniNormLpdf st (y i))
      (pyScores (fun h i => nnigMargLpdf h (y i)) py) nigLaw K n h0 θ0 (pyPrior py) := by
  haveI : Nonempty UniLS := ⟨θ0⟩
  exact c113_neal2_pitman_yor _ (fun _ _ _ => rfl) (by simp [nnigEnv]) _ _ nigLaw NigValid
    (nnig_conjugate y draw _) hpy K n hn hK hKn h0 hv θ0

/-- Three rows, two initial clusters; the probability that the first two rows end up together with a
cluster mean above zero. -/
example (y : ℕ → ℝ) (draw : NIG → ℕ → UniLS) (θ0 : UniLS) (zi : InitNoise)
    (o : Hier (ℝ × ℝ) NIG UniLS) (ho : o.saved = false) :
    haveI : Nonempty UniLS := ⟨θ0⟩
    ∃ δ : ℝ, 0 < δ ∧ ∃ s0, initAlloc (nnigEnv y draw fun h _ _ => h) false 2 3 ⟨0, 1, 2, 1⟩ θ0 zi [o] =
      .ok s0 ∧ ∀ k, |((neal2IterMean (nnigEnv y draw fun h _ _ => h) (fun st i => uniNormLpdf st (y i))
          (pyScores (fun h i => nnigMargLpdf h (y i)) ⟨1, 1 / 2⟩) nigLaw 3)^[k + 1]
          (observe θ0 fun (σ : Setoid (Fin 3)) x => open Classical in
            if σ 0 1 ∧ 0 < (x 0).mean then 1 else 0) s0).toReal -
        jointMean (pyPrior ⟨1, 1 / 2⟩) (fun st i => uniNormLpdf st (y i)) (nigLaw ⟨0, 1, 2, 1⟩)
          (fun (σ : Setoid (Fin 3)) x => open Classical in
            if σ 0 1 ∧ 0 < (x 0).mean then 1 else 0)| ≤ (1 - δ) ^ k := by
  classical
  haveI : Nonempty UniLS := ⟨θ0⟩
  obtain ⟨δ, d0, -, h⟩ := c113_neal2_nnig y draw (a := 1) (b := 1 / 2) (py := ⟨1, 1 / 2⟩)
    (by norm_num [pyInit]) 2 3 (by omega) (by omega) (by omega) ⟨0, 1, 2, 1⟩ (by norm_num [NigValid]) θ0
  obtain ⟨s0, e, -, h⟩ := h zi o (by simp [Hier.CacheOk, ho])
  refine ⟨δ, d0, s0, e, fun k => h _ (fun σ => ?_) (fun σ x => ?_) k⟩
  · refine Measurable.ite ?_ measurable_const measurable_const
    by_cases hσ : σ 0 1
    · simp only [hσ, true_and]
      exact measurableSet_lt measurable_const (measurable_mean.comp (measurable_pi_apply 0))
    · simp [hσ]
  · split <;> simp

/-- **C113, Pitman-Yor process, linear regression.** -/
theorem c113_neal2_linreg {d : ℕ} (y : ℕ → ℝ) (x : ℕ → Fin d → ℝ) (draw : MNIG d → ℕ → UniLinRegLS d)
    {a b : ℝ} {py : PYState} (hpy : pyInit a b = .ok py) (K n : ℕ) (hn : 2 ≤ n) (hK : 0 < K)
    (hKn : K ≤ n) (h0 : MNIG d) (hv : MnigValid h0) (θ0 : UniLinRegLS d) :
    haveI : Nonempty (UniLinRegLS d) := ⟨θ0⟩
    Neal2Converges (linRegEnv y x draw fun h _ _ => h) (fun st i => linRegLpdf st (y i) (x i))
      (pyScores (fun h i => linRegMargLpdf h (y i) (x i)) py) mnigLaw K n h0 θ0 (pyPrior py) := by
  haveI : Nonempty (UniLinRegLS d) := ⟨θ0⟩
  exact c113_neal2_pitman_yor _ (fun _ _ _ => rfl) (by simp [linRegEnv]) _ _ mnigLaw MnigValid
    (linReg_conjugate y x draw _) hpy K n hn hK hKn h0 hv θ0

example (y : ℕ → ℝ) (x : ℕ → Fin 2 → ℝ) (draw : MNIG 2 → ℕ → UniLinRegLS 2) (θ0 : UniLinRegLS 2) :
    haveI : Nonempty (UniLinRegLS 2) := ⟨θ0⟩
    Neal2Converges (linRegEnv y x draw fun h _ _ => h) (fun st i => linRegLpdf st (y i) (x i))
      (pyScores (fun h i => linRegMargLpdf h (y i) (x i)) ⟨1, 1 / 2⟩) mnigLaw 2 3 exMNIG θ0
      (pyPrior ⟨1, 1 / 2⟩) :=
  c113_neal2_linreg y x draw (a := 1) (b := 1 / 2) (by norm_num [pyInit]) 2 3 (by omega) (by omega)
    (by omega) exMNIG (mnigInit_pos exMNIG_valid) θ0

/-! ### Dirichlet process -/

theorem dp_neal2Ok (E : Env G H Θ) (hfix : ∀ h l r, E.hyperUpdate h l r = h) (hk : E.kind ≠ .other)
    {like : Θ → ℕ → ℝ} {pred : H → ℕ → ℝ} {ν : H → Measure Θ} {V : H → Prop}
    (C : Conjugate E like pred ν V) {prior : DPPrior} {dp : DPState} (hdp : DPRun prior dp) {n : ℕ}
    (hn : 2 ≤ n) {h0 : H} (hv : V h0) : Neal2Ok E like (dpScores pred dp) ν n h0 (dpPrior 1) := by
  refine ⟨hk, hn, C.meas, fun al al' h1 h2 h => ?_, dpPrior_pos one_pos hn, C.clusters hv, hfix h0,
    fun s hs hh i hi => ?_⟩
  · rw [dpPrior_prod one_pos (by omega) al h1, dpPrior_prod one_pos (by omega) al' h2,
      prodPost_congr _ _ h1 h2 h]
  · obtain ⟨s1, pl, p, -, -, -, -, -, -, hall⟩ := neal2_core E (dpScores pred dp) hn hk hs hi
      (C.meas i) ν (by rw [hh]; exact C.row h0 i hv)
    refine ⟨s1, pl, p, hall _ (pyD ⟨1, 0⟩ n)⁻¹ (pyA ⟨1, 0⟩) (pyB ⟨1, 0⟩)
      (inv_pos.mpr (pyD_pos (by norm_num) n)) (pyA_pos (by norm_num) le_rfl _)
      (fun c => pyB_pos one_pos c) (dpPrior_prod one_pos (by omega)) (fun h1 => ?_)
      (fun c hc => dp_exist pred dp _ _ hc)⟩
    rw [dp_fresh pred hdp, pyA_succ ⟨1, 0⟩ h1]
    simp [pyB]

/-- **C113, Dirichlet process, what runs converge to**: the posterior with total mass one. -/
theorem c113_neal2_dirichlet_partial (E : Env G H Θ) (hfix : ∀ h l r, E.hyperUpdate h l r = h)
    (hk : E.kind = .conjugate) (like : Θ → ℕ → ℝ) (pred : H → ℕ → ℝ) (ν : H → Measure Θ) (V : H → Prop)
    (C : Conjugate E like pred ν V) {prior : DPPrior} {dp : DPState} (hdp : DPRun prior dp) (K n : ℕ)
    (hn : 2 ≤ n) (hK : 0 < K) (hKn : K ≤ n) (h0 : H) (hv : V h0) (θ0 : Θ) :
    Neal2Converges E like (dpScores pred dp) ν K n h0 θ0 (dpPrior 1) :=
  (dp_neal2Ok E hfix (by simp [hk]) C hdp hn hv).converges hk hK hKn θ0

/-- **C113, Dirichlet process, violation.** If the configured total mass is not one, runs do not
converge to the posterior: for some set of partitions the error stays away from zero. -/
theorem c113_neal2_dirichlet_violated (E : Env G H Θ) (hfix : ∀ h l r, E.hyperUpdate h l r = h)
    (hk : E.kind = .conjugate) (like : Θ → ℕ → ℝ) (pred : H → ℕ → ℝ) (ν : H → Measure Θ) (V : H → Prop)
    (C : Conjugate E like pred ν V) {prior : DPPrior} {dp : DPState} (hdp : DPRun prior dp)
    (hmass : dp.totalmass ≠ 1) (K n : ℕ) (hn : 2 ≤ n) (hK : 0 < K) (hKn : K ≤ n) (h0 : H) (hv : V h0)
    (θ0 : Θ) :
    ∃ (A : Finset (Setoid (Fin n))) (γ : ℝ) (N : ℕ), 0 < γ ∧
      ∀ (zi : InitNoise) (o : Hier G H Θ), o.CacheOk →
        ∃ s0, initAlloc E false K n h0 θ0 zi [o] = .ok s0 ∧ ∀ k, N ≤ k →
          γ ≤ |((neal2IterMean E like (dpScores pred dp) ν n)^[k + 1]
              (observe θ0 fun σ _ => open Classical in if σ ∈ A then 1 else 0) s0).toReal -
            jointMean (dpPrior dp.totalmass) like (ν h0)
              (fun σ _ => open Classical in if σ ∈ A then 1 else 0)| := by
  classical
  obtain ⟨δ, d0, d1, hc⟩ := c113_neal2_dirichlet_partial E hfix hk like pred ν V C hdp K n hn hK hKn
    h0 hv θ0
  have hα := hdp.pos.1
  obtain ⟨α, hαd⟩ : ∃ α, α = dp.totalmass := ⟨_, rfl⟩
  rw [← hαd] at hα hmass ⊢
  obtain ⟨m, hmd⟩ : ∃ m : Finset ℕ → ℝ, m = fun D => Real.log (intLik like (ν h0) D) := ⟨_, rfl⟩
  have e : ∀ β, mixPosterior (dpPrior β) like (ν h0) = dpPosterior β m := fun β => by
    rw [hmd]
    exact funext fun al => (posterior_mix C hv _ _ al).symm
  obtain ⟨A, hA⟩ := dp_posterior_ne m hn hα hmass
  obtain ⟨N, hN⟩ := exists_pow_lt_of_lt_one (half_pos (abs_pos.mpr (sub_ne_zero.mpr hA)))
    (show 1 - δ < 1 by linarith)
  refine ⟨A, _, N, half_pos (abs_pos.mpr (sub_ne_zero.mpr hA)), fun zi o ho => ?_⟩
  obtain ⟨s0, h1, -, h2⟩ := hc zi o ho
  refine ⟨s0, h1, fun k hk' => ?_⟩
  have h5 := h2 (fun σ _ => if σ ∈ A then 1 else 0) (fun σ => measurable_const)
    (fun σ x => by split <;> simp) k
  have h6 : (1 - δ) ^ k ≤ (1 - δ) ^ N := pow_le_pow_of_le_one (by linarith) (by linarith) hk'
  have e1 := jointMean_part C hv (prior := dpPrior 1) (dpPrior_pos one_pos hn) A
  have eα := jointMean_part C hv (prior := dpPrior α) (dpPrior_pos hα hn) A
  rw [e] at e1 eα
  rw [eα]
  rw [e1] at h5
  obtain ⟨p, hp⟩ : ∃ p, p = ((neal2IterMean E like (dpScores pred dp) ν n)^[k + 1]
    (observe θ0 fun σ _ => if σ ∈ A then 1 else 0) s0).toReal := ⟨_, rfl⟩
  rw [← hp] at h5 ⊢
  have h7 := abs_sub_le (postProb n (dpPosterior 1 m) A) p (postProb n (dpPosterior α m) A)
  rw [abs_sub_comm _ p] at h7
  linarith

/-- Total mass two, three rows. -/
example (y : ℕ → ℝ) (draw : NIG → ℕ → UniLS) (θ0 : UniLS) :
    haveI : Nonempty UniLS := ⟨θ0⟩
    Neal2Converges (nnigEnv y draw fun h _ _ => h) (fun st i => uniNormLpdf st (y i))
      (dpScores (fun h i => nnigMargLpdf h (y i)) ⟨2, 0⟩) nigLaw 1 3 ⟨0, 1, 2, 1⟩ θ0 (dpPrior 1) := by
  haveI : Nonempty UniLS := ⟨θ0⟩
  exact c113_neal2_dirichlet_partial _ (fun _ _ _ => rfl) (by simp [nnigEnv]) _ _ nigLaw NigValid
    (nnig_conjugate y draw _) (prior := .fixed 2) (.init (by norm_num [dpInit, dpFresh])) 1 3
    (by omega) (by omega) (by omega) ⟨0, 1, 2, 1⟩ (by norm_num [NigValid]) θ0

example (y : ℕ → ℝ) (draw : NIG → ℕ → UniLS) (θ0 : UniLS) (zi : InitNoise)
    (o : Hier (ℝ × ℝ) NIG UniLS) (ho : o.saved = false) :
    haveI : Nonempty UniLS := ⟨θ0⟩
    ∃ (A : Finset (Setoid (Fin 3))) (γ : ℝ) (N : ℕ), 0 < γ ∧ ∃ s0,
      initAlloc (nnigEnv y draw fun h _ _ => h) false 1 3 ⟨0, 1, 2, 1⟩ θ0 zi [o] = .ok s0 ∧
      ∀ k, N ≤ k → γ ≤ |((neal2IterMean (nnigEnv y draw fun h _ _ => h)
          (fun st i => uniNormLpdf st (y i)) (dpScores (fun h i => nnigMargLpdf h (y i)) ⟨2, 0⟩) nigLaw
          3)^[k + 1] (observe θ0 fun σ _ => open Classical in if σ ∈ A then 1 else 0) s0).toReal -
        jointMean (dpPrior 2) (fun st i => uniNormLpdf st (y i)) (nigLaw ⟨0, 1, 2, 1⟩)
          (fun σ _ => open Classical in if σ ∈ A then 1 else 0)| := by
  haveI : Nonempty UniLS := ⟨θ0⟩
  obtain ⟨A, γ, N, h0, h⟩ := c113_neal2_dirichlet_violated (nnigEnv y draw fun h _ _ => h)
    (fun _ _ _ => rfl) (by simp [nnigEnv]) _ _ nigLaw NigValid
    (nnig_conjugate y draw _) (prior := .fixed 2) (dp := ⟨2, 0⟩)
    (.init (by norm_num [dpInit, dpFresh])) (by norm_num) 1 3
    (by omega) (by omega) (by omega) ⟨0, 1, 2, 1⟩ (by norm_num [NigValid]) θ0
  obtain ⟨s0, e, h⟩ := h zi o (by simp [Hier.CacheOk, ho])
  exact ⟨A, γ, N, h0, s0, e, h⟩

/-! ### Invariance -/

/-- **C114, Pitman-Yor process.** An iteration of Neal2 keeps the posterior over partitions and unique
values. -/
theorem c114_neal2_pitman_yor (E : Env G H Θ) (hfix : ∀ h l r, E.hyperUpdate h l r = h)
    (hk : E.kind ≠ .other) (like : Θ → ℕ → ℝ) (pred : H → ℕ → ℝ) (ν : H → Measure Θ) (V : H → Prop)
    (C : Conjugate E like pred ν V) {a b : ℝ} {py : PYState} (hpy : pyInit a b = .ok py) (n : ℕ)
    (hn : 2 ≤ n) (h0 : H) (hv : V h0) (θ0 : Θ) :
    Neal2Keeps E like (pyScores pred py) ν n h0 θ0 (pyPrior py) :=
  (py_neal2Ok E hfix hk C hpy hn hv).keeps θ0

/-- **C114, Pitman-Yor process, normal hierarchy.** -/
theorem c114_neal2_nnig (y : ℕ → ℝ) (draw : NIG → ℕ → UniLS) {a b : ℝ} {py : PYState}
    (hpy : pyInit a b = .ok py) (n : ℕ) (hn : 2 ≤ n) (h0 : NIG) (hv : NigValid h0) (θ0 : UniLS) :
    haveI : Nonempty UniLS := ⟨θ0⟩
    Neal2Keeps (nnigEnv y draw fun h _ _ => h) (fun st i => uniNormLpdf st (y i))
      (pyScores (fun h i => nnigMargLpdf h (y i)) py) nigLaw n h0 θ0 (pyPrior py) := by
  haveI : Nonempty UniLS := ⟨θ0⟩
  exact c114_neal2_pitman_yor _ (fun _ _ _ => rfl) (by simp [nnigEnv]) _ _ nigLaw NigValid
    (nnig_conjugate y draw _) hpy n hn h0 hv θ0

/-- **C114, Pitman-Yor process, linear regression.** -/
theorem c114_neal2_linreg {d : ℕ} (y : ℕ → ℝ) (x : ℕ → Fin d → ℝ) (draw : MNIG d → ℕ → UniLinRegLS d)
    {a b : ℝ} {py : PYState} (hpy : pyInit a b = .ok py) (n : ℕ) (hn : 2 ≤ n) (h0 : MNIG d)
    (hv : MnigValid h0) (θ0 : UniLinRegLS d) :
    haveI : Nonempty (UniLinRegLS d) := ⟨θ0⟩
    Neal2Keeps (linRegEnv y x draw fun h _ _ => h) (fun st i => linRegLpdf st (y i) (x i))
      (pyScores (fun h i => linRegMargLpdf h (y i) (x i)) py) mnigLaw n h0 θ0 (pyPrior py) := by
  haveI : Nonempty (UniLinRegLS d) := ⟨θ0⟩
  exact c114_neal2_pitman_yor _ (fun _ _ _ => rfl) (by simp [linRegEnv]) _ _ mnigLaw MnigValid
    (linReg_conjugate y x draw _) hpy n hn h0 hv θ0

/-- **C114, Dirichlet process, what is kept**: the posterior with total mass one. -/
theorem c114_neal2_dirichlet_partial (E : Env G H Θ) (hfix : ∀ h l r, E.hyperUpdate h l r = h)
    (hk : E.kind ≠ .other) (like : Θ → ℕ → ℝ) (pred : H → ℕ → ℝ) (ν : H → Measure Θ) (V : H → Prop)
    (C : Conjugate E like pred ν V) {prior : DPPrior} {dp : DPState} (hdp : DPRun prior dp) (n : ℕ)
    (hn : 2 ≤ n) (h0 : H) (hv : V h0) (θ0 : Θ) :
    Neal2Keeps E like (dpScores pred dp) ν n h0 θ0 (dpPrior 1) :=
  (dp_neal2Ok E hfix hk C hdp hn hv).keeps θ0

/-- **C114, Dirichlet process, violation.** If the configured total mass is not one, an iteration does
not keep the posterior. -/
theorem c114_neal2_dirichlet_violated (E : Env G H Θ) (hfix : ∀ h l r, E.hyperUpdate h l r = h)
    (hk : E.kind ≠ .other) (like : Θ → ℕ → ℝ) (pred : H → ℕ → ℝ) (ν : H → Measure Θ) (V : H → Prop)
    (C : Conjugate E like pred ν V) {prior : DPPrior} {dp : DPState} (hdp : DPRun prior dp)
    (hmass : dp.totalmass ≠ 1) (n : ℕ) (hn : 2 ≤ n) (h0 : H) (hv : V h0) (θ0 : Θ) :
    ¬ Neal2Keeps E like (dpScores pred dp) ν n h0 θ0 (dpPrior dp.totalmass) := by
  classical
  intro hkeep
  have hO := dp_neal2Ok E hfix hk C hdp hn hv
  obtain ⟨δ, d0, d1, hδ⟩ := hO.rows.converges hO.clusters hO.meas hO.weight_pos
  have hα := hdp.pos.1
  obtain ⟨α, hαd⟩ : ∃ α, α = dp.totalmass := ⟨_, rfl⟩
  rw [← hαd] at hα hmass hkeep
  obtain ⟨m, hmd⟩ : ∃ m : Finset ℕ → ℝ, m = fun D => Real.log (intLik like (ν h0) D) := ⟨_, rfl⟩
  have e : ∀ β, mixPosterior (dpPrior β) like (ν h0) = dpPosterior β m := fun β => by
    rw [hmd]
    exact funext fun al => (posterior_mix C hv _ _ al).symm
  obtain ⟨A, hA⟩ := dp_posterior_ne m hn hα hmass
  have e1 := jointMean_part C hv (prior := dpPrior 1) (dpPrior_pos one_pos hn) A
  have eα := jointMean_part C hv (prior := dpPrior α) (dpPrior_pos hα hn) A
  rw [e] at e1 eα
  obtain ⟨φ, hφd⟩ : ∃ φ : Setoid (Fin n) → (Fin n → Θ) → ℝ≥0∞, φ = fun σ _ => if σ ∈ A then 1 else 0 :=
    ⟨_, rfl⟩
  rw [← hφd] at e1 eα
  have hφ : ∀ σ, Measurable (φ σ) := fun σ => by rw [hφd]; exact measurable_const
  have hle : ∀ σ x, φ σ x ≤ 1 := fun σ x => by rw [hφd]; dsimp only; split <;> simp
  obtain ⟨T, hT⟩ : ∃ T : (Spot n → (Fin n → Θ) → ℝ≥0∞) → Spot n → (Fin n → Θ) → ℝ≥0∞, T = iterOp E ν h0 (rowOp (n := n) (weight (dpPrior 1)) like (ν h0)) := ⟨_, rfl⟩
  have hmeas : ∀ k, MeasX (T^[k] fun (z : Spot n) x => φ z.1 x) := by
    intro k
    cases k with
    | zero => exact fun z => hφ z.1
    | succ k =>
      rw [Function.iterate_succ_apply', hT]
      exact hO.iter_meas _
  have hkept : ∀ k, partPost (weight (dpPrior α)) like (ν h0)
      (fun σ y => T^[k] (fun (z : Spot n) x => φ z.1 x) (σ, ∅) y) =
      partPost (weight (dpPrior α)) like (ν h0) φ := by
    intro k
    induction k with
    | zero => rfl
    | succ k ih =>
      obtain ⟨F, hF⟩ : ∃ F : Spot n → (Fin n → Θ) → ℝ≥0∞, F = T^[k] fun (z : Spot n) x => φ z.1 x := ⟨_, rfl⟩
      obtain ⟨M, -, h1, h2, h3⟩ := hkeep (fun σ y => F (σ, ∅) y) fun σ => by rw [hF]; exact hmeas k _
      rw [Function.iterate_succ_apply', ← hF]
      rw [← hF] at ih
      rw [← ih, ← h3]
      have key : ∀ (σ : Setoid (Fin n)) (θ : Quotient σ → Θ),
          T F (σ, ∅) (fun i => θ (Quotient.mk σ i)) = M σ (fun i => θ (Quotient.mk σ i)) := by
        intro σ θ
        obtain ⟨s, hs, hp, hval⟩ := h2 σ θ
        have h4 := h1 s hs
        have h5 := hO.iter_reads (Ψ := fun (z : Spot n) x => F (z.1, ∅) x)
          (fun z => by rw [hF]; exact hmeas k _) (reads_observable θ0 fun σ y => F (σ, ∅) y) _ _ _ _
          (hs.seen θ0)
        change neal2IterMean E like (dpScores pred dp) ν n (observe θ0 fun σ y => F (σ, ∅) y) s = _ at h5
        rw [h4, observe, hp, hval] at h5
        rw [h5, hT]
        exact (congrFun (iterOp_clean (like := like) (Ψ := fun (z : Spot n) x => F (z.1, ∅) x) (Ψ' := F)
          (fun _ => rfl) σ) _).symm
      exact le_antisymm (partPost_mono fun σ θ => (key σ θ).le) (partPost_mono fun σ θ => (key σ θ).ge)
  obtain ⟨N, hN⟩ := exists_pow_lt_of_lt_one (abs_pos.mpr (sub_ne_zero.mpr hA))
    (show 1 - δ < 1 by linarith)
  have hnear := jointMean_near hO.clusters hO.meas (prior := dpPrior α) (dpPrior_pos hα hn)
    (Φ := fun σ y => T^[N + 1] (fun (z : Spot n) x => φ z.1 x) (σ, ∅) y)
    (c := jointMean (dpPrior 1) like (ν h0) φ) (ε := (1 - δ) ^ N) (fun σ y => ?_) (fun σ y => ?_)
  · rw [jointMean, hkept] at hnear
    change |jointMean (dpPrior α) like (ν h0) φ - _| ≤ _ at hnear
    rw [e1, eα, abs_sub_comm] at hnear
    linarith
  · rw [hT]
    exact ne_top_of_le_ne_top ENNReal.one_ne_top
      (iterOp_le_one hO.rows hO.clusters (fun z x => hle z.1 x) _ _ _)
  · rw [hT]
    exact hδ (fun z x => φ z.1 x) (fun z => hφ z.1) (fun z x => hle _ _) N _ _

example (y : ℕ → ℝ) (draw : NIG → ℕ → UniLS) (θ0 : UniLS) :
    haveI : Nonempty UniLS := ⟨θ0⟩
    ¬ Neal2Keeps (nnigEnv y draw fun h _ _ => h) (fun st i => uniNormLpdf st (y i))
      (dpScores (fun h i => nnigMargLpdf h (y i)) ⟨2, 0⟩) nigLaw 3 ⟨0, 1, 2, 1⟩ θ0 (dpPrior 2) := by
  haveI : Nonempty UniLS := ⟨θ0⟩
  exact c114_neal2_dirichlet_violated _ (fun _ _ _ => rfl) (by simp [nnigEnv]) _ _ nigLaw NigValid
    (nnig_conjugate y draw _) (prior := .fixed 2) (dp := ⟨2, 0⟩)
    (.init (by norm_num [dpInit, dpFresh])) (by norm_num) 3
    (by omega) ⟨0, 1, 2, 1⟩ (by norm_num [NigValid]) θ0

example (y : ℕ → ℝ) (draw : NIG → ℕ → UniLS) (θ0 : UniLS) :
    haveI : Nonempty UniLS := ⟨θ0⟩
    Neal2Keeps (nnigEnv y draw fun h _ _ => h) (fun st i => uniNormLpdf st (y i))
      (pyScores (fun h i => nnigMargLpdf h (y i)) ⟨1, 1 / 2⟩) nigLaw 3 ⟨0, 1, 2, 1⟩ θ0
      (pyPrior ⟨1, 1 / 2⟩) :=
  c114_neal2_nnig y draw (a := 1) (b := 1 / 2) (by norm_num [pyInit]) 3 (by omega) ⟨0, 1, 2, 1⟩
    (by norm_num [NigValid]) θ0

example (y : ℕ → ℝ) (x : ℕ → Fin 2 → ℝ) (draw : MNIG 2 → ℕ → UniLinRegLS 2) (θ0 : UniLinRegLS 2) :
    haveI : Nonempty (UniLinRegLS 2) := ⟨θ0⟩
    Neal2Keeps (linRegEnv y x draw fun h _ _ => h) (fun st i => linRegLpdf st (y i) (x i))
      (pyScores (fun h i => linRegMargLpdf h (y i) (x i)) ⟨1, 1 / 2⟩) mnigLaw 3 exMNIG θ0
      (pyPrior ⟨1, 1 / 2⟩) :=
  c114_neal2_linreg y x draw (a := 1) (b := 1 / 2) (by norm_num [pyInit]) 3 (by omega) exMNIG
    (mnigInit_pos exMNIG_valid) θ0

example (y : ℕ → ℝ) (draw : NIG → ℕ → UniLS) (θ0 : UniLS) :
    haveI : Nonempty UniLS := ⟨θ0⟩
    Neal2Keeps (nnigEnv y draw fun h _ _ => h) (fun st i => uniNormLpdf st (y i))
      (dpScores (fun h i => nnigMargLpdf h (y i)) ⟨2, 0⟩) nigLaw 3 ⟨0, 1, 2, 1⟩ θ0 (dpPrior 1) := by
  haveI : Nonempty UniLS := ⟨θ0⟩
  exact c114_neal2_dirichlet_partial _ (fun _ _ _ => rfl) (by simp [nnigEnv]) _ _ nigLaw NigValid
    (nnig_conjugate y draw _) (prior := .fixed 2) (.init (by norm_num [dpInit, dpFresh])) 3
    (by omega) ⟨0, 1, 2, 1⟩ (by norm_num [NigValid]) θ0

end Bayesmix.Chain
