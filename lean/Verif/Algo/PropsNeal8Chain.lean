import Verif.Algo.Neal8Iter

/-!
# C115, C116: Neal8 converges to the posterior over partitions and unique values, and keeps it

As C113 and C114, for Neal8 with any number `m + 1` of auxiliary blocks. Which blocks there are at the
start does not matter.
-/

namespace Bayesmix.Chain
open Bayesmix Cond Gibbs SplitMerge Slice Mixing Hierarchies MeasureTheory ENNReal

variable {G H Θ : Type} [AddCommGroup G] [MeasurableSpace Θ] [Nonempty Θ]

/-- **Convergence of Neal8.** Neal8 is initialized with `K` clusters, whatever the noise, and `m + 1`
auxiliary blocks. No iteration fails, and the mean of any function of partition and values bounded by
one after `k + 1` iterations differs from its posterior mean by at most `(1 - δ)^k`. -/
def Neal8Converges (E : Env G H Θ) (like : Θ → ℕ → ℝ) (S : Scores H) (ν : H → Measure Θ) (K n m : ℕ)
    (h0 : H) (θ0 : Θ) (prior : List ℕ → ℝ) : Prop :=
  ∃ δ : ℝ, 0 < δ ∧ δ ≤ 1 ∧ ∀ (zi : InitNoise) (o : Hier G H Θ) (aux : List (Hier G H Θ)), o.CacheOk →
    aux.length = m + 1 → ∃ s0, initAlloc E false K n h0 θ0 zi [o] = .ok s0 ∧
      (∀ k, (neal8IterMean E like S ν n)^[k] (fun _ => 1) ⟨s0, aux⟩ = 1) ∧
      ∀ φ : Setoid (Fin n) → (Fin n → Θ) → ℝ≥0∞, (∀ σ, Measurable (φ σ)) → (∀ σ x, φ σ x ≤ 1) →
        ∀ k, |((neal8IterMean E like S ν n)^[k + 1] (fun s => observe θ0 φ s.base) ⟨s0, aux⟩).toReal -
          jointMean prior like (ν h0) φ| ≤ (1 - δ) ^ k

/-- **Invariance under Neal8.** The mean of `φ` after an iteration, as a function of the partition and
the values before, has the same posterior mean as `φ`. -/
def Neal8Keeps (E : Env G H Θ) (like : Θ → ℕ → ℝ) (S : Scores H) (ν : H → Measure Θ) (n m : ℕ) (h0 : H)
    (θ0 : Θ) (prior : List ℕ → ℝ) : Prop :=
  ∀ φ : Setoid (Fin n) → (Fin n → Θ) → ℝ≥0∞, (∀ σ, Measurable (φ σ)) →
    ∃ M : Setoid (Fin n) → (Fin n → Θ) → ℝ≥0∞, (∀ σ, Measurable (M σ)) ∧
      (∀ s aux, Clean E n h0 s → aux.length = m + 1 →
        neal8IterMean E like S ν n (fun t => observe θ0 φ t.base) ⟨s, aux⟩ = observe θ0 M s) ∧
      (∀ (σ : Setoid (Fin n)) (θ : Quotient σ → Θ), ∃ s, Clean E n h0 s ∧ partOf n s.alloc = σ ∧
        rowValues n θ0 s = fun j => θ (Quotient.mk σ j)) ∧
      partPost (weight prior) like (ν h0) M = partPost (weight prior) like (ν h0) φ

theorem Neal8Ok.converges {E : Env G H Θ} {like : Θ → ℕ → ℝ} {S : Scores H} {ν : H → Measure Θ}
    {n : ℕ} {h0 : H} {prior : List ℕ → ℝ} (hO : Neal8Ok E like S ν n h0 prior)
    (hk : E.kind = .conjugate) {K : ℕ} (hK : 0 < K) (hKn : K ≤ n) (m : ℕ) (θ0 : Θ) :
    Neal8Converges E like S ν K n m h0 θ0 prior := by
  obtain ⟨δ, d0, d1, hδ⟩ := (hO.rows m).converges hO.clusters hO.meas hO.weight_pos
  refine ⟨δ, d0, d1, fun zi o aux ho haux => ?_⟩
  obtain ⟨s0, e, hs⟩ := init_seen (E := E) (n := n) hk hK hKn h0 θ0 zi ho
  refine ⟨s0, e, fun k => ?_, fun φ hφ hle k => ?_⟩
  · have h1 := (hO.iterates (m := m) (g := fun _ => 1) (Ψ := fun _ _ => 1) (fun _ => measurable_const)
      (fun _ _ _ _ _ _ => rfl) k).2 _ _ _ ⟨s0, aux⟩ hs haux
    rw [h1, iterOp_one (hO.rows m) hO.clusters]
  · have h1 := (hO.iterates (m := m) (Ψ := fun z x => φ z.1 x) (fun z => hφ z.1)
      (reads8_observable m θ0 φ) (k + 1)).2 _ _ _ ⟨s0, aux⟩ hs haux
    rw [h1]
    exact hδ (fun z x => φ z.1 x) (fun z => hφ z.1) (fun z x => hle _ _) k _ _

theorem Neal8Ok.keeps {E : Env G H Θ} {like : Θ → ℕ → ℝ} {S : Scores H} {ν : H → Measure Θ}
    {n : ℕ} {h0 : H} {prior : List ℕ → ℝ} (hO : Neal8Ok E like S ν n h0 prior) (m : ℕ) (θ0 : Θ) :
    Neal8Keeps E like S ν n m h0 θ0 prior := by
  intro φ hφ
  obtain ⟨F, hF⟩ : ∃ F, F = iterOp E ν h0 (row8Op (weight prior) like (ν h0) m)
    (fun (z : Spot n) x => φ z.1 x) := ⟨_, rfl⟩
  refine ⟨fun σ y => F (σ, ∅) y, fun σ => by rw [hF]; exact hO.iter_meas m _ _,
    fun s aux hs haux => ?_, fun σ θ => exists_clean E h0 θ0 σ θ, ?_⟩
  · rw [hF]
    exact hO.iter_reads (Ψ := fun z x => φ z.1 x) (fun z => hφ z.1) (reads8_observable m θ0 φ) _ _ _
      ⟨s, aux⟩ (hs.seen θ0) haux
  · rw [hF]
    exact (hO.rows m).invariant hO.clusters hO.meas hO.weight_pos (Φ := fun z x => φ z.1 x)
      fun z => hφ z.1

/-! ### Pitman-Yor process -/

theorem py_neal8Ok (E : Env G H Θ) (hfix : ∀ h l r, E.hyperUpdate h l r = h) (hk : E.kind ≠ .other)
    {like : Θ → ℕ → ℝ} {pred : H → ℕ → ℝ} {ν : H → Measure Θ} {V : H → Prop}
    (C : Conjugate E like pred ν V) {a b : ℝ} {py : PYState} (hpy : pyInit a b = .ok py) {n : ℕ}
    (hn : 2 ≤ n) {h0 : H} (hv : V h0) : Neal8Ok E like (pyScores pred py) ν n h0 (pyPrior py) := by
  have hO := py_neal2Ok E hfix hk C hpy hn hv
  refine ⟨hk, hn, hO.meas, hO.same, hO.pos, hO.clusters, hO.fix, fun s hs _ i hi s1 y hdet => ?_⟩
  obtain ⟨rfl, p1, p2, p3⟩ := pyInit_ok hpy
  have hst : -1 < a := by linarith
  exact fits_of_prod (E := E) hs hi hdet hn (κ := (pyD ⟨a, b⟩ n)⁻¹) (A := pyA ⟨a, b⟩)
    (B := pyB ⟨a, b⟩) (inv_pos.mpr (pyD_pos hst n)) (fun k _ => pyA_pos p1 p2 k)
    (fun c => pyB_pos p3 c) (pyPrior_prod hst (by omega)) (fun k h1 => py_fresh pred p1 p2 _ h1)
    fun k c hc => py_exist pred p3 _ _ hc

/-- **C115, Pitman-Yor process.** With a conjugate hierarchy, fixed hyperparameters and at least one
auxiliary block, partition and unique values converge in total variation, geometrically, to the
posterior. -/
theorem c115_neal8_pitman_yor (E : Env G H Θ) (hfix : ∀ h l r, E.hyperUpdate h l r = h)
    (hk : E.kind = .conjugate) (like : Θ → ℕ → ℝ) (pred : H → ℕ → ℝ) (ν : H → Measure Θ) (V : H → Prop)
    (C : Conjugate E like pred ν V) {a b : ℝ} {py : PYState} (hpy : pyInit a b = .ok py) (K n m : ℕ)
    (hn : 2 ≤ n) (hK : 0 < K) (hKn : K ≤ n) (h0 : H) (hv : V h0) (θ0 : Θ) :
    Neal8Converges E like (pyScores pred py) ν K n m h0 θ0 (pyPrior py) :=
  (py_neal8Ok E hfix (by simp [hk]) C hpy hn hv).converges hk hK hKn m θ0

/-- **C115, Pitman-Yor process, normal hierarchy.** No assumption on the hierarchy is left. -/
theorem c115_neal8_nnig (y : ℕ → ℝ) (draw : NIG → ℕ → UniLS) {a b : ℝ} {py : PYState}
    (hpy : pyInit a b = .ok py) (K n m : ℕ) (hn : 2 ≤ n) (hK : 0 < K) (hKn : K ≤ n) (h0 : NIG)
    (hv : NigValid h0) (θ0 : UniLS) :
    haveI : Nonempty UniLS := ⟨θ0⟩
    Neal8Converges (nnigEnv y draw fun h _ _ => h) (fun st i => uniNormLpdf st (y i))
      (pyScores (fun h i => nnigMargLpdf h (y i)) py) nigLaw K n m h0 θ0 (pyPrior py) := by
  haveI : Nonempty UniLS := ⟨θ0⟩
  exact c115_neal8_pitman_yor _ (fun _ _ _ => rfl) (by simp [nnigEnv]) _ _ nigLaw NigValid
    (nnig_conjugate y draw _) hpy K n m hn hK hKn h0 hv θ0

/-- Three rows, two initial clusters, two auxiliary blocks; the probability that the first two rows end
up together with a cluster mean above zero. -/
example (y : ℕ → ℝ) (draw : NIG → ℕ → UniLS) (θ0 : UniLS) (zi : InitNoise)
    (o a1 a2 : Hier (ℝ × ℝ) NIG UniLS) (ho : o.saved = false) :
    haveI : Nonempty UniLS := ⟨θ0⟩
    ∃ δ : ℝ, 0 < δ ∧ ∃ s0, initAlloc (nnigEnv y draw fun h _ _ => h) false 2 3 ⟨0, 1, 2, 1⟩ θ0 zi [o] =
      .ok s0 ∧ ∀ k, |((neal8IterMean (nnigEnv y draw fun h _ _ => h) (fun st i => uniNormLpdf st (y i))
          (pyScores (fun h i => nnigMargLpdf h (y i)) ⟨1, 1 / 2⟩) nigLaw 3)^[k + 1]
          (fun s => observe θ0 (fun (σ : Setoid (Fin 3)) x => open Classical in
            if σ 0 1 ∧ 0 < (x 0).mean then 1 else 0) s.base) ⟨s0, [a1, a2]⟩).toReal -
        jointMean (pyPrior ⟨1, 1 / 2⟩) (fun st i => uniNormLpdf st (y i)) (nigLaw ⟨0, 1, 2, 1⟩)
          (fun (σ : Setoid (Fin 3)) x => open Classical in
            if σ 0 1 ∧ 0 < (x 0).mean then 1 else 0)| ≤ (1 - δ) ^ k := by
  classical
  haveI : Nonempty UniLS := ⟨θ0⟩
  obtain ⟨δ, d0, -, h⟩ := c115_neal8_nnig y draw (a := 1) (b := 1 / 2) (py := ⟨1, 1 / 2⟩)
    (by norm_num [pyInit]) 2 3 1 (by omega) (by omega) (by omega) ⟨0, 1, 2, 1⟩
    (by norm_num [NigValid]) θ0
  obtain ⟨s0, e, -, h⟩ := h zi o [a1, a2] (by simp [Hier.CacheOk, ho]) rfl
  refine ⟨δ, d0, s0, e, fun k => h _ (fun σ => ?_) (fun σ x => ?_) k⟩
  · refine Measurable.ite ?_ measurable_const measurable_const
    by_cases hσ : σ 0 1
    · simp only [hσ, true_and]
      exact measurableSet_lt measurable_const (measurable_mean.comp (measurable_pi_apply 0))
    · simp [hσ]
  · split <;> simp

/-- **C115, Pitman-Yor process, linear regression.** -/
theorem c115_neal8_linreg {d : ℕ} (y : ℕ → ℝ) (x : ℕ → Fin d → ℝ) (draw : MNIG d → ℕ → UniLinRegLS d)
    {a b : ℝ} {py : PYState} (hpy : pyInit a b = .ok py) (K n m : ℕ) (hn : 2 ≤ n) (hK : 0 < K)
    (hKn : K ≤ n) (h0 : MNIG d) (hv : MnigValid h0) (θ0 : UniLinRegLS d) :
    haveI : Nonempty (UniLinRegLS d) := ⟨θ0⟩
    Neal8Converges (linRegEnv y x draw fun h _ _ => h) (fun st i => linRegLpdf st (y i) (x i))
      (pyScores (fun h i => linRegMargLpdf h (y i) (x i)) py) mnigLaw K n m h0 θ0 (pyPrior py) := by
  haveI : Nonempty (UniLinRegLS d) := ⟨θ0⟩
  exact c115_neal8_pitman_yor _ (fun _ _ _ => rfl) (by simp [linRegEnv]) _ _ mnigLaw MnigValid
    (linReg_conjugate y x draw _) hpy K n m hn hK hKn h0 hv θ0

example (y : ℕ → ℝ) (x : ℕ → Fin 2 → ℝ) (draw : MNIG 2 → ℕ → UniLinRegLS 2) (θ0 : UniLinRegLS 2) :
    haveI : Nonempty (UniLinRegLS 2) := ⟨θ0⟩
    Neal8Converges (linRegEnv y x draw fun h _ _ => h) (fun st i => linRegLpdf st (y i) (x i))
      (pyScores (fun h i => linRegMargLpdf h (y i) (x i)) ⟨1, 1 / 2⟩) mnigLaw 2 3 2 exMNIG θ0
      (pyPrior ⟨1, 1 / 2⟩) :=
  c115_neal8_linreg y x draw (a := 1) (b := 1 / 2) (by norm_num [pyInit]) 2 3 2 (by omega) (by omega)
    (by omega) exMNIG (mnigInit_pos exMNIG_valid) θ0

/-! ### Dirichlet process -/

theorem dp_neal8Ok (E : Env G H Θ) (hfix : ∀ h l r, E.hyperUpdate h l r = h) (hk : E.kind ≠ .other)
    {like : Θ → ℕ → ℝ} {pred : H → ℕ → ℝ} {ν : H → Measure Θ} {V : H → Prop}
    (C : Conjugate E like pred ν V) {prior : DPPrior} {dp : DPState} (hdp : DPRun prior dp) {n : ℕ}
    (hn : 2 ≤ n) {h0 : H} (hv : V h0) : Neal8Ok E like (dpScores pred dp) ν n h0 (dpPrior 1) := by
  have hO := dp_neal2Ok E hfix hk C hdp hn hv
  refine ⟨hk, hn, hO.meas, hO.same, hO.pos, hO.clusters, hO.fix, fun s hs _ i hi s1 y hdet => ?_⟩
  refine fits_of_prod (E := E) hs hi hdet hn (κ := (pyD ⟨1, 0⟩ n)⁻¹) (A := pyA ⟨1, 0⟩)
    (B := pyB ⟨1, 0⟩) (inv_pos.mpr (pyD_pos (by norm_num) n))
    (fun k _ => pyA_pos (by norm_num) le_rfl k) (fun c => pyB_pos one_pos c)
    (dpPrior_prod one_pos (by omega)) (fun k h1 => ?_) fun k c hc => dp_exist pred dp _ _ hc
  rw [dp_fresh pred hdp, pyA_succ ⟨1, 0⟩ h1]
  simp [pyB]

/-- **C115, Dirichlet process, what runs converge to**: the posterior with total mass one. -/
theorem c115_neal8_dirichlet_partial (E : Env G H Θ) (hfix : ∀ h l r, E.hyperUpdate h l r = h)
    (hk : E.kind = .conjugate) (like : Θ → ℕ → ℝ) (pred : H → ℕ → ℝ) (ν : H → Measure Θ) (V : H → Prop)
    (C : Conjugate E like pred ν V) {prior : DPPrior} {dp : DPState} (hdp : DPRun prior dp) (K n m : ℕ)
    (hn : 2 ≤ n) (hK : 0 < K) (hKn : K ≤ n) (h0 : H) (hv : V h0) (θ0 : Θ) :
    Neal8Converges E like (dpScores pred dp) ν K n m h0 θ0 (dpPrior 1) :=
  (dp_neal8Ok E hfix (by simp [hk]) C hdp hn hv).converges hk hK hKn m θ0

/-- **C115, Dirichlet process, violation.** If the configured total mass is not one, runs do not
converge to the posterior: for some set of partitions the error stays away from zero. -/
theorem c115_neal8_dirichlet_violated (E : Env G H Θ) (hfix : ∀ h l r, E.hyperUpdate h l r = h)
    (hk : E.kind = .conjugate) (like : Θ → ℕ → ℝ) (pred : H → ℕ → ℝ) (ν : H → Measure Θ) (V : H → Prop)
    (C : Conjugate E like pred ν V) {prior : DPPrior} {dp : DPState} (hdp : DPRun prior dp)
    (hmass : dp.totalmass ≠ 1) (K n m : ℕ) (hn : 2 ≤ n) (hK : 0 < K) (hKn : K ≤ n) (h0 : H) (hv : V h0)
    (θ0 : Θ) :
    ∃ (A : Finset (Setoid (Fin n))) (γ : ℝ) (N : ℕ), 0 < γ ∧
      ∀ (zi : InitNoise) (o : Hier G H Θ) (aux : List (Hier G H Θ)), o.CacheOk → aux.length = m + 1 →
        ∃ s0, initAlloc E false K n h0 θ0 zi [o] = .ok s0 ∧ ∀ k, N ≤ k →
          γ ≤ |((neal8IterMean E like (dpScores pred dp) ν n)^[k + 1]
              (fun s => observe θ0 (fun σ _ => open Classical in if σ ∈ A then 1 else 0) s.base)
                ⟨s0, aux⟩).toReal -
            jointMean (dpPrior dp.totalmass) like (ν h0)
              (fun σ _ => open Classical in if σ ∈ A then 1 else 0)| := by
  classical
  obtain ⟨δ, d0, d1, hc⟩ := c115_neal8_dirichlet_partial E hfix hk like pred ν V C hdp K n m hn hK hKn
    h0 hv θ0
  have hα := hdp.pos.1
  obtain ⟨α, hαd⟩ : ∃ α, α = dp.totalmass := ⟨_, rfl⟩
  rw [← hαd] at hα hmass ⊢
  obtain ⟨l, hld⟩ : ∃ l : Finset ℕ → ℝ, l = fun D => Real.log (intLik like (ν h0) D) := ⟨_, rfl⟩
  have e : ∀ β, mixPosterior (dpPrior β) like (ν h0) = dpPosterior β l := fun β => by
    rw [hld]
    exact funext fun al => (posterior_mix C hv _ _ al).symm
  obtain ⟨A, hA⟩ := dp_posterior_ne l hn hα hmass
  obtain ⟨N, hN⟩ := exists_pow_lt_of_lt_one (half_pos (abs_pos.mpr (sub_ne_zero.mpr hA)))
    (show 1 - δ < 1 by linarith)
  refine ⟨A, _, N, half_pos (abs_pos.mpr (sub_ne_zero.mpr hA)), fun zi o aux ho haux => ?_⟩
  obtain ⟨s0, h1, -, h2⟩ := hc zi o aux ho haux
  refine ⟨s0, h1, fun k hk' => ?_⟩
  have h5 := h2 (fun σ _ => if σ ∈ A then 1 else 0) (fun σ => measurable_const)
    (fun σ x => by split <;> simp) k
  have h6 : (1 - δ) ^ k ≤ (1 - δ) ^ N := pow_le_pow_of_le_one (by linarith) (by linarith) hk'
  have e1 := jointMean_part C hv (prior := dpPrior 1) (dpPrior_pos one_pos hn) A
  have eα := jointMean_part C hv (prior := dpPrior α) (dpPrior_pos hα hn) A
  rw [e] at e1 eα
  rw [eα]
  rw [e1] at h5
  obtain ⟨p, hp⟩ : ∃ p, p = ((neal8IterMean E like (dpScores pred dp) ν n)^[k + 1]
    (fun s => observe θ0 (fun σ _ => if σ ∈ A then 1 else 0) s.base) ⟨s0, aux⟩).toReal := ⟨_, rfl⟩
  rw [← hp] at h5 ⊢
  have h7 := abs_sub_le (postProb n (dpPosterior 1 l) A) p (postProb n (dpPosterior α l) A)
  rw [abs_sub_comm _ p] at h7
  linarith

/-- Total mass two, three rows. -/
example (y : ℕ → ℝ) (draw : NIG → ℕ → UniLS) (θ0 : UniLS) :
    haveI : Nonempty UniLS := ⟨θ0⟩
    Neal8Converges (nnigEnv y draw fun h _ _ => h) (fun st i => uniNormLpdf st (y i))
      (dpScores (fun h i => nnigMargLpdf h (y i)) ⟨2, 0⟩) nigLaw 1 3 2 ⟨0, 1, 2, 1⟩ θ0 (dpPrior 1) := by
  haveI : Nonempty UniLS := ⟨θ0⟩
  exact c115_neal8_dirichlet_partial _ (fun _ _ _ => rfl) (by simp [nnigEnv]) _ _ nigLaw NigValid
    (nnig_conjugate y draw _) (prior := .fixed 2) (.init (by norm_num [dpInit, dpFresh])) 1 3 2
    (by omega) (by omega) (by omega) ⟨0, 1, 2, 1⟩ (by norm_num [NigValid]) θ0

example (y : ℕ → ℝ) (draw : NIG → ℕ → UniLS) (θ0 : UniLS) (zi : InitNoise)
    (o a1 : Hier (ℝ × ℝ) NIG UniLS) (ho : o.saved = false) :
    haveI : Nonempty UniLS := ⟨θ0⟩
    ∃ (A : Finset (Setoid (Fin 3))) (γ : ℝ) (N : ℕ), 0 < γ ∧ ∃ s0,
      initAlloc (nnigEnv y draw fun h _ _ => h) false 1 3 ⟨0, 1, 2, 1⟩ θ0 zi [o] = .ok s0 ∧
      ∀ k, N ≤ k → γ ≤ |((neal8IterMean (nnigEnv y draw fun h _ _ => h)
          (fun st i => uniNormLpdf st (y i)) (dpScores (fun h i => nnigMargLpdf h (y i)) ⟨2, 0⟩) nigLaw
          3)^[k + 1] (fun s => observe θ0 (fun σ _ => open Classical in if σ ∈ A then 1 else 0) s.base)
            ⟨s0, [a1]⟩).toReal -
        jointMean (dpPrior 2) (fun st i => uniNormLpdf st (y i)) (nigLaw ⟨0, 1, 2, 1⟩)
          (fun σ _ => open Classical in if σ ∈ A then 1 else 0)| := by
  haveI : Nonempty UniLS := ⟨θ0⟩
  obtain ⟨A, γ, N, h0, h⟩ := c115_neal8_dirichlet_violated (nnigEnv y draw fun h _ _ => h)
    (fun _ _ _ => rfl) (by simp [nnigEnv]) _ _ nigLaw NigValid
    (nnig_conjugate y draw _) (prior := .fixed 2) (dp := ⟨2, 0⟩)
    (.init (by norm_num [dpInit, dpFresh])) (by norm_num) 1 3 0
    (by omega) (by omega) (by omega) ⟨0, 1, 2, 1⟩ (by norm_num [NigValid]) θ0
  obtain ⟨s0, e, h⟩ := h zi o [a1] (by simp [Hier.CacheOk, ho]) rfl
  exact ⟨A, γ, N, h0, s0, e, h⟩

/-! ### Invariance -/

/-- **C116, Pitman-Yor process.** An iteration of Neal8 keeps the posterior over partitions and unique
values. -/
theorem c116_neal8_pitman_yor (E : Env G H Θ) (hfix : ∀ h l r, E.hyperUpdate h l r = h)
    (hk : E.kind ≠ .other) (like : Θ → ℕ → ℝ) (pred : H → ℕ → ℝ) (ν : H → Measure Θ) (V : H → Prop)
    (C : Conjugate E like pred ν V) {a b : ℝ} {py : PYState} (hpy : pyInit a b = .ok py) (n m : ℕ)
    (hn : 2 ≤ n) (h0 : H) (hv : V h0) (θ0 : Θ) :
    Neal8Keeps E like (pyScores pred py) ν n m h0 θ0 (pyPrior py) :=
  (py_neal8Ok E hfix hk C hpy hn hv).keeps m θ0

/-- **C116, Pitman-Yor process, normal hierarchy.** -/
theorem c116_neal8_nnig (y : ℕ → ℝ) (draw : NIG → ℕ → UniLS) {a b : ℝ} {py : PYState}
    (hpy : pyInit a b = .ok py) (n m : ℕ) (hn : 2 ≤ n) (h0 : NIG) (hv : NigValid h0) (θ0 : UniLS) :
    haveI : Nonempty UniLS := ⟨θ0⟩
    Neal8Keeps (nnigEnv y draw fun h _ _ => h) (fun st i => uniNormLpdf st (y i))
      (pyScores (fun h i => nnigMargLpdf h (y i)) py) nigLaw n m h0 θ0 (pyPrior py) := by
  haveI : Nonempty UniLS := ⟨θ0⟩
  exact c116_neal8_pitman_yor _ (fun _ _ _ => rfl) (by simp [nnigEnv]) _ _ nigLaw NigValid
    (nnig_conjugate y draw _) hpy n m hn h0 hv θ0

/-- **C116, Pitman-Yor process, linear regression.** -/
theorem c116_neal8_linreg {d : ℕ} (y : ℕ → ℝ) (x : ℕ → Fin d → ℝ) (draw : MNIG d → ℕ → UniLinRegLS d)
    {a b : ℝ} {py : PYState} (hpy : pyInit a b = .ok py) (n m : ℕ) (hn : 2 ≤ n) (h0 : MNIG d)
    (hv : MnigValid h0) (θ0 : UniLinRegLS d) :
    haveI : Nonempty (UniLinRegLS d) := ⟨θ0⟩
    Neal8Keeps (linRegEnv y x draw fun h _ _ => h) (fun st i => linRegLpdf st (y i) (x i))
      (pyScores (fun h i => linRegMargLpdf h (y i) (x i)) py) mnigLaw n m h0 θ0 (pyPrior py) := by
  haveI : Nonempty (UniLinRegLS d) := ⟨θ0⟩
  exact c116_neal8_pitman_yor _ (fun _ _ _ => rfl) (by simp [linRegEnv]) _ _ mnigLaw MnigValid
    (linReg_conjugate y x draw _) hpy n m hn h0 hv θ0

/-- **C116, Dirichlet process, what is kept**: the posterior with total mass one. -/
theorem c116_neal8_dirichlet_partial (E : Env G H Θ) (hfix : ∀ h l r, E.hyperUpdate h l r = h)
    (hk : E.kind ≠ .other) (like : Θ → ℕ → ℝ) (pred : H → ℕ → ℝ) (ν : H → Measure Θ) (V : H → Prop)
    (C : Conjugate E like pred ν V) {prior : DPPrior} {dp : DPState} (hdp : DPRun prior dp) (n m : ℕ)
    (hn : 2 ≤ n) (h0 : H) (hv : V h0) (θ0 : Θ) :
    Neal8Keeps E like (dpScores pred dp) ν n m h0 θ0 (dpPrior 1) :=
  (dp_neal8Ok E hfix hk C hdp hn hv).keeps m θ0

/-- **C116, Dirichlet process, violation.** If the configured total mass is not one, an iteration does
not keep the posterior. -/
theorem c116_neal8_dirichlet_violated (E : Env G H Θ) (hfix : ∀ h l r, E.hyperUpdate h l r = h)
    (hk : E.kind ≠ .other) (like : Θ → ℕ → ℝ) (pred : H → ℕ → ℝ) (ν : H → Measure Θ) (V : H → Prop)
    (C : Conjugate E like pred ν V) {prior : DPPrior} {dp : DPState} (hdp : DPRun prior dp)
    (hmass : dp.totalmass ≠ 1) (n m : ℕ) (hn : 2 ≤ n) (h0 : H) (hv : V h0) (θ0 : Θ) :
    ¬ Neal8Keeps E like (dpScores pred dp) ν n m h0 θ0 (dpPrior dp.totalmass) := by
  classical
  intro hkeep
  have hO := dp_neal8Ok E hfix hk C hdp hn hv
  have hα := hdp.pos.1
  obtain ⟨α, hαd⟩ : ∃ α, α = dp.totalmass := ⟨_, rfl⟩
  rw [← hαd] at hα hmass hkeep
  obtain ⟨l, hld⟩ : ∃ l : Finset ℕ → ℝ, l = fun D => Real.log (intLik like (ν h0) D) := ⟨_, rfl⟩
  have e : ∀ β, mixPosterior (dpPrior β) like (ν h0) = dpPosterior β l := fun β => by
    rw [hld]
    exact funext fun al => (posterior_mix C hv _ _ al).symm
  obtain ⟨A, hA⟩ := dp_posterior_ne l hn hα hmass
  have e1 := jointMean_part C hv (prior := dpPrior 1) (dpPrior_pos one_pos hn) A
  have eα := jointMean_part C hv (prior := dpPrior α) (dpPrior_pos hα hn) A
  rw [e] at e1 eα
  refine (hO.rows m).only (row8Op_clean _ _ _ _) hO.clusters hO.meas hO.weight_pos
    (prior := dpPrior α) (dpPrior_pos hα hn) (φ := fun σ _ => if σ ∈ A then 1 else 0)
    (fun σ => measurable_const) (fun σ x => by split <;> simp) (fun hh => hA ?_) fun F hF => ?_
  · change jointMean (dpPrior 1) like (ν h0) _ = _ at hh
    rw [e1, eα] at hh
    exact hh
  · obtain ⟨M, -, h1, h2, h3⟩ := hkeep F hF
    rw [← h3]
    have key : ∀ (σ : Setoid (Fin n)) (θ : Quotient σ → Θ),
        iterOp E ν h0 (row8Op (weight (dpPrior 1)) like (ν h0) m) (fun z x => F z.1 x) (σ, ∅)
          (fun i => θ (Quotient.mk σ i)) = M σ (fun i => θ (Quotient.mk σ i)) := by
      intro σ θ
      obtain ⟨s, hs, hp, hval⟩ := h2 σ θ
      obtain ⟨aux, haux⟩ : ∃ aux : List (Hier G H Θ), aux.length = m + 1 :=
        ⟨List.replicate (m + 1) ⟨θ0, 0, ∅, 0, false, none⟩, by simp⟩
      have h4 := h1 s aux hs haux
      have h5 := hO.iter_reads (m := m) (Ψ := fun (z : Spot n) x => F z.1 x) (fun z => hF _)
        (reads8_observable m θ0 F) _ _ _ ⟨s, aux⟩ (hs.seen θ0) haux
      rw [h4, observe, hp, hval] at h5
      exact h5.symm
    exact le_antisymm (partPost_mono fun σ θ => (key σ θ).le) (partPost_mono fun σ θ => (key σ θ).ge)

example (y : ℕ → ℝ) (draw : NIG → ℕ → UniLS) (θ0 : UniLS) :
    haveI : Nonempty UniLS := ⟨θ0⟩
    ¬ Neal8Keeps (nnigEnv y draw fun h _ _ => h) (fun st i => uniNormLpdf st (y i))
      (dpScores (fun h i => nnigMargLpdf h (y i)) ⟨2, 0⟩) nigLaw 3 2 ⟨0, 1, 2, 1⟩ θ0 (dpPrior 2) := by
  haveI : Nonempty UniLS := ⟨θ0⟩
  exact c116_neal8_dirichlet_violated _ (fun _ _ _ => rfl) (by simp [nnigEnv]) _ _ nigLaw NigValid
    (nnig_conjugate y draw _) (prior := .fixed 2) (dp := ⟨2, 0⟩)
    (.init (by norm_num [dpInit, dpFresh])) (by norm_num) 3 2
    (by omega) ⟨0, 1, 2, 1⟩ (by norm_num [NigValid]) θ0

example (y : ℕ → ℝ) (draw : NIG → ℕ → UniLS) (θ0 : UniLS) :
    haveI : Nonempty UniLS := ⟨θ0⟩
    Neal8Keeps (nnigEnv y draw fun h _ _ => h) (fun st i => uniNormLpdf st (y i))
      (pyScores (fun h i => nnigMargLpdf h (y i)) ⟨1, 1 / 2⟩) nigLaw 3 2 ⟨0, 1, 2, 1⟩ θ0
      (pyPrior ⟨1, 1 / 2⟩) :=
  c116_neal8_nnig y draw (a := 1) (b := 1 / 2) (by norm_num [pyInit]) 3 2 (by omega) ⟨0, 1, 2, 1⟩
    (by norm_num [NigValid]) θ0

example (y : ℕ → ℝ) (x : ℕ → Fin 2 → ℝ) (draw : MNIG 2 → ℕ → UniLinRegLS 2) (θ0 : UniLinRegLS 2) :
    haveI : Nonempty (UniLinRegLS 2) := ⟨θ0⟩
    Neal8Keeps (linRegEnv y x draw fun h _ _ => h) (fun st i => linRegLpdf st (y i) (x i))
      (pyScores (fun h i => linRegMargLpdf h (y i) (x i)) ⟨1, 1 / 2⟩) mnigLaw 3 0 exMNIG θ0
      (pyPrior ⟨1, 1 / 2⟩) :=
  c116_neal8_linreg y x draw (a := 1) (b := 1 / 2) (by norm_num [pyInit]) 3 0 (by omega) exMNIG
    (mnigInit_pos exMNIG_valid) θ0

example (y : ℕ → ℝ) (draw : NIG → ℕ → UniLS) (θ0 : UniLS) :
    haveI : Nonempty UniLS := ⟨θ0⟩
    Neal8Keeps (nnigEnv y draw fun h _ _ => h) (fun st i => uniNormLpdf st (y i))
      (dpScores (fun h i => nnigMargLpdf h (y i)) ⟨2, 0⟩) nigLaw 3 2 ⟨0, 1, 2, 1⟩ θ0 (dpPrior 1) := by
  haveI : Nonempty UniLS := ⟨θ0⟩
  exact c116_neal8_dirichlet_partial _ (fun _ _ _ => rfl) (by simp [nnigEnv]) _ _ nigLaw NigValid
    (nnig_conjugate y draw _) (prior := .fixed 2) (.init (by norm_num [dpInit, dpFresh])) 3 2
    (by omega) ⟨0, 1, 2, 1⟩ (by norm_num [NigValid]) θ0

end Bayesmix.Chain
