import Verif.Algo.SMChain
import Verif.Algo.PropsNeal3Chain

/-!
# C129: runs of the split-merge algorithm converge to the posterior over partitions
-/

namespace Bayesmix.Chain
open Bayesmix Cond Gibbs SplitMerge Slice Mixing Hierarchies MeasureTheory ENNReal

variable {G H Θ : Type} [AddCommGroup G]

/-- **Convergence.** The split-merge algorithm is initialized with `K` clusters; then, whatever the
initial labels and whatever the noise used for values, no iteration fails, and the probability that
the partition after `k` iterations is in `A` differs from the posterior probability of `A` by at most
`(1 - δ)^k`, for all sets `A` of partitions. -/
def SMConvergesTo (E : Env G H Θ) (S : Scores H) (nRestr nMh nFull K n : ℕ) (h0 : H) (θ0 : Θ)
    (π : List ℕ → ℝ) : Prop :=
  ∃ δ : ℝ, 0 < δ ∧ δ ≤ 1 ∧ ∀ (zi : InitNoise) (u : Hier G H Θ), u.saved = false →
    ∃ s0, initAlloc E true K n h0 θ0 zi [u] = .ok s0 ∧ ∀ zs : List RestNoise,
      ∃ l, smChain E S nRestr n nMh nFull zs s0 = .ok l ∧ (∀ x ∈ l, 0 ≤ x.1) ∧
        ∀ A : Finset (Setoid (Fin n)),
          |l.prob (fun t => partOf n t.alloc ∈ A) - postProb n π A| ≤ (1 - δ) ^ zs.length

theorem init_good {E : Env G H Θ} {n K : ℕ} (hk : E.kind ≠ .other) (hK : 0 < K) (hKn : K ≤ n)
    (h0 : H) (θ0 : Θ) (zi : InitNoise) {u : Hier G H Θ} (hu : u.saved = false) :
    ∃ s0, initAlloc E true K n h0 θ0 zi [u] = .ok s0 ∧ Good E n h0 s0 := by
  obtain ⟨s0, e0, hm0, -, hh0, hf0⟩ := initAlloc_ok (E := E) (upd := true) (h0 := h0) (θ0 := θ0)
    zi (o := u) (fun _ => hk) hK hKn (by simp [Hier.CacheOk, hu])
  refine ⟨s0, e0, hm0, hh0, fun o ho => ?_⟩
  obtain ⟨j, hj⟩ := List.getElem?_of_mem ho
  rw [hh0]
  exact hf0 rfl j o hj

theorem sm_init {E : Env G H Θ} {S : Scores H} {n : ℕ} {h0 : H} {φ : ℝ} (hφ : 0 < φ)
    {m : Finset ℕ → ℝ} (T : Target E S n h0 (pyPosterior ⟨φ, 0⟩ m))
    (hex : ∀ c : ℕ, 1 ≤ c → S.exist n 2 c = Real.log c) (hnew : S.fresh n 2 = Real.log φ)
    (hm : MargLik E S h0 m) (nRestr nMh : ℕ) {nFull : ℕ} (hf : 1 ≤ nFull) {K : ℕ} (hK : 0 < K)
    (hKn : K ≤ n) (θ0 : Θ) :
    SMConvergesTo E S nRestr nMh nFull K n h0 θ0 (pyPosterior ⟨φ, 0⟩ m) := by
  obtain ⟨s0, -, hs0⟩ := init_good (E := E) T.kind hK hKn h0 θ0 ⟨fun _ => 0, fun _ => 0⟩
    (u := ⟨θ0, 0, ∅, 0, false, none⟩) rfl
  obtain ⟨δ, d0, d1, hc⟩ := sm_converges hφ T hex hnew hm hs0 nRestr nMh hf
  refine ⟨δ, d0, d1, fun zi u hu => ?_⟩
  obtain ⟨s0, e0, hs0⟩ := init_good (E := E) T.kind hK hKn h0 θ0 zi hu
  exact ⟨s0, e0, hc s0 hs0⟩

/-! ### Pitman-Yor process -/

theorem py_zero {pred : H → ℕ → ℝ} {a : ℝ} (ha : 0 < a) (n : ℕ) :
    (∀ c : ℕ, 1 ≤ c → (pyScores pred ⟨a, 0⟩).exist n 2 c = Real.log c) ∧
      (pyScores pred ⟨a, 0⟩).fresh n 2 = Real.log a := by
  constructor
  · intro c hc
    have hc0 : c ≠ 0 := by omega
    simp [pyScores, pyLogMassExisting, hc0, stdLog]
  · simp [pyScores, pyLogMassNew, stdLog, ha.ne']

/-- **C129, Pitman-Yor process.** With a conjugate hierarchy, fixed hyperparameters, discount zero, at
least one full scan per iteration and any numbers of restricted scans and Metropolis-Hastings updates,
the partition converges in total variation, geometrically, to the posterior. Missing: discounts that
are not zero, for which `c129_discount_violated` refutes the claim. -/
theorem c129_pitman_yor_partial [MeasurableSpace Θ] (E : Env G H Θ)
    (hfix : ∀ h l r, E.hyperUpdate h l r = h) (hk : E.kind ≠ .other) (like : Θ → ℕ → ℝ)
    (pred : H → ℕ → ℝ) (ν : H → Measure Θ) (V : H → Prop) (C : Conjugate E like pred ν V)
    {a : ℝ} {py : PYState} (hpy : pyInit a 0 = .ok py) (nRestr nMh nFull : ℕ) (hf : 1 ≤ nFull)
    (K n : ℕ) (hn : 2 ≤ n) (hK : 0 < K) (hKn : K ≤ n) (h0 : H) (hv : V h0) (θ0 : Θ) :
    SMConvergesTo E (pyScores pred py) nRestr nMh nFull K n h0 θ0
      (mixPosterior (pyPrior py) like (ν h0)) := by
  have hm := margLik_intLik C hv (pyScores pred py) rfl
  have e : pyPosterior py (fun D => Real.log (intLik like (ν h0) D)) =
      mixPosterior (pyPrior py) like (ν h0) := funext fun al => posterior_mix C hv _ _ al
  rw [← e]
  have T := py_target E hfix hk pred hpy hn hm
  obtain ⟨rfl, h1, -, -⟩ := pyInit_ok hpy
  have ha : 0 < a := by simpa using h1
  exact sm_init ha T (py_zero ha n).1 (py_zero ha n).2 hm nRestr nMh hf hK hKn θ0

/-- **C129, normal hierarchy.** No assumption on the hierarchy is left: the limit is the posterior
under normal likelihoods and normal inverse gamma laws of mean and variance. -/
theorem c129_nnig_partial (y : ℕ → ℝ) (draw : NIG → ℕ → UniLS) {a : ℝ} {py : PYState}
    (hpy : pyInit a 0 = .ok py) (nRestr nMh nFull : ℕ) (hf : 1 ≤ nFull) (K n : ℕ) (hn : 2 ≤ n)
    (hK : 0 < K) (hKn : K ≤ n) (h0 : NIG) (hv : NigValid h0) (θ0 : UniLS) :
    SMConvergesTo (nnigEnv y draw fun h _ _ => h) (pyScores (fun h i => nnigMargLpdf h (y i)) py)
      nRestr nMh nFull K n h0 θ0
      (mixPosterior (pyPrior py) (fun st i => uniNormLpdf st (y i)) (nigLaw h0)) :=
  c129_pitman_yor_partial _ (fun _ _ _ => rfl) (by simp [nnigEnv]) _ _ nigLaw NigValid
    (nnig_conjugate y draw _) hpy nRestr nMh nFull hf K n hn hK hKn h0 hv θ0

/-- Three rows, one initial cluster, five restricted scans, one update and one full scan per
iteration. -/
example (y : ℕ → ℝ) (draw : NIG → ℕ → UniLS) (θ0 : UniLS) (zi : InitNoise)
    (u : Hier (ℝ × ℝ) NIG UniLS) (hu : u.saved = false) :
    ∃ δ : ℝ, 0 < δ ∧ ∃ s0, initAlloc (nnigEnv y draw fun h _ _ => h) true 1 3 ⟨0, 1, 2, 1⟩ θ0 zi [u] =
        .ok s0 ∧ ∀ zs : List RestNoise,
      ∃ l, smChain (nnigEnv y draw fun h _ _ => h)
          (pyScores (fun h i => nnigMargLpdf h (y i)) ⟨2, 0⟩) 5 3 1 1 zs s0 = .ok l ∧
        |l.prob (fun t => partOf 3 t.alloc ∈ ({⊤} : Finset (Setoid (Fin 3)))) -
          postProb 3 (mixPosterior (pyPrior ⟨2, 0⟩) (fun st i => uniNormLpdf st (y i))
            (nigLaw ⟨0, 1, 2, 1⟩)) {⊤}| ≤ (1 - δ) ^ zs.length := by
  obtain ⟨δ, h1, -, h⟩ := c129_nnig_partial y draw (a := 2) (py := ⟨2, 0⟩)
    (by norm_num [pyInit]) 5 1 1 le_rfl 1 3 (by omega) (by omega) (by omega) ⟨0, 1, 2, 1⟩
    (by norm_num [NigValid]) θ0
  obtain ⟨s0, e0, h⟩ := h zi u hu
  refine ⟨δ, h1, s0, e0, fun zs => ?_⟩
  obtain ⟨l, e, -, h⟩ := h zs
  exact ⟨l, e, h _⟩

/-! ### Dirichlet process -/

/-- **C129, Dirichlet process, what runs converge to.** With a fixed total mass, whatever its value,
the limit is the posterior of the Dirichlet process mixture with total mass **one**. -/
theorem c129_dirichlet_partial [MeasurableSpace Θ] (E : Env G H Θ)
    (hfix : ∀ h l r, E.hyperUpdate h l r = h) (hk : E.kind ≠ .other) (like : Θ → ℕ → ℝ)
    (pred : H → ℕ → ℝ) (ν : H → Measure Θ) (V : H → Prop) (C : Conjugate E like pred ν V)
    {prior : DPPrior} {dp : DPState} (hdp : DPRun prior dp) (nRestr nMh nFull : ℕ) (hf : 1 ≤ nFull)
    (K n : ℕ) (hn : 2 ≤ n) (hK : 0 < K) (hKn : K ≤ n) (h0 : H) (hv : V h0) (θ0 : Θ) :
    SMConvergesTo E (dpScores pred dp) nRestr nMh nFull K n h0 θ0
      (mixPosterior (dpPrior 1) like (ν h0)) := by
  have hm := margLik_intLik C hv (dpScores pred dp) rfl
  have e : dpPosterior 1 (fun D => Real.log (intLik like (ν h0) D)) =
      mixPosterior (dpPrior 1) like (ν h0) := funext fun al => posterior_mix C hv _ _ al
  rw [← e]
  have T := dp_target E hfix hk pred hdp hn hm
  rw [show dpPosterior 1 (fun D => Real.log (intLik like (ν h0) D)) = _ from
    funext (dpPosterior_eq 1 _)] at T ⊢
  refine sm_init one_pos T ?_ ?_ hm nRestr nMh hf hK hKn θ0
  · intro c hc
    have hc0 : c ≠ 0 := by omega
    simp [dpScores, dpLogMassExisting, logCard, hc0]
  · simp [dpScores, (c26_dirichlet_log_mass_violated hdp n).1]

/-- **C129, Dirichlet process, violation.** If the configured total mass is not one, runs do not
converge to the posterior: for some set of partitions the error stays away from zero however long the
chain is run, from whatever initial labels. -/
theorem c129_dirichlet_violated [MeasurableSpace Θ] (E : Env G H Θ)
    (hfix : ∀ h l r, E.hyperUpdate h l r = h) (hk : E.kind ≠ .other) (like : Θ → ℕ → ℝ)
    (pred : H → ℕ → ℝ) (ν : H → Measure Θ) (V : H → Prop) (C : Conjugate E like pred ν V)
    {prior : DPPrior} {dp : DPState} (hdp : DPRun prior dp) (hmass : dp.totalmass ≠ 1)
    (nRestr nMh nFull : ℕ) (hf : 1 ≤ nFull) (K n : ℕ)
    (hn : 2 ≤ n) (hK : 0 < K) (hKn : K ≤ n) (h0 : H) (hv : V h0) (θ0 : Θ) :
    ∃ (A : Finset (Setoid (Fin n))) (γ : ℝ) (N : ℕ), 0 < γ ∧
      ∀ (zi : InitNoise) (u : Hier G H Θ), u.saved = false →
        ∃ s0, initAlloc E true K n h0 θ0 zi [u] = .ok s0 ∧ ∀ zs : List RestNoise, N ≤ zs.length →
          ∃ l, smChain E (dpScores pred dp) nRestr n nMh nFull zs s0 = .ok l ∧
            γ ≤ |l.prob (fun t => partOf n t.alloc ∈ A) -
              postProb n (mixPosterior (dpPrior dp.totalmass) like (ν h0)) A| := by
  obtain ⟨δ, d0, d1, hc⟩ := c129_dirichlet_partial E hfix hk like pred ν V C hdp nRestr nMh nFull hf
    K n hn hK hKn h0 hv θ0
  have hα := hdp.pos.1
  obtain ⟨α, hαd⟩ : ∃ α, α = dp.totalmass := ⟨_, rfl⟩
  rw [← hαd] at hα hmass ⊢
  obtain ⟨m, hmd⟩ : ∃ m : Finset ℕ → ℝ, m = fun D => Real.log (intLik like (ν h0) D) := ⟨_, rfl⟩
  have e : ∀ β, mixPosterior (dpPrior β) like (ν h0) = dpPosterior β m := fun β => by
    rw [hmd]
    exact funext fun al => (posterior_mix C hv _ _ al).symm
  obtain ⟨A, hA⟩ := dp_posterior_ne m hn hα hmass
  obtain ⟨N, hN⟩ := exists_pow_lt_of_lt_one (half_pos (abs_pos.mpr (sub_ne_zero.mpr hA)))
    (show 1 - δ < 1 by linarith)
  refine ⟨A, _, N, half_pos (abs_pos.mpr (sub_ne_zero.mpr hA)), fun zi u hu => ?_⟩
  obtain ⟨s0, h1, h2⟩ := hc zi u hu
  refine ⟨s0, h1, fun zs hzs => ?_⟩
  obtain ⟨l, h3, -, h4⟩ := h2 zs
  refine ⟨l, h3, ?_⟩
  have h5 := h4 A
  have h6 : (1 - δ) ^ zs.length ≤ (1 - δ) ^ N :=
    pow_le_pow_of_le_one (by linarith) (by linarith) hzs
  rw [e] at h5 ⊢
  obtain ⟨p, hp⟩ : ∃ p, p = Law.prob l (fun t => partOf n t.alloc ∈ A) := ⟨_, rfl⟩
  rw [← hp] at h5 ⊢
  have h7 := abs_sub_le (postProb n (dpPosterior 1 m) A) p (postProb n (dpPosterior α m) A)
  rw [abs_sub_comm _ p] at h7
  linarith

/-- Total mass two, three rows: the limit has total mass one, and runs stay away from the posterior
with total mass two. -/
example (y : ℕ → ℝ) (draw : NIG → ℕ → UniLS) (θ0 : UniLS) :
    SMConvergesTo (nnigEnv y draw fun h _ _ => h)
      (dpScores (fun h i => nnigMargLpdf h (y i)) ⟨2, 0⟩) 5 1 1 1 3 ⟨0, 1, 2, 1⟩ θ0
      (mixPosterior (dpPrior 1) (fun st i => uniNormLpdf st (y i)) (nigLaw ⟨0, 1, 2, 1⟩)) :=
  c129_dirichlet_partial _ (fun _ _ _ => rfl) (by simp [nnigEnv]) _ _ nigLaw NigValid
    (nnig_conjugate y draw _) (prior := .fixed 2) (.init (by norm_num [dpInit, dpFresh])) 5 1 1 le_rfl
    1 3 (by omega) (by omega) (by omega) ⟨0, 1, 2, 1⟩ (by norm_num [NigValid]) θ0

example (y : ℕ → ℝ) (draw : NIG → ℕ → UniLS) (θ0 : UniLS) :
    ∃ (A : Finset (Setoid (Fin 3))) (γ : ℝ) (N : ℕ), 0 < γ ∧
      ∀ (zi : InitNoise) (u : Hier (ℝ × ℝ) NIG UniLS), u.saved = false → ∃ s0,
        initAlloc (nnigEnv y draw fun h _ _ => h) true 1 3 ⟨0, 1, 2, 1⟩ θ0 zi [u] = .ok s0 ∧
        ∀ zs : List RestNoise, N ≤ zs.length → ∃ l,
        smChain (nnigEnv y draw fun h _ _ => h) (dpScores (fun h i => nnigMargLpdf h (y i)) ⟨2, 0⟩) 5 3
          1 1 zs s0 = .ok l ∧ γ ≤ |l.prob (fun t => partOf 3 t.alloc ∈ A) -
            postProb 3 (mixPosterior (dpPrior 2) (fun st i => uniNormLpdf st (y i))
              (nigLaw ⟨0, 1, 2, 1⟩)) A| :=
  c129_dirichlet_violated (nnigEnv y draw fun h _ _ => h)
    (fun _ _ _ => rfl) (by simp [nnigEnv]) _ _ nigLaw NigValid
    (nnig_conjugate y draw _) (prior := .fixed 2) (dp := ⟨2, 0⟩)
    (.init (by norm_num [dpInit, dpFresh])) (by norm_num) 5 1 1 le_rfl 1 3
    (by omega) (by omega) (by omega) ⟨0, 1, 2, 1⟩ (by norm_num [NigValid]) θ0

end Bayesmix.Chain
