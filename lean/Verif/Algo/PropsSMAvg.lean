import Verif.Algo.SMAvg
import Verif.Algo.PropsNeal3Avg
import Verif.Algo.PropsSMChain

/-!
# C131: averages over the stored iterations of the split-merge algorithm
-/

namespace Bayesmix.Chain
open Bayesmix Cond Gibbs SplitMerge Slice Mixing Hierarchies MeasureTheory ENNReal

variable {G H Θ : Type} [AddCommGroup G]

/-- **Consistency.** The split-merge algorithm is initialized with `K` clusters and run with any burn-in
below the number of iterations. Then, whatever the initial labels and the noise used for values, the run
does not fail, stores every iteration from the burn-in on, and for every function of the partition with
range of length `C` the probability that the average over the stored iterations is off the posterior
mean by `ε` or more is at most `2 C² / (δ k ε²)`, where `k` is the number of stored iterations. -/
def SMConsistent (E : Env G H Θ) (S : Scores H) (nRestr nMh nFull K n : ℕ) (h0 : H) (θ0 : Θ)
    (π : List ℕ → ℝ) : Prop :=
  ∃ δ : ℝ, 0 < δ ∧ δ ≤ 1 ∧ ∀ (zi : InitNoise) (u : Hier G H Θ), u.saved = false →
    ∃ s0, initAlloc E true K n h0 θ0 zi [u] = .ok s0 ∧
    ∀ (burnin : ℕ) (zs : List RestNoise), burnin < zs.length →
      ∃ l, smRun E S nRestr n nMh nFull burnin zs s0 = .ok l ∧
        (∀ x ∈ l, 0 ≤ x.1 ∧ x.2.2.length = zs.length - burnin) ∧ l.prob (fun _ => True) = 1 ∧
        ∀ (f : Setoid (Fin n) → ℝ) (C : ℝ), (∀ σ τ, f σ - f τ ≤ C) → ∀ ε : ℝ, 0 < ε →
          l.prob (fun x => ε ≤ |average n f x.2 - postMean n π f|) ≤
            2 * C ^ 2 / (δ * ((zs.length - burnin : ℕ) : ℝ) * ε ^ 2)

theorem sm_consistent {E : Env G H Θ} {S : Scores H} {n : ℕ} {h0 : H} {φ : ℝ} (hφ : 0 < φ)
    {m : Finset ℕ → ℝ} (T : Target E S n h0 (pyPosterior ⟨φ, 0⟩ m))
    (hex : ∀ c : ℕ, 1 ≤ c → S.exist n 2 c = Real.log c) (hnew : S.fresh n 2 = Real.log φ)
    (hm : MargLik E S h0 m) (nRestr nMh : ℕ) {nFull : ℕ} (hf : 1 ≤ nFull) {K : ℕ} (hK : 0 < K)
    (hKn : K ≤ n) (θ0 : Θ) :
    SMConsistent E S nRestr nMh nFull K n h0 θ0 (pyPosterior ⟨φ, 0⟩ m) := by
  obtain ⟨s0, -, hs0⟩ := init_good (E := E) T.kind hK hKn h0 θ0 ⟨fun _ => 0, fun _ => 0⟩
    (u := ⟨θ0, 0, ∅, 0, false, none⟩) rfl
  obtain ⟨h1, h2, h3⟩ := smK_ok hφ T hex hnew hm hs0 nRestr nMh hf
  obtain ⟨δ, d0, d1, hc⟩ := law_averages (T.smIter nRestr nMh nFull) h1 h2 T.weight_pos h3
  refine ⟨δ, d0, d1, fun zi u hu => ?_⟩
  obtain ⟨s0, e0, hs0⟩ := init_good (E := E) T.kind hK hKn h0 θ0 zi hu
  exact ⟨s0, e0, hc s0 hs0⟩

/-- **C131, Pitman-Yor process.** With a conjugate hierarchy, fixed hyperparameters, discount zero and at
least one full scan per iteration, averages over the stored iterations are consistent for the posterior.
Missing: other discounts and runs without full scans (C129). -/
theorem c131_pitman_yor_partial [MeasurableSpace Θ] (E : Env G H Θ)
    (hfix : ∀ h l r, E.hyperUpdate h l r = h) (hk : E.kind ≠ .other) (like : Θ → ℕ → ℝ)
    (pred : H → ℕ → ℝ) (ν : H → Measure Θ) (V : H → Prop) (C : Conjugate E like pred ν V)
    {a : ℝ} {py : PYState} (hpy : pyInit a 0 = .ok py) (nRestr nMh nFull : ℕ) (hf : 1 ≤ nFull)
    (K n : ℕ) (hn : 2 ≤ n) (hK : 0 < K) (hKn : K ≤ n) (h0 : H) (hv : V h0) (θ0 : Θ) :
    SMConsistent E (pyScores pred py) nRestr nMh nFull K n h0 θ0
      (mixPosterior (pyPrior py) like (ν h0)) := by
  have hm := margLik_intLik C hv (pyScores pred py) rfl
  have e : pyPosterior py (fun D => Real.log (intLik like (ν h0) D)) =
      mixPosterior (pyPrior py) like (ν h0) := funext fun al => posterior_mix C hv _ _ al
  rw [← e]
  have T := py_target E hfix hk pred hpy hn hm
  obtain ⟨rfl, h1, -, -⟩ := pyInit_ok hpy
  have ha : 0 < a := by simpa using h1
  exact sm_consistent ha T (py_zero ha n).1 (py_zero ha n).2 hm nRestr nMh hf hK hKn θ0

/-- **C131, normal hierarchy.** No assumption on the hierarchy is left. -/
theorem c131_nnig_partial (y : ℕ → ℝ) (draw : NIG → ℕ → UniLS) {a : ℝ} {py : PYState}
    (hpy : pyInit a 0 = .ok py) (nRestr nMh nFull : ℕ) (hf : 1 ≤ nFull) (K n : ℕ) (hn : 2 ≤ n)
    (hK : 0 < K) (hKn : K ≤ n) (h0 : NIG) (hv : NigValid h0) (θ0 : UniLS) :
    SMConsistent (nnigEnv y draw fun h _ _ => h) (pyScores (fun h i => nnigMargLpdf h (y i)) py)
      nRestr nMh nFull K n h0 θ0
      (mixPosterior (pyPrior py) (fun st i => uniNormLpdf st (y i)) (nigLaw h0)) :=
  c131_pitman_yor_partial _ (fun _ _ _ => rfl) (by simp [nnigEnv]) _ _ nigLaw NigValid
    (nnig_conjugate y draw _) hpy nRestr nMh nFull hf K n hn hK hKn h0 hv θ0

open Classical in
/-- **C131, co-clustering.** With the normal hierarchy and a Pitman-Yor process of discount zero, the share of the
stored iterations in which rows `i` and `j` have the same label is a consistent estimate of the
posterior probability that they are in the same cluster. -/
theorem c131_coclustering_partial (y : ℕ → ℝ) (draw : NIG → ℕ → UniLS) {a : ℝ} {py : PYState}
    (hpy : pyInit a 0 = .ok py) (nRestr nMh nFull : ℕ) (hf : 1 ≤ nFull) (K n : ℕ) (hn : 2 ≤ n) (hK : 0 < K) (hKn : K ≤ n) (h0 : NIG)
    (hv : NigValid h0) (θ0 : UniLS) (i j : Fin n) :
    ∃ δ : ℝ, 0 < δ ∧ ∀ (zi : InitNoise) (u : Hier (ℝ × ℝ) NIG UniLS), u.saved = false →
      ∃ s0, initAlloc (nnigEnv y draw fun h _ _ => h) true K n h0 θ0 zi [u] = .ok s0 ∧
      ∀ (burnin : ℕ) (zs : List RestNoise), burnin < zs.length →
        ∃ l, smRun (nnigEnv y draw fun h _ _ => h) (pyScores (fun h i => nnigMargLpdf h (y i)) py) nRestr n
            nMh nFull burnin zs s0 = .ok l ∧ ∀ ε : ℝ, 0 < ε →
          l.prob (fun x => ε ≤
            |((x.2.countP fun t => t.alloc[i.val]? = t.alloc[j.val]?) : ℝ) / x.2.length -
              postProb n (mixPosterior (pyPrior py) (fun st i => uniNormLpdf st (y i)) (nigLaw h0))
                (Finset.univ.filter fun σ => σ i j)|) ≤
            2 / (δ * ((zs.length - burnin : ℕ) : ℝ) * ε ^ 2) := by
  obtain ⟨δ, d0, -, h⟩ := c131_nnig_partial y draw hpy nRestr nMh nFull hf K n hn hK hKn h0 hv θ0
  refine ⟨δ, d0, fun zi u hu => ?_⟩
  obtain ⟨s0, e0, h⟩ := h zi u hu
  refine ⟨s0, e0, fun burnin zs hb => ?_⟩
  obtain ⟨l, e, -, -, h⟩ := h burnin zs hb
  refine ⟨l, e, fun ε hε => ?_⟩
  have := h (fun σ => if σ i j then 1 else 0) 1 (fun σ τ => by split <;> split <;> norm_num) ε hε
  have e1 : postProb n (mixPosterior (pyPrior py) (fun st i => uniNormLpdf st (y i)) (nigLaw h0))
      (Finset.univ.filter fun σ => σ i j) = postMean n (mixPosterior (pyPrior py)
        (fun st i => uniNormLpdf st (y i)) (nigLaw h0)) (fun σ => if σ i j then 1 else 0) := by
    rw [postProb, postMean, Finset.sum_filter]
    congr 1
    exact Finset.sum_congr rfl fun σ _ => by split <;> simp
  simp only [share_eq]
  rw [e1]
  simpa using this

/-- **C131, Dirichlet process, what averages estimate.** With a fixed total mass, whatever its value,
averages over the stored iterations are consistent for the posterior with total mass **one**. -/
theorem c131_dirichlet_partial [MeasurableSpace Θ] (E : Env G H Θ)
    (hfix : ∀ h l r, E.hyperUpdate h l r = h) (hk : E.kind ≠ .other) (like : Θ → ℕ → ℝ)
    (pred : H → ℕ → ℝ) (ν : H → Measure Θ) (V : H → Prop) (C : Conjugate E like pred ν V)
    {prior : DPPrior} {dp : DPState} (hdp : DPRun prior dp) (nRestr nMh nFull : ℕ) (hf : 1 ≤ nFull)
    (K n : ℕ) (hn : 2 ≤ n) (hK : 0 < K) (hKn : K ≤ n) (h0 : H) (hv : V h0) (θ0 : Θ) :
    SMConsistent E (dpScores pred dp) nRestr nMh nFull K n h0 θ0
      (mixPosterior (dpPrior 1) like (ν h0)) := by
  have hm := margLik_intLik C hv (dpScores pred dp) rfl
  have e : dpPosterior 1 (fun D => Real.log (intLik like (ν h0) D)) =
      mixPosterior (dpPrior 1) like (ν h0) := funext fun al => posterior_mix C hv _ _ al
  rw [← e]
  have T := dp_target E hfix hk pred hdp hn hm
  rw [show dpPosterior 1 (fun D => Real.log (intLik like (ν h0) D)) = _ from
    funext (dpPosterior_eq 1 _)] at T ⊢
  refine sm_consistent one_pos T ?_ ?_ hm nRestr nMh hf hK hKn θ0
  · intro c hc
    have hc0 : c ≠ 0 := by omega
    simp [dpScores, dpLogMassExisting, logCard, hc0]
  · simp [dpScores, (c26_dirichlet_log_mass_violated hdp n).1]

open Classical in
/-- If averages are consistent for one law, they are not for another: for a set of different
probability the share of the stored iterations with partition in the set is within `γ` of the other
probability only with probability at most `2 / (δ k γ²)`. -/
theorem SMConsistent.far {E : Env G H Θ} {S : Scores H} {nRestr nMh nFull K n : ℕ} {h0 : H} {θ0 : Θ}
    {π : List ℕ → ℝ} (h : SMConsistent E S nRestr nMh nFull K n h0 θ0 π) {π' : List ℕ → ℝ}
    {A : Finset (Setoid (Fin n))} (hA : postProb n π A ≠ postProb n π' A) :
    ∃ γ δ : ℝ, 0 < γ ∧ 0 < δ ∧ ∀ (zi : InitNoise) (u : Hier G H Θ), u.saved = false →
      ∃ s0, initAlloc E true K n h0 θ0 zi [u] = .ok s0 ∧
      ∀ (burnin : ℕ) (zs : List RestNoise), burnin < zs.length →
        ∃ l, smRun E S nRestr n nMh nFull burnin zs s0 = .ok l ∧
          l.prob (fun x => |((x.2.countP fun t => partOf n t.alloc ∈ A) : ℝ) / x.2.length -
            postProb n π' A| < γ) ≤ 2 / (δ * ((zs.length - burnin : ℕ) : ℝ) * γ ^ 2) := by
  obtain ⟨δ, d0, d1, hc⟩ := h
  have hγ := half_pos (abs_pos.mpr (sub_ne_zero.mpr hA))
  refine ⟨_, δ, hγ, d0, fun zi u hu => ?_⟩
  obtain ⟨s0, h1, h2⟩ := hc zi u hu
  refine ⟨s0, h1, fun burnin zs hb => ?_⟩
  obtain ⟨l, h3, h4, -, h5⟩ := h2 burnin zs hb
  refine ⟨l, h3, ?_⟩
  have h6 := h5 (fun σ => if σ ∈ A then 1 else 0) 1
    (fun σ τ => by split <;> split <;> norm_num) _ hγ
  rw [one_pow, mul_one] at h6
  refine le_trans ?_ h6
  have e1 : postMean n π (fun σ => if σ ∈ A then 1 else 0) =
      postProb n π A := by
    rw [postProb, postMean]
    congr 1
    simp only [mul_ite, mul_one, mul_zero]
    rw [Finset.sum_ite_mem, Finset.univ_inter]
  have e2 : ∀ st : List (Alg G H Θ), ((st.countP fun t => partOf n t.alloc ∈ A) : ℝ) / st.length =
      average n (fun σ => if σ ∈ A then 1 else 0) st := by
    intro st
    unfold average
    congr 1
    induction st with
    | nil => simp
    | cons t st ih =>
      simp only [List.map_cons, List.sum_cons]
      rw [← ih, List.countP_cons]
      push_cast
      rw [add_comm]
      congr 1
      simp only [decide_eq_true_eq]
  simp only [e2]
  rw [e1] at *
  -- being close to one means being far from the other
  have hmono : ∀ (P Q : Alg G H Θ × List (Alg G H Θ) → Prop) (l : Law (Alg G H Θ × List (Alg G H Θ))),
      (∀ x ∈ l, 0 ≤ x.1) → (∀ x, P x → Q x) → l.prob P ≤ l.prob Q := by
    intro P Q l hl hPQ
    induction l with
    | nil => simp [Law.prob]
    | cons x l ih =>
      rw [Law.prob_cons x l P, Law.prob_cons x l Q]
      refine add_le_add ?_ (ih fun y hy => hl y (by simp [hy]))
      simp only [Law.prob, List.map_cons, List.map_nil, List.sum_singleton]
      by_cases hp : P x.2
      · rw [if_pos hp, if_pos (hPQ _ hp)]
      · rw [if_neg hp]
        split
        · exact hl x (by simp)
        · exact le_rfl
  refine hmono _ _ l (fun x hx => (h4 x hx).1) fun x hx => ?_
  have h7 := abs_sub_le (postProb n π A)
    (average n (fun σ => if σ ∈ A then 1 else 0) x.2) (postProb n π' A)
  rw [abs_sub_comm _ (average n (fun σ => if σ ∈ A then 1 else 0) x.2)] at h7
  linarith

open Classical in
/-- **C131, Dirichlet process, violation.** If the configured total mass is not one, there are a set of
partitions and a positive `γ` such that the share of the stored iterations with partition in the set
is within `γ` of its posterior probability only with probability at most `2 / (δ k γ²)`: longer runs
make it ever less likely that the estimate is close. -/
theorem c131_dirichlet_violated [MeasurableSpace Θ] (E : Env G H Θ)
    (hfix : ∀ h l r, E.hyperUpdate h l r = h) (hk : E.kind ≠ .other) (like : Θ → ℕ → ℝ)
    (pred : H → ℕ → ℝ) (ν : H → Measure Θ) (V : H → Prop) (C : Conjugate E like pred ν V)
    {prior : DPPrior} {dp : DPState} (hdp : DPRun prior dp) (hmass : dp.totalmass ≠ 1)
    (nRestr nMh nFull : ℕ) (hf : 1 ≤ nFull) (K n : ℕ)
    (hn : 2 ≤ n) (hK : 0 < K) (hKn : K ≤ n) (h0 : H) (hv : V h0) (θ0 : Θ) :
    ∃ (A : Finset (Setoid (Fin n))) (γ δ : ℝ), 0 < γ ∧ 0 < δ ∧
      ∀ (zi : InitNoise) (u : Hier G H Θ), u.saved = false →
        ∃ s0, initAlloc E true K n h0 θ0 zi [u] = .ok s0 ∧
        ∀ (burnin : ℕ) (zs : List RestNoise), burnin < zs.length →
          ∃ l, smRun E (dpScores pred dp) nRestr n nMh nFull burnin zs s0 = .ok l ∧
            l.prob (fun x => |((x.2.countP fun t => partOf n t.alloc ∈ A) : ℝ) / x.2.length -
              postProb n (mixPosterior (dpPrior dp.totalmass) like (ν h0)) A| < γ) ≤
              2 / (δ * ((zs.length - burnin : ℕ) : ℝ) * γ ^ 2) := by
  have hc := c131_dirichlet_partial E hfix hk like pred ν V C hdp nRestr nMh nFull hf K n hn hK hKn h0 hv θ0
  have hα := hdp.pos.1
  obtain ⟨m, hmd⟩ : ∃ m : Finset ℕ → ℝ, m = fun D => Real.log (intLik like (ν h0) D) := ⟨_, rfl⟩
  have e : ∀ β, mixPosterior (dpPrior β) like (ν h0) = dpPosterior β m := fun β => by
    rw [hmd]
    exact funext fun al => (posterior_mix C hv _ _ al).symm
  obtain ⟨A, hA⟩ := dp_posterior_ne m hn hα hmass
  rw [← e, ← e] at hA
  exact ⟨A, hc.far hA⟩

/-- Three rows, one initial cluster; one stored iteration or more. -/
example (y : ℕ → ℝ) (draw : NIG → ℕ → UniLS) (θ0 : UniLS) :
    SMConsistent (nnigEnv y draw fun h _ _ => h) (pyScores (fun h i => nnigMargLpdf h (y i)) ⟨2, 0⟩)
      5 1 1 1 3 ⟨0, 1, 2, 1⟩ θ0
      (mixPosterior (pyPrior ⟨2, 0⟩) (fun st i => uniNormLpdf st (y i)) (nigLaw ⟨0, 1, 2, 1⟩)) :=
  c131_nnig_partial y draw (a := 2) (by norm_num [pyInit]) 5 1 1 le_rfl 1 3 (by omega) (by omega)
    (by omega) ⟨0, 1, 2, 1⟩ (by norm_num [NigValid]) θ0

open Classical in
/-- Total mass two, three rows. -/
example (y : ℕ → ℝ) (draw : NIG → ℕ → UniLS) (θ0 : UniLS) (zi : InitNoise)
    (u : Hier (ℝ × ℝ) NIG UniLS) (hu : u.saved = false) :
    ∃ (A : Finset (Setoid (Fin 3))) (γ δ : ℝ), 0 < γ ∧ 0 < δ ∧ ∃ s0,
      ∀ (burnin : ℕ) (zs : List RestNoise), burnin < zs.length →
        ∃ l, smRun (nnigEnv y draw fun h _ _ => h) (dpScores (fun h i => nnigMargLpdf h (y i)) ⟨2, 0⟩)
            5 3 1 1 burnin zs s0 = .ok l ∧
          l.prob (fun x => |((x.2.countP fun t => partOf 3 t.alloc ∈ A) : ℝ) / x.2.length -
            postProb 3 (mixPosterior (dpPrior 2) (fun st i => uniNormLpdf st (y i))
              (nigLaw ⟨0, 1, 2, 1⟩)) A| < γ) ≤ 2 / (δ * ((zs.length - burnin : ℕ) : ℝ) * γ ^ 2) := by
  obtain ⟨A, γ, δ, h0, h1, h⟩ := c131_dirichlet_violated (nnigEnv y draw fun h _ _ => h)
    (fun _ _ _ => rfl) (by simp [nnigEnv]) _ _ nigLaw NigValid
    (nnig_conjugate y draw _) (prior := .fixed 2) (dp := ⟨2, 0⟩)
    (.init (by norm_num [dpInit, dpFresh])) (by norm_num) 5 1 1 le_rfl 1 3
    (by omega) (by omega) (by omega) ⟨0, 1, 2, 1⟩ (by norm_num [NigValid]) θ0
  obtain ⟨s0, -, h⟩ := h zi u hu
  exact ⟨A, γ, δ, h0, h1, s0, h⟩

end Bayesmix.Chain
