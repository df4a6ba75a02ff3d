import Verif.Algo.Neal3Avg
import Verif.Algo.PropsNeal3Chain

/-!
# C102: averages over the stored iterations of Neal3
-/

namespace Bayesmix.Chain
open Bayesmix Cond Gibbs SplitMerge Slice Mixing Hierarchies MeasureTheory ENNReal

variable {G H Θ : Type} [AddCommGroup G]

/-- **Consistency.** Neal3 is initialized with `K` clusters and run with any burn-in below the number
of iterations. Then, whatever the initial labels and the noise used for values, the run does not fail,
stores every iteration from the burn-in on, and for every function of the partition with range of
length `C` the probability that the average over the stored iterations is off the posterior mean by
`ε` or more is at most `2 C² / (δ k ε²)`, where `k` is the number of stored iterations. -/
def Consistent (E : Env G H Θ) (S : Scores H) (K n : ℕ) (h0 : H) (θ0 : Θ) (π : List ℕ → ℝ) : Prop :=
  ∃ δ : ℝ, 0 < δ ∧ δ ≤ 1 ∧ ∀ (zi : InitNoise) (u : Hier G H Θ), u.saved = false →
    ∃ s0, initAlloc E true K n h0 θ0 zi [u] = .ok s0 ∧
    ∀ (burnin : ℕ) (zs : List Noise), burnin < zs.length →
      ∃ l, neal3Run E S n burnin zs 0 (s0, []) = .ok l ∧
        (∀ x ∈ l, 0 ≤ x.1 ∧ x.2.2.length = zs.length - burnin) ∧ l.prob (fun _ => True) = 1 ∧
        ∀ (f : Setoid (Fin n) → ℝ) (C : ℝ), (∀ σ τ, f σ - f τ ≤ C) → ∀ ε : ℝ, 0 < ε →
          l.prob (fun x => ε ≤ |average n f x.2 - postMean n π f|) ≤
            2 * C ^ 2 / (δ * ((zs.length - burnin : ℕ) : ℝ) * ε ^ 2)

theorem Target.consistent {E : Env G H Θ} {S : Scores H} {n : ℕ} {h0 : H} {π : List ℕ → ℝ}
    (T : Target E S n h0 π) {K : ℕ} (hK : 0 < K) (hKn : K ≤ n) (θ0 : Θ) :
    Consistent E S K n h0 θ0 π := by
  obtain ⟨δ, d0, d1, hc⟩ := T.averages
  refine ⟨δ, d0, d1, fun zi u hu => ?_⟩
  obtain ⟨s0, e0, hm0, -, hh0, hf0⟩ := initAlloc_ok (E := E) (upd := true) (h0 := h0) (θ0 := θ0)
    zi (o := u) (fun _ => T.kind) hK hKn (by simp [Hier.CacheOk, hu])
  refine ⟨s0, e0, hc s0 ⟨hm0, hh0, fun o ho => ?_⟩⟩
  obtain ⟨j, hj⟩ := List.getElem?_of_mem ho
  rw [hh0]
  exact hf0 rfl j o hj

/-- **C102, Pitman-Yor process.** Averages over the stored iterations are consistent for the
posterior of the Pitman-Yor mixture. -/
theorem c102_neal3_pitman_yor [MeasurableSpace Θ] (E : Env G H Θ)
    (hfix : ∀ h l r, E.hyperUpdate h l r = h) (hk : E.kind ≠ .other) (like : Θ → ℕ → ℝ)
    (pred : H → ℕ → ℝ) (ν : H → Measure Θ) (V : H → Prop) (C : Conjugate E like pred ν V)
    {a b : ℝ} {py : PYState} (hpy : pyInit a b = .ok py) (K n : ℕ) (hn : 2 ≤ n) (hK : 0 < K)
    (hKn : K ≤ n) (h0 : H) (hv : V h0) (θ0 : Θ) :
    Consistent E (pyScores pred py) K n h0 θ0 (mixPosterior (pyPrior py) like (ν h0)) := by
  have hm := margLik_intLik C hv (pyScores pred py) rfl
  have e : pyPosterior py (fun D => Real.log (intLik like (ν h0) D)) =
      mixPosterior (pyPrior py) like (ν h0) := funext fun al => posterior_mix C hv _ _ al
  rw [← e]
  exact (py_target E hfix hk pred hpy hn hm).consistent hK hKn θ0

/-- **C102, Pitman-Yor process, normal hierarchy.** No assumption on the hierarchy is left. -/
theorem c102_neal3_nnig (y : ℕ → ℝ) (draw : NIG → ℕ → UniLS) {a b : ℝ} {py : PYState}
    (hpy : pyInit a b = .ok py) (K n : ℕ) (hn : 2 ≤ n) (hK : 0 < K) (hKn : K ≤ n) (h0 : NIG)
    (hv : NigValid h0) (θ0 : UniLS) :
    Consistent (nnigEnv y draw fun h _ _ => h) (pyScores (fun h i => nnigMargLpdf h (y i)) py) K n h0
      θ0 (mixPosterior (pyPrior py) (fun st i => uniNormLpdf st (y i)) (nigLaw h0)) :=
  c102_neal3_pitman_yor _ (fun _ _ _ => rfl) (by simp [nnigEnv]) _ _ nigLaw NigValid
    (nnig_conjugate y draw _) hpy K n hn hK hKn h0 hv θ0

/-- **C102, Pitman-Yor process, linear regression.** -/
theorem c102_neal3_linreg {d : ℕ} (y : ℕ → ℝ) (x : ℕ → Fin d → ℝ) (draw : MNIG d → ℕ → UniLinRegLS d)
    {a b : ℝ} {py : PYState} (hpy : pyInit a b = .ok py) (K n : ℕ) (hn : 2 ≤ n) (hK : 0 < K)
    (hKn : K ≤ n) (h0 : MNIG d) (hv : MnigValid h0) (θ0 : UniLinRegLS d) :
    Consistent (linRegEnv y x draw fun h _ _ => h)
      (pyScores (fun h i => linRegMargLpdf h (y i) (x i)) py) K n h0 θ0
      (mixPosterior (pyPrior py) (fun st i => linRegLpdf st (y i) (x i)) (mnigLaw h0)) :=
  c102_neal3_pitman_yor _ (fun _ _ _ => rfl) (by simp [linRegEnv]) _ _ mnigLaw MnigValid
    (linReg_conjugate y x draw _) hpy K n hn hK hKn h0 hv θ0

example (y : ℕ → ℝ) (x : ℕ → Fin 2 → ℝ) (draw : MNIG 2 → ℕ → UniLinRegLS 2) (θ0 : UniLinRegLS 2) :
    Consistent (linRegEnv y x draw fun h _ _ => h)
      (pyScores (fun h i => linRegMargLpdf h (y i) (x i)) ⟨1, 1 / 2⟩) 2 3 exMNIG θ0
      (mixPosterior (pyPrior ⟨1, 1 / 2⟩) (fun st i => linRegLpdf st (y i) (x i)) (mnigLaw exMNIG)) :=
  c102_neal3_linreg y x draw (a := 1) (b := 1 / 2) (by norm_num [pyInit]) 2 3 (by omega) (by omega)
    (by omega) exMNIG (mnigInit_pos exMNIG_valid) θ0

open Classical in
/-- The share of the stored iterations in which two rows have the same label is an average. -/
theorem share_eq {n : ℕ} (i j : Fin n) (st : List (Alg G H Θ)) :
    ((st.countP fun t => t.alloc[i.val]? = t.alloc[j.val]?) : ℝ) / st.length =
      average n (fun σ => if σ i j then 1 else 0) st := by
  unfold average
  congr 1
  induction st with
  | nil => simp
  | cons t st ih =>
    simp only [List.map_cons, List.sum_cons]
    rw [← ih, List.countP_cons]
    push_cast
    rw [add_comm]
    congr 1
    simp only [decide_eq_true_eq]
    by_cases h : t.alloc[i.val]? = t.alloc[j.val]?
    · rw [if_pos h, if_pos ((partOf_rel t.alloc i j).mpr h)]
    · rw [if_neg h, if_neg fun h' => h ((partOf_rel t.alloc i j).mp h')]

open Classical in
/-- **C102, co-clustering.** With the normal hierarchy and a Pitman-Yor process, the share of the
stored iterations in which rows `i` and `j` have the same label is a consistent estimate of the
posterior probability that they are in the same cluster. -/
theorem c102_neal3_coclustering (y : ℕ → ℝ) (draw : NIG → ℕ → UniLS) {a b : ℝ} {py : PYState}
    (hpy : pyInit a b = .ok py) (K n : ℕ) (hn : 2 ≤ n) (hK : 0 < K) (hKn : K ≤ n) (h0 : NIG)
    (hv : NigValid h0) (θ0 : UniLS) (i j : Fin n) :
    ∃ δ : ℝ, 0 < δ ∧ ∀ (zi : InitNoise) (u : Hier (ℝ × ℝ) NIG UniLS), u.saved = false →
      ∃ s0, initAlloc (nnigEnv y draw fun h _ _ => h) true K n h0 θ0 zi [u] = .ok s0 ∧
      ∀ (burnin : ℕ) (zs : List Noise), burnin < zs.length →
        ∃ l, neal3Run (nnigEnv y draw fun h _ _ => h) (pyScores (fun h i => nnigMargLpdf h (y i)) py) n
            burnin zs 0 (s0, []) = .ok l ∧ ∀ ε : ℝ, 0 < ε →
          l.prob (fun x => ε ≤
            |((x.2.countP fun t => t.alloc[i.val]? = t.alloc[j.val]?) : ℝ) / x.2.length -
              postProb n (mixPosterior (pyPrior py) (fun st i => uniNormLpdf st (y i)) (nigLaw h0))
                (Finset.univ.filter fun σ => σ i j)|) ≤
            2 / (δ * ((zs.length - burnin : ℕ) : ℝ) * ε ^ 2) := by
  obtain ⟨δ, d0, -, h⟩ := c102_neal3_nnig y draw hpy K n hn hK hKn h0 hv θ0
  refine ⟨δ, d0, fun zi u hu => ?_⟩
  obtain ⟨s0, e0, h⟩ := h zi u hu
  refine ⟨s0, e0, fun burnin zs hb => ?_⟩
  obtain ⟨l, e, -, -, h⟩ := h burnin zs hb
  refine ⟨l, e, fun ε hε => ?_⟩
  have := h (fun σ => if σ i j then 1 else 0) 1 (fun σ τ => by split <;> split <;> norm_num) ε hε
  have e1 : postProb n (mixPosterior (pyPrior py) (fun st i => uniNormLpdf st (y i)) (nigLaw h0))
      (Finset.univ.filter fun σ => σ i j) = postMean n (mixPosterior (pyPrior py)
        (fun st i => uniNormLpdf st (y i)) (nigLaw h0)) (fun σ => if σ i j then 1 else 0) := by
    rw [postProb, postMean, Finset.sum_filter]
    congr 1
    exact Finset.sum_congr rfl fun σ _ => by split <;> simp
  simp only [share_eq]
  rw [e1]
  simpa using this

/-- **C102, Dirichlet process, what averages estimate.** With a fixed total mass, whatever its value,
averages over the stored iterations are consistent for the posterior with total mass **one**. -/
theorem c102_neal3_dirichlet_partial [MeasurableSpace Θ] (E : Env G H Θ)
    (hfix : ∀ h l r, E.hyperUpdate h l r = h) (hk : E.kind ≠ .other) (like : Θ → ℕ → ℝ)
    (pred : H → ℕ → ℝ) (ν : H → Measure Θ) (V : H → Prop) (C : Conjugate E like pred ν V)
    {prior : DPPrior} {dp : DPState} (hdp : DPRun prior dp) (K n : ℕ) (hn : 2 ≤ n) (hK : 0 < K)
    (hKn : K ≤ n) (h0 : H) (hv : V h0) (θ0 : Θ) :
    Consistent E (dpScores pred dp) K n h0 θ0 (mixPosterior (dpPrior 1) like (ν h0)) := by
  have hm := margLik_intLik C hv (dpScores pred dp) rfl
  have e : dpPosterior 1 (fun D => Real.log (intLik like (ν h0) D)) =
      mixPosterior (dpPrior 1) like (ν h0) := funext fun al => posterior_mix C hv _ _ al
  rw [← e]
  exact (dp_target E hfix hk pred hdp hn hm).consistent hK hKn θ0

open Classical in
/-- **C102, Dirichlet process, violation.** If the configured total mass is not one, there are a set of
partitions and a positive `γ` such that the share of the stored iterations with partition in the set
is within `γ` of its posterior probability only with probability at most `2 / (δ k γ²)`: longer runs
make it ever less likely that the estimate is close. -/
theorem c102_neal3_dirichlet_violated [MeasurableSpace Θ] (E : Env G H Θ)
    (hfix : ∀ h l r, E.hyperUpdate h l r = h) (hk : E.kind ≠ .other) (like : Θ → ℕ → ℝ)
    (pred : H → ℕ → ℝ) (ν : H → Measure Θ) (V : H → Prop) (C : Conjugate E like pred ν V)
    {prior : DPPrior} {dp : DPState} (hdp : DPRun prior dp) (hmass : dp.totalmass ≠ 1) (K n : ℕ)
    (hn : 2 ≤ n) (hK : 0 < K) (hKn : K ≤ n) (h0 : H) (hv : V h0) (θ0 : Θ) :
    ∃ (A : Finset (Setoid (Fin n))) (γ δ : ℝ), 0 < γ ∧ 0 < δ ∧
      ∀ (zi : InitNoise) (u : Hier G H Θ), u.saved = false →
        ∃ s0, initAlloc E true K n h0 θ0 zi [u] = .ok s0 ∧
        ∀ (burnin : ℕ) (zs : List Noise), burnin < zs.length →
          ∃ l, neal3Run E (dpScores pred dp) n burnin zs 0 (s0, []) = .ok l ∧
            l.prob (fun x => |((x.2.countP fun t => partOf n t.alloc ∈ A) : ℝ) / x.2.length -
              postProb n (mixPosterior (dpPrior dp.totalmass) like (ν h0)) A| < γ) ≤
              2 / (δ * ((zs.length - burnin : ℕ) : ℝ) * γ ^ 2) := by
  obtain ⟨δ, d0, d1, hc⟩ := c102_neal3_dirichlet_partial E hfix hk like pred ν V C hdp K n hn hK hKn
    h0 hv θ0
  have hα := hdp.pos.1
  obtain ⟨α, hαd⟩ : ∃ α, α = dp.totalmass := ⟨_, rfl⟩
  rw [← hαd] at hα hmass ⊢
  obtain ⟨m, hmd⟩ : ∃ m : Finset ℕ → ℝ, m = fun D => Real.log (intLik like (ν h0) D) := ⟨_, rfl⟩
  have e : ∀ β, mixPosterior (dpPrior β) like (ν h0) = dpPosterior β m := fun β => by
    rw [hmd]
    exact funext fun al => (posterior_mix C hv _ _ al).symm
  obtain ⟨A, hA⟩ := dp_posterior_ne m hn hα hmass
  have hγ := half_pos (abs_pos.mpr (sub_ne_zero.mpr hA))
  refine ⟨A, _, δ, hγ, d0, fun zi u hu => ?_⟩
  obtain ⟨s0, h1, h2⟩ := hc zi u hu
  refine ⟨s0, h1, fun burnin zs hb => ?_⟩
  obtain ⟨l, h3, h4, -, h5⟩ := h2 burnin zs hb
  refine ⟨l, h3, ?_⟩
  have h6 := h5 (fun σ => if σ ∈ A then 1 else 0) 1
    (fun σ τ => by split <;> split <;> norm_num) _ hγ
  rw [one_pow, mul_one] at h6
  refine le_trans ?_ h6
  have e1 : postMean n (mixPosterior (dpPrior 1) like (ν h0)) (fun σ => if σ ∈ A then 1 else 0) =
      postProb n (dpPosterior 1 m) A := by
    rw [e, postProb, postMean]
    congr 1
    simp only [mul_ite, mul_one, mul_zero]
    rw [Finset.sum_ite_mem, Finset.univ_inter]
  have e2 : ∀ st : List (Alg G H Θ), ((st.countP fun t => partOf n t.alloc ∈ A) : ℝ) / st.length =
      average n (fun σ => if σ ∈ A then 1 else 0) st := by
    intro st
    unfold average
    congr 1
    induction st with
    | nil => simp
    | cons t st ih =>
      simp only [List.map_cons, List.sum_cons]
      rw [← ih, List.countP_cons]
      push_cast
      rw [add_comm]
      congr 1
      simp only [decide_eq_true_eq]
  simp only [e2]
  rw [e1, e]
  -- being close to one means being far from the other
  have hmono : ∀ (P Q : Alg G H Θ × List (Alg G H Θ) → Prop) (l : Law (Alg G H Θ × List (Alg G H Θ))),
      (∀ x ∈ l, 0 ≤ x.1) → (∀ x, P x → Q x) → l.prob P ≤ l.prob Q := by
    intro P Q l hl hPQ
    induction l with
    | nil => simp [Law.prob]
    | cons x l ih =>
      rw [Law.prob_cons x l P, Law.prob_cons x l Q]
      refine add_le_add ?_ (ih fun y hy => hl y (by simp [hy]))
      simp only [Law.prob, List.map_cons, List.map_nil, List.sum_singleton]
      by_cases hp : P x.2
      · rw [if_pos hp, if_pos (hPQ _ hp)]
      · rw [if_neg hp]
        split
        · exact hl x (by simp)
        · exact le_rfl
  refine hmono _ _ l (fun x hx => (h4 x hx).1) fun x hx => ?_
  have h7 := abs_sub_le (postProb n (dpPosterior 1 m) A)
    (average n (fun σ => if σ ∈ A then 1 else 0) x.2) (postProb n (dpPosterior α m) A)
  rw [abs_sub_comm _ (average n (fun σ => if σ ∈ A then 1 else 0) x.2)] at h7
  linarith

/-- Three rows, one initial cluster, Pitman-Yor process; one stored iteration or more. -/
example (y : ℕ → ℝ) (draw : NIG → ℕ → UniLS) (θ0 : UniLS) :
    Consistent (nnigEnv y draw fun h _ _ => h) (pyScores (fun h i => nnigMargLpdf h (y i)) ⟨1, 1 / 2⟩)
      1 3 ⟨0, 1, 2, 1⟩ θ0
      (mixPosterior (pyPrior ⟨1, 1 / 2⟩) (fun st i => uniNormLpdf st (y i)) (nigLaw ⟨0, 1, 2, 1⟩)) :=
  c102_neal3_nnig y draw (a := 1) (b := 1 / 2) (by norm_num [pyInit]) 1 3 (by omega) (by omega)
    (by omega) ⟨0, 1, 2, 1⟩ (by norm_num [NigValid]) θ0

/-- Total mass two, three rows. -/
example (y : ℕ → ℝ) (draw : NIG → ℕ → UniLS) (θ0 : UniLS) :
    Consistent (nnigEnv y draw fun h _ _ => h)
      (dpScores (fun h i => nnigMargLpdf h (y i)) ⟨2, 0⟩) 1 3 ⟨0, 1, 2, 1⟩ θ0
      (mixPosterior (dpPrior 1) (fun st i => uniNormLpdf st (y i)) (nigLaw ⟨0, 1, 2, 1⟩)) :=
  c102_neal3_dirichlet_partial _ (fun _ _ _ => rfl) (by simp [nnigEnv]) _ _ nigLaw NigValid
    (nnig_conjugate y draw _) (prior := .fixed 2) (.init (by norm_num [dpInit, dpFresh])) 1 3
    (by omega) (by omega) (by omega) ⟨0, 1, 2, 1⟩ (by norm_num [NigValid]) θ0

open Classical in
example (y : ℕ → ℝ) (draw : NIG → ℕ → UniLS) (θ0 : UniLS) (zi : InitNoise)
    (u : Hier (ℝ × ℝ) NIG UniLS) (hu : u.saved = false) :
    ∃ (A : Finset (Setoid (Fin 3))) (γ δ : ℝ), 0 < γ ∧ 0 < δ ∧ ∃ s0,
      ∀ (burnin : ℕ) (zs : List Noise), burnin < zs.length →
        ∃ l, neal3Run (nnigEnv y draw fun h _ _ => h) (dpScores (fun h i => nnigMargLpdf h (y i)) ⟨2, 0⟩)
            3 burnin zs 0 (s0, []) = .ok l ∧
          l.prob (fun x => |((x.2.countP fun t => partOf 3 t.alloc ∈ A) : ℝ) / x.2.length -
            postProb 3 (mixPosterior (dpPrior 2) (fun st i => uniNormLpdf st (y i))
              (nigLaw ⟨0, 1, 2, 1⟩)) A| < γ) ≤ 2 / (δ * ((zs.length - burnin : ℕ) : ℝ) * γ ^ 2) := by
  obtain ⟨A, γ, δ, h0, h1, h⟩ := c102_neal3_dirichlet_violated (nnigEnv y draw fun h _ _ => h)
    (fun _ _ _ => rfl) (by simp [nnigEnv]) _ _ nigLaw NigValid
    (nnig_conjugate y draw _) (prior := .fixed 2) (dp := ⟨2, 0⟩)
    (.init (by norm_num [dpInit, dpFresh])) (by norm_num) 1 3
    (by omega) (by omega) (by omega) ⟨0, 1, 2, 1⟩ (by norm_num [NigValid]) θ0
  obtain ⟨s0, -, h⟩ := h zi u hu
  exact ⟨A, γ, δ, h0, h1, s0, h⟩

end Bayesmix.Chain
