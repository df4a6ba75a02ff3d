import Verif.Algo.Neal3Chain
import Verif.Algo.PropsBlocked

/-!
# C101: runs of Neal3 converge to the posterior over partitions
-/

namespace Bayesmix.Chain
open Bayesmix Cond Gibbs SplitMerge Slice Mixing Hierarchies MeasureTheory ENNReal

variable {G H Θ : Type} [AddCommGroup G]

/-- Integrated likelihood of the rows in `D` when they share one value with law `ν`. -/
noncomputable def intLik [MeasurableSpace Θ] (like : Θ → ℕ → ℝ) (ν : Measure Θ) (D : Finset ℕ) : ℝ :=
  (∫⁻ θ, ENNReal.ofReal (∏ i ∈ D, Real.exp (like θ i)) ∂ν).toReal

/-- Posterior weight of labels in a mixture model: prior probability times the product over the
clusters of the integrated likelihood of their rows. -/
noncomputable def mixPosterior [MeasurableSpace Θ] (prior : List ℕ → ℝ) (like : Θ → ℕ → ℝ)
    (ν : Measure Θ) (al : List ℕ) : ℝ :=
  prior al * ∏ c ∈ al.toFinset, intLik like ν (membersIn (Finset.range al.length) al c)

section conj

variable [MeasurableSpace Θ] {E : Env G H Θ} {like : Θ → ℕ → ℝ} {pred : H → ℕ → ℝ}
  {ν : H → Measure Θ} {V : H → Prop}

/-- The integrated likelihood grows by the predictive densities. -/
theorem lik_step (C : Conjugate E like pred ν V) {h : H} (hv : V h) (D : Finset ℕ) (i : ℕ)
    (hi : i ∉ D) (hD : D.Nonempty) :
    ∫⁻ θ, ENNReal.ofReal (∏ j ∈ insert i D, Real.exp (like θ j)) ∂(ν h) =
      (∫⁻ θ, ENNReal.ofReal (∏ j ∈ D, Real.exp (like θ j)) ∂(ν h)) *
        ENNReal.ofReal (Real.exp (pred (E.post h D.card (∑ j ∈ D, E.contrib j)) i)) := by
  obtain ⟨Z, -, -, hZ⟩ := (C.clusters hv).rule D hD
  have hp := C.post hv D hD
  have hprob : ∀ h', V h' → ∫⁻ _, (1 : ℝ≥0∞) ∂(ν h') = 1 := by
    intro h' hv'
    haveI := (C.row h' 0 hv').prior
    simp
  have h1 := hZ (fun _ => 1) measurable_const
  simp only [mul_one] at h1
  rw [hprob _ hp, mul_one] at h1
  have h2 := hZ (fun θ => ENNReal.ofReal (Real.exp (like θ i)))
    (ENNReal.measurable_ofReal.comp (Real.measurable_exp.comp (C.meas i)))
  have h3 := (C.row _ i hp).rule (fun _ => 1) measurable_const
  simp only [mul_one] at h3
  rw [hprob _ (C.valid _ i hp), mul_one] at h3
  rw [h3] at h2
  rw [h1, ← h2]
  refine lintegral_congr fun θ => ?_
  rw [Finset.prod_insert hi, ENNReal.ofReal_mul (Real.exp_pos _).le, mul_comm]

theorem lik_single (C : Conjugate E like pred ν V) {h : H} (hv : V h) (i : ℕ) :
    intLik like (ν h) {i} = Real.exp (pred h i) := by
  have h3 := (C.row h i hv).rule (fun _ => 1) measurable_const
  haveI := (C.row h i hv).post
  simp only [mul_one, lintegral_one, measure_univ] at h3
  simp only [intLik, Finset.prod_singleton]
  rw [h3, ENNReal.toReal_ofReal (Real.exp_pos _).le]

theorem lik_insert (C : Conjugate E like pred ν V) {h : H} (hv : V h) (D : Finset ℕ) (i : ℕ)
    (hi : i ∉ D) (hD : D.Nonempty) : intLik like (ν h) (insert i D) = intLik like (ν h) D *
      Real.exp (pred (E.post h D.card (∑ j ∈ D, E.contrib j)) i) := by
  rw [intLik, lik_step C hv D i hi hD, ENNReal.toReal_mul,
    ENNReal.toReal_ofReal (Real.exp_pos _).le, intLik]

theorem lik_pos (C : Conjugate E like pred ν V) {h : H} (hv : V h) (D : Finset ℕ)
    (hD : D.Nonempty) : 0 < intLik like (ν h) D := by
  induction hD using Finset.Nonempty.cons_induction with
  | singleton i => rw [lik_single C hv]; exact Real.exp_pos _
  | cons i D hi hD ih =>
    rw [Finset.cons_eq_insert, lik_insert C hv D i hi hD]
    exact mul_pos ih (Real.exp_pos _)

/-- The code's recursion gives the logarithm of the integrated likelihood. -/
theorem margLik_intLik (C : Conjugate E like pred ν V) {h : H} (hv : V h) (S : Scores H)
    (hS : S.pred = pred) : MargLik E S h fun D => Real.log (intLik like (ν h) D) := by
  constructor
  · intro x
    rw [lik_single C hv, Real.log_exp, hS]
  · intro A x hA hx
    rw [lik_insert C hv A x hx hA, Real.log_mul (lik_pos C hv A hA).ne' (Real.exp_ne_zero _),
      Real.log_exp, hS]

theorem posterior_mix (C : Conjugate E like pred ν V) {h : H} (hv : V h)
    (ex : ℕ → ℕ → ℕ → ℝ) (nw : ℕ → ℕ → ℝ) (al : List ℕ) :
    posterior ex nw (fun D => Real.log (intLik like (ν h) D)) al =
      mixPosterior (schemeProb ex nw) like (ν h) al := by
  rw [posterior, mixPosterior, Real.exp_sum]
  congr 1
  refine Finset.prod_congr rfl fun c hc => ?_
  rw [Real.exp_log]
  refine lik_pos C hv _ ?_
  rw [List.mem_toFinset] at hc
  obtain ⟨j, hj, e⟩ := List.mem_iff_getElem.mp hc
  exact ⟨j, by simp [membersIn, hj, e]⟩

end conj

/-- **Convergence.** Neal3 is initialized with `K` clusters; then, whatever the initial labels and
whatever the noise used for values, no iteration fails, and the probability that the partition after
`k` iterations is in `A` differs from the posterior probability of `A` by at most `(1 - δ)^k`, for
all sets `A` of partitions. -/
def ConvergesTo (E : Env G H Θ) (S : Scores H) (K n : ℕ) (h0 : H) (θ0 : Θ) (π : List ℕ → ℝ) : Prop :=
  ∃ δ : ℝ, 0 < δ ∧ δ ≤ 1 ∧ ∀ (zi : InitNoise) (u : Hier G H Θ), u.saved = false →
    ∃ s0, initAlloc E true K n h0 θ0 zi [u] = .ok s0 ∧ ∀ zs : List Noise,
      ∃ l, neal3Chain E S n zs s0 = .ok l ∧ (∀ x ∈ l, 0 ≤ x.1) ∧ ∀ A : Finset (Setoid (Fin n)),
        |l.prob (fun t => partOf n t.alloc ∈ A) - postProb n π A| ≤ (1 - δ) ^ zs.length

theorem Target.init {E : Env G H Θ} {S : Scores H} {n : ℕ} {h0 : H} {π : List ℕ → ℝ}
    (T : Target E S n h0 π) {K : ℕ} (hK : 0 < K) (hKn : K ≤ n) (θ0 : Θ) :
    ConvergesTo E S K n h0 θ0 π := by
  obtain ⟨δ, d0, d1, hc⟩ := T.converges
  refine ⟨δ, d0, d1, fun zi u hu => ?_⟩
  obtain ⟨s0, e0, hm0, -, hh0, hf0⟩ := initAlloc_ok (E := E) (upd := true) (h0 := h0) (θ0 := θ0)
    zi (o := u) (fun _ => T.kind) hK hKn (by simp [Hier.CacheOk, hu])
  refine ⟨s0, e0, hc s0 ⟨hm0, hh0, fun o ho => ?_⟩⟩
  obtain ⟨j, hj⟩ := List.getElem?_of_mem ho
  rw [hh0]
  exact hf0 rfl j o hj

/-! ### Pitman-Yor process -/

theorem py_target (E : Env G H Θ) (hfix : ∀ h l r, E.hyperUpdate h l r = h) (hk : E.kind ≠ .other)
    (pred : H → ℕ → ℝ) {a b : ℝ} {py : PYState} (hpy : pyInit a b = .ok py) {n : ℕ} (hn : 2 ≤ n)
    {h0 : H} {m : Finset ℕ → ℝ} (hm : MargLik E (pyScores pred py) h0 m) :
    Target E (pyScores pred py) n h0 (pyPosterior py m) := by
  refine ⟨hfix, hk, hn, fun al hl => ?_, fun al al' h1 h2 h => ?_, fun i hi s hs => ?_⟩
  · obtain ⟨rfl, p1, p2, p3⟩ := pyInit_ok hpy
    rw [pyPosterior_eq p1 p2 p3 m (by intro h; simp [h] at hl; omega)]
    exact Real.exp_pos _
  · obtain ⟨rfl, p1, p2, p3⟩ := pyInit_ok hpy
    have hst : -1 < a := by linarith
    rw [posterior_prod hst m (by omega) al h1, posterior_prod hst m (by omega) al' h2,
      prodPost_congr _ _ h1 h2 h]
  · obtain ⟨s1, p, hc, -⟩ := py_gibbs E pred hpy hk hn hm hi hs.ok hs.hyp hs.fresh
    exact ⟨s1, p, hc⟩

/-- **C101, Pitman-Yor process.** With a conjugate hierarchy and fixed hyperparameters the partition
converges in total variation, geometrically, to the posterior of the Pitman-Yor mixture: prior of the
partition times integrated likelihoods of its clusters. -/
theorem c101_neal3_pitman_yor [MeasurableSpace Θ] (E : Env G H Θ)
    (hfix : ∀ h l r, E.hyperUpdate h l r = h) (hk : E.kind ≠ .other) (like : Θ → ℕ → ℝ)
    (pred : H → ℕ → ℝ) (ν : H → Measure Θ) (V : H → Prop) (C : Conjugate E like pred ν V)
    {a b : ℝ} {py : PYState} (hpy : pyInit a b = .ok py) (K n : ℕ) (hn : 2 ≤ n) (hK : 0 < K)
    (hKn : K ≤ n) (h0 : H) (hv : V h0) (θ0 : Θ) :
    ConvergesTo E (pyScores pred py) K n h0 θ0 (mixPosterior (pyPrior py) like (ν h0)) := by
  have hm := margLik_intLik C hv (pyScores pred py) rfl
  have e : pyPosterior py (fun D => Real.log (intLik like (ν h0) D)) =
      mixPosterior (pyPrior py) like (ν h0) := funext fun al => posterior_mix C hv _ _ al
  rw [← e]
  exact (py_target E hfix hk pred hpy hn hm).init hK hKn θ0

/-- **C101, Pitman-Yor process, normal hierarchy.** No assumption on the hierarchy is left: the limit
is the posterior under normal likelihoods and normal inverse gamma laws of mean and variance. -/
theorem c101_neal3_nnig (y : ℕ → ℝ) (draw : NIG → ℕ → UniLS) {a b : ℝ} {py : PYState}
    (hpy : pyInit a b = .ok py) (K n : ℕ) (hn : 2 ≤ n) (hK : 0 < K) (hKn : K ≤ n) (h0 : NIG)
    (hv : NigValid h0) (θ0 : UniLS) :
    ConvergesTo (nnigEnv y draw fun h _ _ => h) (pyScores (fun h i => nnigMargLpdf h (y i)) py) K n h0
      θ0 (mixPosterior (pyPrior py) (fun st i => uniNormLpdf st (y i)) (nigLaw h0)) :=
  c101_neal3_pitman_yor _ (fun _ _ _ => rfl) (by simp [nnigEnv]) _ _ nigLaw NigValid
    (nnig_conjugate y draw _) hpy K n hn hK hKn h0 hv θ0

/-- Three rows, one initial cluster. -/
example (y : ℕ → ℝ) (draw : NIG → ℕ → UniLS) (θ0 : UniLS) (zi : InitNoise)
    (u : Hier (ℝ × ℝ) NIG UniLS) (hu : u.saved = false) :
    ∃ δ : ℝ, 0 < δ ∧ ∃ s0, initAlloc (nnigEnv y draw fun h _ _ => h) true 1 3 ⟨0, 1, 2, 1⟩ θ0 zi [u] =
        .ok s0 ∧ ∀ zs : List Noise,
      ∃ l, neal3Chain (nnigEnv y draw fun h _ _ => h)
          (pyScores (fun h i => nnigMargLpdf h (y i)) ⟨1, 1 / 2⟩) 3 zs s0 = .ok l ∧
        |l.prob (fun t => partOf 3 t.alloc ∈ ({⊤} : Finset (Setoid (Fin 3)))) -
          postProb 3 (mixPosterior (pyPrior ⟨1, 1 / 2⟩) (fun st i => uniNormLpdf st (y i))
            (nigLaw ⟨0, 1, 2, 1⟩)) {⊤}| ≤ (1 - δ) ^ zs.length := by
  obtain ⟨δ, h1, -, h⟩ := c101_neal3_nnig y draw (a := 1) (b := 1 / 2) (py := ⟨1, 1 / 2⟩)
    (by norm_num [pyInit]) 1 3 (by omega) (by omega) (by omega) ⟨0, 1, 2, 1⟩ (by norm_num [NigValid]) θ0
  obtain ⟨s0, e0, h⟩ := h zi u hu
  refine ⟨δ, h1, s0, e0, fun zs => ?_⟩
  obtain ⟨l, e, -, h⟩ := h zs
  exact ⟨l, e, h _⟩

/-- **C101, Pitman-Yor process, linear regression.** -/
theorem c101_neal3_linreg {d : ℕ} (y : ℕ → ℝ) (x : ℕ → Fin d → ℝ) (draw : MNIG d → ℕ → UniLinRegLS d)
    {a b : ℝ} {py : PYState} (hpy : pyInit a b = .ok py) (K n : ℕ) (hn : 2 ≤ n) (hK : 0 < K)
    (hKn : K ≤ n) (h0 : MNIG d) (hv : MnigValid h0) (θ0 : UniLinRegLS d) :
    ConvergesTo (linRegEnv y x draw fun h _ _ => h)
      (pyScores (fun h i => linRegMargLpdf h (y i) (x i)) py) K n h0 θ0
      (mixPosterior (pyPrior py) (fun st i => linRegLpdf st (y i) (x i)) (mnigLaw h0)) :=
  c101_neal3_pitman_yor _ (fun _ _ _ => rfl) (by simp [linRegEnv]) _ _ mnigLaw MnigValid
    (linReg_conjugate y x draw _) hpy K n hn hK hKn h0 hv θ0

example (y : ℕ → ℝ) (x : ℕ → Fin 2 → ℝ) (draw : MNIG 2 → ℕ → UniLinRegLS 2) (θ0 : UniLinRegLS 2) :
    ConvergesTo (linRegEnv y x draw fun h _ _ => h)
      (pyScores (fun h i => linRegMargLpdf h (y i) (x i)) ⟨1, 1 / 2⟩) 2 3 exMNIG θ0
      (mixPosterior (pyPrior ⟨1, 1 / 2⟩) (fun st i => linRegLpdf st (y i) (x i)) (mnigLaw exMNIG)) :=
  c101_neal3_linreg y x draw (a := 1) (b := 1 / 2) (by norm_num [pyInit]) 2 3 (by omega) (by omega)
    (by omega) exMNIG (mnigInit_pos exMNIG_valid) θ0

/-! ### Dirichlet process -/

theorem dp_target (E : Env G H Θ) (hfix : ∀ h l r, E.hyperUpdate h l r = h) (hk : E.kind ≠ .other)
    (pred : H → ℕ → ℝ) {prior : DPPrior} {dp : DPState} (hdp : DPRun prior dp) {n : ℕ} (hn : 2 ≤ n)
    {h0 : H} {m : Finset ℕ → ℝ} (hm : MargLik E (dpScores pred dp) h0 m) :
    Target E (dpScores pred dp) n h0 (dpPosterior 1 m) := by
  refine ⟨hfix, hk, hn, fun al hl => dp_posterior_pos m hn one_pos al hl, fun al al' h1 h2 h => ?_,
    fun i hi s hs => ?_⟩
  · rw [dp_posterior_prod m hn one_pos al h1, dp_posterior_prod m hn one_pos al' h2,
      prodPost_congr _ _ h1 h2 h]
  · obtain ⟨s1, p, hc, -⟩ := dp_gibbs E pred hdp hk hn hm hi hs.ok hs.hyp hs.fresh
    exact ⟨s1, p, hc⟩

/-- **C101, Dirichlet process, what runs converge to.** With a fixed total mass, whatever its value,
the limit is the posterior of the Dirichlet process mixture with total mass **one**. -/
theorem c101_neal3_dirichlet_partial [MeasurableSpace Θ] (E : Env G H Θ)
    (hfix : ∀ h l r, E.hyperUpdate h l r = h) (hk : E.kind ≠ .other) (like : Θ → ℕ → ℝ)
    (pred : H → ℕ → ℝ) (ν : H → Measure Θ) (V : H → Prop) (C : Conjugate E like pred ν V)
    {prior : DPPrior} {dp : DPState} (hdp : DPRun prior dp) (K n : ℕ) (hn : 2 ≤ n) (hK : 0 < K)
    (hKn : K ≤ n) (h0 : H) (hv : V h0) (θ0 : Θ) :
    ConvergesTo E (dpScores pred dp) K n h0 θ0 (mixPosterior (dpPrior 1) like (ν h0)) := by
  have hm := margLik_intLik C hv (dpScores pred dp) rfl
  have e : dpPosterior 1 (fun D => Real.log (intLik like (ν h0) D)) =
      mixPosterior (dpPrior 1) like (ν h0) := funext fun al => posterior_mix C hv _ _ al
  rw [← e]
  exact (dp_target E hfix hk pred hdp hn hm).init hK hKn θ0

/-- Weights with total mass `α` of two partitions: all rows together, and row 0 alone. -/
theorem dp_ratio (m : Finset ℕ → ℝ) {n : ℕ} (hn : 2 ≤ n) {α : ℝ} (hα : 0 < α) :
    ∃ κ R₁ R₂ : ℝ, 0 < κ ∧ 0 < R₁ ∧ 0 < R₂ ∧
      dpPosterior α m (List.replicate n 0) = κ * R₁ ∧
      dpPosterior α m (1 :: List.replicate (n - 1) 0) = κ * α * R₂ ∧
      R₁ = (∏ c ∈ (List.replicate n 0).toFinset,
        blockW (pyB ⟨1, 0⟩) m (membersIn (Finset.range n) (List.replicate n 0) c)) ∧
      R₂ = ∏ c ∈ (1 :: List.replicate (n - 1) 0).toFinset,
        blockW (pyB ⟨1, 0⟩) m (membersIn (Finset.range n) (1 :: List.replicate (n - 1) 0) c) := by
  have hB : ∀ D, 0 < blockW (pyB ⟨1, 0⟩) m D := fun D =>
    mul_pos (pyB_pos one_pos _) (Real.exp_pos _)
  have l1 : (List.replicate n 0).length = n := by simp
  have l2 : (1 :: List.replicate (n - 1) 0).length = n := by simp; omega
  have c1 : (List.replicate n 0).toFinset.card = 1 := by
    rw [List.toFinset_replicate_of_ne_zero (by omega)]
    simp
  have c2 : (1 :: List.replicate (n - 1) 0).toFinset.card = 2 := by
    rw [List.toFinset_cons, List.toFinset_replicate_of_ne_zero (by omega)]
    simp
  refine ⟨(pyD ⟨α, 0⟩ n)⁻¹ * pyA ⟨α, 0⟩ 1, _, _,
    mul_pos (inv_pos.mpr (pyD_pos (by simp only; linarith) n)) (pyA_pos (by simpa using hα) le_rfl _),
    Finset.prod_pos fun c _ => hB _, Finset.prod_pos fun c _ => hB _, ?_, ?_, rfl, rfl⟩
  · rw [dp_posterior_prod m hn hα _ l1, prodPost, c1, l1]
    ring
  · rw [dp_posterior_prod m hn hα _ l2, prodPost, c2, l2, pyA_succ ⟨α, 0⟩ one_pos]
    ring

theorem postProb_single {n : ℕ} {π : List ℕ → ℝ}
    (hinv : ∀ al al' : List ℕ, al.length = n → al'.length = n → SamePart n al al' → π al = π al')
    {al : List ℕ} (hl : al.length = n) :
    postProb n π {partOf n al} = π al / ∑ σ : Setoid (Fin n), π (labelsOf σ) := by
  rw [postProb, Finset.sum_singleton, hinv _ al (labelsOf_length _) hl]
  rw [← partOf_eq, partOf_labelsOf]

/-- Two total masses, two posteriors. -/
theorem dp_posterior_ne (m : Finset ℕ → ℝ) {n : ℕ} (hn : 2 ≤ n) {α : ℝ} (hα : 0 < α)
    (hmass : α ≠ 1) : ∃ A, postProb n (dpPosterior 1 m) A ≠ postProb n (dpPosterior α m) A := by
  by_contra hall
  push Not at hall
  have hinv : ∀ β, 0 < β → ∀ al al' : List ℕ, al.length = n → al'.length = n →
      SamePart n al al' → dpPosterior β m al = dpPosterior β m al' := by
    intro β hβ al al' h1 h2 h
    rw [dp_posterior_prod m hn hβ al h1, dp_posterior_prod m hn hβ al' h2,
      prodPost_congr _ _ h1 h2 h]
  have l1 : (List.replicate n 0).length = n := by simp
  have l2 : (1 :: List.replicate (n - 1) 0).length = n := by simp; omega
  have hZ : ∀ β, 0 < β → 0 < ∑ σ : Setoid (Fin n), dpPosterior β m (labelsOf σ) := fun β hβ =>
    Finset.sum_pos (fun σ _ => dp_posterior_pos m hn hβ _ (labelsOf_length σ))
      Finset.univ_nonempty
  have a1 := hall {partOf n (List.replicate n 0)}
  have a2 := hall {partOf n (1 :: List.replicate (n - 1) 0)}
  rw [postProb_single (hinv 1 one_pos) l1, postProb_single (hinv α hα) l1,
    div_eq_div_iff (hZ 1 one_pos).ne' (hZ α hα).ne'] at a1
  rw [postProb_single (hinv 1 one_pos) l2, postProb_single (hinv α hα) l2,
    div_eq_div_iff (hZ 1 one_pos).ne' (hZ α hα).ne'] at a2
  obtain ⟨κ, R₁, R₂, k0, r1, r2, e1, e2, f1, f2⟩ := dp_ratio m hn one_pos
  obtain ⟨κ', R₁', R₂', k0', r1', r2', e1', e2', f1', f2'⟩ := dp_ratio m hn hα
  rw [← f1] at f1'
  rw [← f2] at f2'
  subst f1' f2'
  rw [e1, e1'] at a1
  rw [e2, e2'] at a2
  have z1 := hZ 1 one_pos
  have zα := hZ α hα
  obtain ⟨Z₁, hz1⟩ : ∃ Z, Z = ∑ σ : Setoid (Fin n), dpPosterior 1 m (labelsOf σ) := ⟨_, rfl⟩
  obtain ⟨Zα, hzα⟩ : ∃ Z, Z = ∑ σ : Setoid (Fin n), dpPosterior α m (labelsOf σ) := ⟨_, rfl⟩
  rw [← hz1] at a1 a2 z1
  rw [← hzα] at a1 a2 zα
  have b1 : κ * Zα = κ' * Z₁ := mul_right_cancel₀ r1.ne' (by linear_combination a1)
  have b2 : κ * Zα = κ' * Z₁ * α := mul_right_cancel₀ r2.ne' (by linear_combination a2)
  rw [b1] at b2
  exact hmass (mul_left_cancel₀ (mul_pos k0' z1).ne' (by linear_combination -b2))

/-- **C101, Dirichlet process, violation.** If the configured total mass is not one, runs do not
converge to the posterior: for some set of partitions the error stays away from zero however long the
chain is run, from whatever initial labels. -/
theorem c101_neal3_dirichlet_violated [MeasurableSpace Θ] (E : Env G H Θ)
    (hfix : ∀ h l r, E.hyperUpdate h l r = h) (hk : E.kind ≠ .other) (like : Θ → ℕ → ℝ)
    (pred : H → ℕ → ℝ) (ν : H → Measure Θ) (V : H → Prop) (C : Conjugate E like pred ν V)
    {prior : DPPrior} {dp : DPState} (hdp : DPRun prior dp) (hmass : dp.totalmass ≠ 1) (K n : ℕ)
    (hn : 2 ≤ n) (hK : 0 < K) (hKn : K ≤ n) (h0 : H) (hv : V h0) (θ0 : Θ) :
    ∃ (A : Finset (Setoid (Fin n))) (γ : ℝ) (N : ℕ), 0 < γ ∧
      ∀ (zi : InitNoise) (u : Hier G H Θ), u.saved = false →
        ∃ s0, initAlloc E true K n h0 θ0 zi [u] = .ok s0 ∧ ∀ zs : List Noise, N ≤ zs.length →
          ∃ l, neal3Chain E (dpScores pred dp) n zs s0 = .ok l ∧
            γ ≤ |l.prob (fun t => partOf n t.alloc ∈ A) -
              postProb n (mixPosterior (dpPrior dp.totalmass) like (ν h0)) A| := by
  obtain ⟨δ, d0, d1, hc⟩ := c101_neal3_dirichlet_partial E hfix hk like pred ν V C hdp K n hn hK hKn
    h0 hv θ0
  have hα := hdp.pos.1
  obtain ⟨α, hαd⟩ : ∃ α, α = dp.totalmass := ⟨_, rfl⟩
  rw [← hαd] at hα hmass ⊢
  obtain ⟨m, hmd⟩ : ∃ m : Finset ℕ → ℝ, m = fun D => Real.log (intLik like (ν h0) D) := ⟨_, rfl⟩
  have e : ∀ β, mixPosterior (dpPrior β) like (ν h0) = dpPosterior β m := fun β => by
    rw [hmd]
    exact funext fun al => (posterior_mix C hv _ _ al).symm
  obtain ⟨A, hA⟩ := dp_posterior_ne m hn hα hmass
  obtain ⟨N, hN⟩ := exists_pow_lt_of_lt_one (half_pos (abs_pos.mpr (sub_ne_zero.mpr hA)))
    (show 1 - δ < 1 by linarith)
  refine ⟨A, _, N, half_pos (abs_pos.mpr (sub_ne_zero.mpr hA)), fun zi u hu => ?_⟩
  obtain ⟨s0, h1, h2⟩ := hc zi u hu
  refine ⟨s0, h1, fun zs hzs => ?_⟩
  obtain ⟨l, h3, -, h4⟩ := h2 zs
  refine ⟨l, h3, ?_⟩
  have h5 := h4 A
  have h6 : (1 - δ) ^ zs.length ≤ (1 - δ) ^ N :=
    pow_le_pow_of_le_one (by linarith) (by linarith) hzs
  rw [e] at h5 ⊢
  obtain ⟨p, hp⟩ : ∃ p, p = Law.prob l (fun t => partOf n t.alloc ∈ A) := ⟨_, rfl⟩
  rw [← hp] at h5 ⊢
  have h7 := abs_sub_le (postProb n (dpPosterior 1 m) A) p (postProb n (dpPosterior α m) A)
  rw [abs_sub_comm _ p] at h7
  linarith

/-- Total mass two, three rows. -/
example (y : ℕ → ℝ) (draw : NIG → ℕ → UniLS) (θ0 : UniLS) :
    ConvergesTo (nnigEnv y draw fun h _ _ => h)
      (dpScores (fun h i => nnigMargLpdf h (y i)) ⟨2, 0⟩) 1 3 ⟨0, 1, 2, 1⟩ θ0
      (mixPosterior (dpPrior 1) (fun st i => uniNormLpdf st (y i)) (nigLaw ⟨0, 1, 2, 1⟩)) :=
  c101_neal3_dirichlet_partial _ (fun _ _ _ => rfl) (by simp [nnigEnv]) _ _ nigLaw NigValid
    (nnig_conjugate y draw _) (prior := .fixed 2) (.init (by norm_num [dpInit, dpFresh])) 1 3
    (by omega) (by omega) (by omega) ⟨0, 1, 2, 1⟩ (by norm_num [NigValid]) θ0

example (y : ℕ → ℝ) (draw : NIG → ℕ → UniLS) (θ0 : UniLS) (zi : InitNoise)
    (u : Hier (ℝ × ℝ) NIG UniLS) (hu : u.saved = false) :
    ∃ (A : Finset (Setoid (Fin 3))) (γ : ℝ) (N : ℕ), 0 < γ ∧
      ∀ zs : List Noise, N ≤ zs.length → ∃ s0 l,
        neal3Chain (nnigEnv y draw fun h _ _ => h) (dpScores (fun h i => nnigMargLpdf h (y i)) ⟨2, 0⟩) 3
          zs s0 = .ok l ∧ γ ≤ |l.prob (fun t => partOf 3 t.alloc ∈ A) -
            postProb 3 (mixPosterior (dpPrior 2) (fun st i => uniNormLpdf st (y i))
              (nigLaw ⟨0, 1, 2, 1⟩)) A| := by
  obtain ⟨A, γ, N, h0, h⟩ := c101_neal3_dirichlet_violated (nnigEnv y draw fun h _ _ => h)
    (fun _ _ _ => rfl) (by simp [nnigEnv]) _ _ nigLaw NigValid
    (nnig_conjugate y draw _) (prior := .fixed 2) (dp := ⟨2, 0⟩)
    (.init (by norm_num [dpInit, dpFresh])) (by norm_num) 1 3
    (by omega) (by omega) (by omega) ⟨0, 1, 2, 1⟩ (by norm_num [NigValid]) θ0
  obtain ⟨s0, -, h⟩ := h zi u hu
  refine ⟨A, γ, N, h0, fun zs hzs => ?_⟩
  obtain ⟨l, e, h⟩ := h zs hzs
  exact ⟨s0, l, e, h⟩

end Bayesmix.Chain
