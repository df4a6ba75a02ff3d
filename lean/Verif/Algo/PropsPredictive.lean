import Mathlib.Analysis.Real.Pi.Bounds
import Verif.Algo.PredTwo
import Verif.Algo.PropsNeal8Chain

/-!
# C117: the density estimates of Neal2 and Neal8 converge to the posterior predictive density

Rows `0, ..., n - 1` are the data, and row `n` is a grid point: nothing is assumed about the row `n`
of the hierarchy, and the samplers never look at it.
-/

namespace Bayesmix.Chain
open Bayesmix Cond Gibbs SplitMerge Slice Mixing Density Hierarchies MeasureTheory ENNReal

variable {G H Θ : Type} [AddCommGroup G] [MeasurableSpace Θ] [Nonempty Θ]

/-- Posterior predictive density at row `n` given the rows before: the marginal density of the rows up
to `n` over that of the rows before `n`. -/
noncomputable def predictiveDens (prior : List ℕ → ℝ) (like : Θ → ℕ → ℝ) (ν : Measure Θ) (n : ℕ) : ℝ :=
  (partPost (n := n + 1) (weight prior) like ν (fun _ _ => 1) /
    partPost (n := n) (weight prior) like ν (fun _ _ => 1)).toReal

/-- The mean of `dens` after `k + 1` iterations of Neal2, from any initialization, is finite and
converges to `target`, geometrically. -/
def Neal2Density (E : Env G H Θ) (like : Θ → ℕ → ℝ) (S : Scores H) (ν : H → Measure Θ) (K n : ℕ)
    (h0 : H) (θ0 : Θ) (dens : Alg G H Θ → ℝ≥0∞) (target : ℝ) : Prop :=
  ∃ δ b : ℝ, 0 < δ ∧ δ ≤ 1 ∧ ∀ (zi : InitNoise) (o : Hier G H Θ), o.CacheOk →
    ∃ s0, initAlloc E false K n h0 θ0 zi [o] = .ok s0 ∧
      ∀ k, (neal2IterMean E like S ν n)^[k + 1] dens s0 ≠ ∞ ∧
        |((neal2IterMean E like S ν n)^[k + 1] dens s0).toReal - target| ≤ b * (1 - δ) ^ k

/-- The same for Neal8 with `m + 1` auxiliary blocks. -/
def Neal8Density (E : Env G H Θ) (like : Θ → ℕ → ℝ) (S : Scores H) (ν : H → Measure Θ) (K n m : ℕ)
    (h0 : H) (θ0 : Θ) (dens : Alg G H Θ → ℝ≥0∞) (target : ℝ) : Prop :=
  ∃ δ b : ℝ, 0 < δ ∧ δ ≤ 1 ∧ ∀ (zi : InitNoise) (o : Hier G H Θ) (aux : List (Hier G H Θ)),
    o.CacheOk → aux.length = m + 1 → ∃ s0, initAlloc E false K n h0 θ0 zi [o] = .ok s0 ∧
      ∀ k, (neal8IterMean E like S ν n)^[k + 1] (fun s => dens s.base) ⟨s0, aux⟩ ≠ ∞ ∧
        |((neal8IterMean E like S ν n)^[k + 1] (fun s => dens s.base) ⟨s0, aux⟩).toReal - target| ≤
          b * (1 - δ) ^ k

theorem Neal2Ok.density {E : Env G H Θ} {like : Θ → ℕ → ℝ} {S : Scores H} {ν : H → Measure Θ}
    {n : ℕ} {h0 : H} {prior : List ℕ → ℝ} (hO : Neal2Ok E like S ν n h0 prior)
    (hk : E.kind = .conjugate) {K : ℕ} (hK : 0 < K) (hKn : K ≤ n) (θ0 : Θ) {pred : H → ℕ → ℝ}
    {V : H → Prop} (C : Conjugate E like pred ν V) (hv : V h0) {dens : Alg G H Θ → ℝ≥0∞}
    {ce cn : ℕ → ℝ} {m : ℝ≥0∞} (hm : m ≠ ∞)
    (hd : ∀ (σ : Setoid (Fin n)) A x s, Seen E h0 σ A x s → dens s = mixDens ce cn like m σ x) :
    Neal2Density E like S ν K n h0 θ0 dens (jointMean (n := n) prior like (ν h0) (mixDens ce cn like m)) := by
  obtain ⟨δ, d0, d1, hδ⟩ := hO.rows.converges_int hO.clusters hO.meas hO.weight_pos
  obtain ⟨b, hb⟩ := hδ (fun z x => mixDens ce cn like m z.1 x)
    (fun z => measurable_mixDens hO.meas z.1) fun z => mixDens_int C hv ce cn hm z
  refine ⟨δ, b, d0, d1, fun zi o ho => ?_⟩
  obtain ⟨s0, e, hs⟩ := init_seen (E := E) (n := n) hk hK hKn h0 θ0 zi ho
  refine ⟨s0, e, fun k => ?_⟩
  have h1 := (hO.iterates (g := dens) (Ψ := fun z x => mixDens ce cn like m z.1 x)
    (fun z => measurable_mixDens hO.meas z.1) hd (k + 1)).2 _ _ _ s0 hs
  rw [h1]
  exact hb k _ _

theorem Neal8Ok.density {E : Env G H Θ} {like : Θ → ℕ → ℝ} {S : Scores H} {ν : H → Measure Θ}
    {n : ℕ} {h0 : H} {prior : List ℕ → ℝ} (hO : Neal8Ok E like S ν n h0 prior)
    (hk : E.kind = .conjugate) {K : ℕ} (hK : 0 < K) (hKn : K ≤ n) (m : ℕ) (θ0 : Θ)
    {pred : H → ℕ → ℝ} {V : H → Prop} (C : Conjugate E like pred ν V) (hv : V h0)
    {dens : Alg G H Θ → ℝ≥0∞} {ce cn : ℕ → ℝ} {μ : ℝ≥0∞} (hm : μ ≠ ∞)
    (hd : ∀ (σ : Setoid (Fin n)) A x s, Seen E h0 σ A x s → dens s = mixDens ce cn like μ σ x) :
    Neal8Density E like S ν K n m h0 θ0 dens (jointMean (n := n) prior like (ν h0) (mixDens ce cn like μ)) := by
  obtain ⟨δ, d0, d1, hδ⟩ := (hO.rows m).converges_int hO.clusters hO.meas hO.weight_pos
  obtain ⟨b, hb⟩ := hδ (fun z x => mixDens ce cn like μ z.1 x)
    (fun z => measurable_mixDens hO.meas z.1) fun z => mixDens_int C hv ce cn hm z
  refine ⟨δ, b, d0, d1, fun zi o aux ho haux => ?_⟩
  obtain ⟨s0, e, hs⟩ := init_seen (E := E) (n := n) hk hK hKn h0 θ0 zi ho
  refine ⟨s0, e, fun k => ?_⟩
  have h1 := (hO.iterates (m := m) (g := fun s => dens s.base)
    (Ψ := fun z x => mixDens ce cn like μ z.1 x) (fun z => measurable_mixDens hO.meas z.1)
    (fun σ A x s hs _ => hd σ A x s.base hs) (k + 1)).2 _ _ _ ⟨s0, aux⟩ hs haux
  rw [h1]
  exact hb k _ _

/-! ### What the estimates are -/

theorem pyD_succ (st : PYState) {n : ℕ} (hn : 0 < n) :
    pyD st (n + 1) = pyD st n * (n + st.strength) := by
  unfold pyD
  rw [range_prod_succ _ _ hn, cast_pred hn]

/-- The posterior mean of the density of the Pitman-Yor process is the predictive density. -/
theorem py_predictive {a b : ℝ} {py : PYState} (hpy : pyInit a b = .ok py) {n : ℕ} (hn : 2 ≤ n)
    {like : Θ → ℕ → ℝ} (hlike : ∀ i, Measurable fun θ => like θ i) {ν : Measure Θ}
    [IsProbabilityMeasure ν] {m : ℝ≥0∞} (hm : ∫⁻ θ, ENNReal.ofReal (Real.exp (like θ n)) ∂ν = m) :
    jointMean (n := n) (pyPrior py) like ν (mixDens (fun c => ((c : ℝ) - b) / (n + a))
      (fun k => (a + b * k) / (n + a)) like m) = predictiveDens (pyPrior py) like ν n := by
  obtain ⟨rfl, p1, p2, p3⟩ := pyInit_ok hpy
  have hst : -1 < a := by linarith
  have hn1 : (1 : ℝ) ≤ n := by exact_mod_cast (by omega : 1 ≤ n)
  have hna : (n : ℝ) + a ≠ 0 := by linarith
  have hD := (pyD_pos (st := ⟨a, b⟩) hst n).ne'
  unfold jointMean predictiveDens
  rw [partPost_mixDens (κ := (pyD ⟨a, b⟩ n)⁻¹) (κ' := (pyD ⟨a, b⟩ (n + 1))⁻¹) (A := pyA ⟨a, b⟩)
    (B := pyB ⟨a, b⟩) (by omega) hlike hm (inv_pos.mpr (pyD_pos hst n)).le
    (fun k => (pyA_pos p1 p2 k).le) (fun c => (pyB_pos p3 c).le) (pyPrior_prod hst (by omega))
    (pyPrior_prod hst (by omega))]
  · intro c hc
    rw [pyB_succ _ hc, pyD_succ _ (by omega : 0 < n)]
    field_simp
  · intro k hk
    rw [pyA_succ _ hk, pyD_succ _ (by omega : 0 < n)]
    have : pyB ⟨a, b⟩ 1 = 1 := by simp [pyB]
    rw [this]
    field_simp

theorem dp_predictive {α : ℝ} (hα : 0 < α) {n : ℕ} (hn : 2 ≤ n)
    {like : Θ → ℕ → ℝ} (hlike : ∀ i, Measurable fun θ => like θ i) {ν : Measure Θ}
    [IsProbabilityMeasure ν] {m : ℝ≥0∞} (hm : ∫⁻ θ, ENNReal.ofReal (Real.exp (like θ n)) ∂ν = m) :
    jointMean (n := n) (dpPrior α) like ν (mixDens (fun c => (c : ℝ) / (n + α))
      (fun _ => α / (n + α)) like m) = predictiveDens (dpPrior α) like ν n := by
  have hst : -1 < α := by linarith
  have hna : (n : ℝ) + α ≠ 0 := by positivity
  have hD := (pyD_pos (st := ⟨α, 0⟩) hst n).ne'
  unfold jointMean predictiveDens
  rw [partPost_mixDens (κ := (pyD ⟨α, 0⟩ n)⁻¹) (κ' := (pyD ⟨α, 0⟩ (n + 1))⁻¹) (A := pyA ⟨α, 0⟩)
    (B := pyB ⟨1, 0⟩) (by omega) hlike hm (inv_pos.mpr (pyD_pos hst n)).le
    (fun k => (pyA_pos (by simpa using hα) le_rfl k).le) (fun c => (pyB_pos one_pos c).le)
    (dpPrior_prod hα (by omega)) (dpPrior_prod hα (by omega))]
  · intro c hc
    rw [pyB_succ _ hc, pyD_succ _ (by omega : 0 < n)]
    simp only [sub_zero]
    field_simp
  · intro k hk
    rw [pyA_succ _ hk, pyD_succ _ (by omega : 0 < n)]
    have : pyB ⟨1, 0⟩ 1 = 1 := by simp [pyB]
    rw [this]
    simp only [zero_mul, add_zero]
    field_simp

theorem densityAt_py {E : Env G H Θ} {h : H} {n : ℕ} {σ : Setoid (Fin n)} {A : Finset (Fin n)}
    {x : Fin n → Θ} {s : Alg G H Θ} (hs : Seen E h σ A x s) (hn : 0 < n) {a b : ℝ} {py : PYState}
    (hpy : pyInit a b = .ok py) (like : Θ → ℕ → ℝ) (pred : H → ℕ → ℝ) :
    densityAt pyOps py like pred n s = mixDens (fun c => ((c : ℝ) - b) / (n + a))
      (fun k => (a + b * k) / (n + a)) like (ENNReal.ofReal (Real.exp (pred h n))) σ x := by
  rw [← hs.hyp]
  exact estimate_py hs hn hpy like (mdens := fun x => Real.exp (pred s.hyp x)) (fun x => isLogOf_coe _)
    (Real.exp_pos _).le

theorem densityAt_dp {E : Env G H Θ} {h : H} {n : ℕ} {σ : Setoid (Fin n)} {A : Finset (Fin n)}
    {x : Fin n → Θ} {s : Alg G H Θ} (hs : Seen E h σ A x s) (hn : 0 < n) {α : ℝ} (hα : 0 < α)
    (like : Θ → ℕ → ℝ) (pred : H → ℕ → ℝ) :
    densityAt dpOps (dpSetState α) like pred n s = mixDens (fun c => (c : ℝ) / (n + α))
      (fun _ => α / (n + α)) like (ENNReal.ofReal (Real.exp (pred h n))) σ x := by
  rw [← hs.hyp]
  exact estimate_dp hs hn hα like (mdens := fun x => Real.exp (pred s.hyp x)) (fun x => isLogOf_coe _)
    (Real.exp_pos _).le

theorem densityAt8_py {E : Env G H Θ} {h : H} {n : ℕ} {σ : Setoid (Fin n)} {A : Finset (Fin n)}
    {x : Fin n → Θ} {s : Alg G H Θ} (hs : Seen E h σ A x s) (hn : 0 < n) {a b : ℝ} {py : PYState}
    (hpy : pyInit a b = .ok py) {like : Θ → ℕ → ℝ} (hlike : ∀ i, Measurable fun θ => like θ i)
    {ν : H → Measure Θ} (hp : IsProbabilityMeasure (ν h)) {nAux : ℕ} (hA : 0 < nAux) {m : ℝ≥0∞}
    (hm : ∫⁻ θ, ENNReal.ofReal (Real.exp (like θ n)) ∂ν h = m) :
    densityAt8 pyOps py like ν nAux n s = mixDens (fun c => ((c : ℝ) - b) / (n + a))
      (fun k => (a + b * k) / (n + a)) like m σ x := by
  rw [← mixDens_draws hlike hp hA _ _ hm, ← hs.hyp]
  exact lintegral_congr fun d => estimate_py hs hn hpy like
    (fun x => c54_neal8_component hA (fun j x => isLogOf_coe _) x)
    (div_nonneg (Finset.sum_nonneg fun _ _ => (Real.exp_pos _).le) (Nat.cast_nonneg _))

theorem densityAt8_dp {E : Env G H Θ} {h : H} {n : ℕ} {σ : Setoid (Fin n)} {A : Finset (Fin n)}
    {x : Fin n → Θ} {s : Alg G H Θ} (hs : Seen E h σ A x s) (hn : 0 < n) {α : ℝ} (hα : 0 < α)
    {like : Θ → ℕ → ℝ} (hlike : ∀ i, Measurable fun θ => like θ i)
    {ν : H → Measure Θ} (hp : IsProbabilityMeasure (ν h)) {nAux : ℕ} (hA : 0 < nAux) {m : ℝ≥0∞}
    (hm : ∫⁻ θ, ENNReal.ofReal (Real.exp (like θ n)) ∂ν h = m) :
    densityAt8 dpOps (dpSetState α) like ν nAux n s = mixDens (fun c => (c : ℝ) / (n + α))
      (fun _ => α / (n + α)) like m σ x := by
  rw [← mixDens_draws hlike hp hA _ _ hm, ← hs.hyp]
  exact lintegral_congr fun d => estimate_dp hs hn hα like
    (fun x => c54_neal8_component hA (fun j x => isLogOf_coe _) x)
    (div_nonneg (Finset.sum_nonneg fun _ _ => (Real.exp_pos _).le) (Nat.cast_nonneg _))

/-! ### Pitman-Yor process -/

/-- **C117, Neal2, Pitman-Yor process.** The mean of the density estimate at a grid point, over all
draws of `k + 1` iterations, converges geometrically to the posterior predictive density. -/
theorem c117_neal2_pitman_yor (E : Env G H Θ) (hfix : ∀ h l r, E.hyperUpdate h l r = h)
    (hk : E.kind = .conjugate) (like : Θ → ℕ → ℝ) (pred : H → ℕ → ℝ) (ν : H → Measure Θ) (V : H → Prop)
    (C : Conjugate E like pred ν V) {a b : ℝ} {py : PYState} (hpy : pyInit a b = .ok py) (K n : ℕ)
    (hn : 2 ≤ n) (hK : 0 < K) (hKn : K ≤ n) (h0 : H) (hv : V h0) (θ0 : Θ) :
    Neal2Density E like (pyScores pred py) ν K n h0 θ0 (densityAt pyOps py like pred n)
      (predictiveDens (pyPrior py) like (ν h0) n) := by
  have hp := (C.row h0 n hv).prior
  rw [← py_predictive hpy hn C.meas (pred_int (C.row h0 n hv))]
  exact (py_neal2Ok E hfix (by simp [hk]) C hpy hn hv).density hk hK hKn θ0 C hv ofReal_ne_top
    fun σ A x s hs => densityAt_py hs (by omega) hpy like pred

/-- **C117, Neal8, Pitman-Yor process.** The mean is over the draws of the run and over the draws from
the prior for the estimate. -/
theorem c117_neal8_pitman_yor (E : Env G H Θ) (hfix : ∀ h l r, E.hyperUpdate h l r = h)
    (hk : E.kind = .conjugate) (like : Θ → ℕ → ℝ) (pred : H → ℕ → ℝ) (ν : H → Measure Θ) (V : H → Prop)
    (C : Conjugate E like pred ν V) {a b : ℝ} {py : PYState} (hpy : pyInit a b = .ok py) (K n m : ℕ)
    (hn : 2 ≤ n) (hK : 0 < K) (hKn : K ≤ n) (h0 : H) (hv : V h0) (θ0 : Θ) :
    Neal8Density E like (pyScores pred py) ν K n m h0 θ0 (densityAt8 pyOps py like ν (m + 1) n)
      (predictiveDens (pyPrior py) like (ν h0) n) := by
  have hp := (C.row h0 n hv).prior
  have hm := pred_int (C.row h0 n hv)
  rw [← py_predictive hpy hn C.meas hm]
  exact (py_neal8Ok E hfix (by simp [hk]) C hpy hn hv).density hk hK hKn m θ0 C hv ofReal_ne_top
    fun σ A x s hs => densityAt8_py hs (by omega) hpy C.meas hp (by omega) hm

/-- **C117, normal hierarchy.** For Neal2 and Neal8, every Pitman-Yor process, every data set and every
grid point `y n`. -/
theorem c117_nnig (y : ℕ → ℝ) (draw : NIG → ℕ → UniLS) {a b : ℝ} {py : PYState}
    (hpy : pyInit a b = .ok py) (K n m : ℕ) (hn : 2 ≤ n) (hK : 0 < K) (hKn : K ≤ n) (h0 : NIG)
    (hv : NigValid h0) (θ0 : UniLS) :
    haveI : Nonempty UniLS := ⟨θ0⟩
    Neal2Density (nnigEnv y draw fun h _ _ => h) (fun st i => uniNormLpdf st (y i))
      (pyScores (fun h i => nnigMargLpdf h (y i)) py) nigLaw K n h0 θ0
      (densityAt pyOps py (fun st i => uniNormLpdf st (y i)) (fun h i => nnigMargLpdf h (y i)) n)
      (predictiveDens (pyPrior py) (fun st i => uniNormLpdf st (y i)) (nigLaw h0) n) ∧
    Neal8Density (nnigEnv y draw fun h _ _ => h) (fun st i => uniNormLpdf st (y i))
      (pyScores (fun h i => nnigMargLpdf h (y i)) py) nigLaw K n m h0 θ0
      (densityAt8 pyOps py (fun st i => uniNormLpdf st (y i)) nigLaw (m + 1) n)
      (predictiveDens (pyPrior py) (fun st i => uniNormLpdf st (y i)) (nigLaw h0) n) := by
  haveI : Nonempty UniLS := ⟨θ0⟩
  exact ⟨c117_neal2_pitman_yor _ (fun _ _ _ => rfl) (by simp [nnigEnv]) _ _ nigLaw NigValid
    (nnig_conjugate y draw _) hpy K n hn hK hKn h0 hv θ0,
    c117_neal8_pitman_yor _ (fun _ _ _ => rfl) (by simp [nnigEnv]) _ _ nigLaw NigValid
    (nnig_conjugate y draw _) hpy K n m hn hK hKn h0 hv θ0⟩

/-- Three rows, two initial clusters, two auxiliary blocks. -/
example (y : ℕ → ℝ) (draw : NIG → ℕ → UniLS) (θ0 : UniLS) :
    haveI : Nonempty UniLS := ⟨θ0⟩
    Neal8Density (nnigEnv y draw fun h _ _ => h) (fun st i => uniNormLpdf st (y i))
      (pyScores (fun h i => nnigMargLpdf h (y i)) ⟨1, 1 / 2⟩) nigLaw 2 3 1 ⟨0, 1, 2, 1⟩ θ0
      (densityAt8 pyOps ⟨1, 1 / 2⟩ (fun st i => uniNormLpdf st (y i)) nigLaw 2 3)
      (predictiveDens (pyPrior ⟨1, 1 / 2⟩) (fun st i => uniNormLpdf st (y i))
        (nigLaw ⟨0, 1, 2, 1⟩) 3) :=
  (c117_nnig y draw (a := 1) (b := 1 / 2) (by norm_num [pyInit]) 2 3 1 (by omega) (by omega)
    (by omega) ⟨0, 1, 2, 1⟩ (by norm_num [NigValid]) θ0).2

/-- **C117, linear regression.** The grid point is the value `y n` with covariates `x n`. -/
theorem c117_linreg {d : ℕ} (y : ℕ → ℝ) (x : ℕ → Fin d → ℝ) (draw : MNIG d → ℕ → UniLinRegLS d)
    {a b : ℝ} {py : PYState} (hpy : pyInit a b = .ok py) (K n m : ℕ) (hn : 2 ≤ n) (hK : 0 < K)
    (hKn : K ≤ n) (h0 : MNIG d) (hv : MnigValid h0) (θ0 : UniLinRegLS d) :
    haveI : Nonempty (UniLinRegLS d) := ⟨θ0⟩
    Neal2Density (linRegEnv y x draw fun h _ _ => h) (fun st i => linRegLpdf st (y i) (x i))
      (pyScores (fun h i => linRegMargLpdf h (y i) (x i)) py) mnigLaw K n h0 θ0
      (densityAt pyOps py (fun st i => linRegLpdf st (y i) (x i))
        (fun h i => linRegMargLpdf h (y i) (x i)) n)
      (predictiveDens (pyPrior py) (fun st i => linRegLpdf st (y i) (x i)) (mnigLaw h0) n) ∧
    Neal8Density (linRegEnv y x draw fun h _ _ => h) (fun st i => linRegLpdf st (y i) (x i))
      (pyScores (fun h i => linRegMargLpdf h (y i) (x i)) py) mnigLaw K n m h0 θ0
      (densityAt8 pyOps py (fun st i => linRegLpdf st (y i) (x i)) mnigLaw (m + 1) n)
      (predictiveDens (pyPrior py) (fun st i => linRegLpdf st (y i) (x i)) (mnigLaw h0) n) := by
  haveI : Nonempty (UniLinRegLS d) := ⟨θ0⟩
  exact ⟨c117_neal2_pitman_yor _ (fun _ _ _ => rfl) (by simp [linRegEnv]) _ _ mnigLaw MnigValid
    (linReg_conjugate y x draw _) hpy K n hn hK hKn h0 hv θ0,
    c117_neal8_pitman_yor _ (fun _ _ _ => rfl) (by simp [linRegEnv]) _ _ mnigLaw MnigValid
    (linReg_conjugate y x draw _) hpy K n m hn hK hKn h0 hv θ0⟩

/-! ### Dirichlet process -/

/-- **C117, Dirichlet process, what the estimates converge to**: the posterior mean, under total mass
one, of the density with the configured total mass. If the configured mass is one, this is the
predictive density. -/
theorem c117_dirichlet_partial (E : Env G H Θ) (hfix : ∀ h l r, E.hyperUpdate h l r = h)
    (hk : E.kind = .conjugate) (like : Θ → ℕ → ℝ) (pred : H → ℕ → ℝ) (ν : H → Measure Θ) (V : H → Prop)
    (C : Conjugate E like pred ν V) {prior : DPPrior} {dp : DPState} (hdp : DPRun prior dp) (K n m : ℕ)
    (hn : 2 ≤ n) (hK : 0 < K) (hKn : K ≤ n) (h0 : H) (hv : V h0) (θ0 : Θ) :
    ∃ t : ℝ, Neal2Density E like (dpScores pred dp) ν K n h0 θ0
        (densityAt dpOps (dpSetState dp.totalmass) like pred n) t ∧
      Neal8Density E like (dpScores pred dp) ν K n m h0 θ0
        (densityAt8 dpOps (dpSetState dp.totalmass) like ν (m + 1) n) t ∧
      t = jointMean (n := n) (dpPrior 1) like (ν h0)
        (mixDens (fun c => (c : ℝ) / (n + dp.totalmass)) (fun _ => dp.totalmass / (n + dp.totalmass))
          like (ENNReal.ofReal (Real.exp (pred h0 n)))) ∧
      (dp.totalmass = 1 → t = predictiveDens (dpPrior dp.totalmass) like (ν h0) n) := by
  have hp := (C.row h0 n hv).prior
  have hm := pred_int (C.row h0 n hv)
  have hα := hdp.pos.1
  refine ⟨_, (dp_neal2Ok E hfix (by simp [hk]) C hdp hn hv).density hk hK hKn θ0 C hv ofReal_ne_top
    fun σ A x s hs => densityAt_dp hs (by omega) hα like pred,
    (dp_neal8Ok E hfix (by simp [hk]) C hdp hn hv).density hk hK hKn m θ0 C hv ofReal_ne_top
    fun σ A x s hs => densityAt8_dp hs (by omega) hα C.meas hp (by omega) hm, rfl, fun e => ?_⟩
  rw [e]
  exact dp_predictive one_pos hn C.meas hm

/-- Total mass two, three rows. -/
example (y : ℕ → ℝ) (draw : NIG → ℕ → UniLS) (θ0 : UniLS) :
    haveI : Nonempty UniLS := ⟨θ0⟩
    ∃ t : ℝ, Neal2Density (nnigEnv y draw fun h _ _ => h) (fun st i => uniNormLpdf st (y i))
      (dpScores (fun h i => nnigMargLpdf h (y i)) ⟨2, 0⟩) nigLaw 1 3 ⟨0, 1, 2, 1⟩ θ0
      (densityAt dpOps (dpSetState 2) (fun st i => uniNormLpdf st (y i))
        (fun h i => nnigMargLpdf h (y i)) 3) t := by
  haveI : Nonempty UniLS := ⟨θ0⟩
  obtain ⟨t, h, -⟩ := c117_dirichlet_partial _ (fun _ _ _ => rfl) (by simp [nnigEnv]) _ _ nigLaw
    NigValid (nnig_conjugate y draw fun h _ _ => h) (prior := .fixed 2) (dp := ⟨2, 0⟩)
    (.init (by norm_num [dpInit, dpFresh])) 1 3 2
    (by omega) (by omega) (by omega) ⟨0, 1, 2, 1⟩ (by norm_num [NigValid]) θ0
  exact ⟨t, h⟩

theorem limit_unique {f : ℕ → ℝ} {t t' b b' δ δ' : ℝ} (d0 : 0 < δ) (d1 : δ ≤ 1) (d0' : 0 < δ')
    (d1' : δ' ≤ 1) (h : ∀ k, |f k - t| ≤ b * (1 - δ) ^ k) (h' : ∀ k, |f k - t'| ≤ b' * (1 - δ') ^ k) :
    t = t' := by
  have key : ∀ {t b δ : ℝ}, 0 < δ → δ ≤ 1 → (∀ k, |f k - t| ≤ b * (1 - δ) ^ k) →
      Filter.Tendsto f Filter.atTop (nhds t) := by
    intro t b δ d0 d1 h
    rw [tendsto_iff_norm_sub_tendsto_zero]
    have h0 := (tendsto_pow_atTop_nhds_zero_of_lt_one (r := 1 - δ) (by linarith)
      (by linarith)).const_mul b
    rw [mul_zero] at h0
    exact squeeze_zero (fun _ => norm_nonneg _) h h0
  exact tendsto_nhds_unique (key d0 d1 h) (key d0' d1' h')

theorem Neal2Density.unique {E : Env G H Θ} {like : Θ → ℕ → ℝ} {S : Scores H} {ν : H → Measure Θ}
    {K n : ℕ} {h0 : H} {θ0 : Θ} {dens : Alg G H Θ → ℝ≥0∞} {t t' : ℝ}
    (h : Neal2Density E like S ν K n h0 θ0 dens t) (h' : Neal2Density E like S ν K n h0 θ0 dens t') :
    t = t' := by
  obtain ⟨δ, b, d0, d1, h⟩ := h
  obtain ⟨δ', b', d0', d1', h'⟩ := h'
  obtain ⟨s0, e, h⟩ := h ⟨fun _ => 0, fun _ => 0⟩ ⟨θ0, 0, ∅, 0, false, none⟩ nofun
  obtain ⟨s1, e', h'⟩ := h' ⟨fun _ => 0, fun _ => 0⟩ ⟨θ0, 0, ∅, 0, false, none⟩ nofun
  obtain rfl : s0 = s1 := Except.ok.inj (e.symm.trans e')
  exact limit_unique d0 d1 d0' d1' (fun k => (h k).2) fun k => (h' k).2

theorem Neal8Density.unique {E : Env G H Θ} {like : Θ → ℕ → ℝ} {S : Scores H} {ν : H → Measure Θ}
    {K n m : ℕ} {h0 : H} {θ0 : Θ} {dens : Alg G H Θ → ℝ≥0∞} {t t' : ℝ}
    (h : Neal8Density E like S ν K n m h0 θ0 dens t)
    (h' : Neal8Density E like S ν K n m h0 θ0 dens t') : t = t' := by
  obtain ⟨δ, b, d0, d1, h⟩ := h
  obtain ⟨δ', b', d0', d1', h'⟩ := h'
  obtain ⟨s0, e, h⟩ := h ⟨fun _ => 0, fun _ => 0⟩ ⟨θ0, 0, ∅, 0, false, none⟩
    (List.replicate (m + 1) ⟨θ0, 0, ∅, 0, false, none⟩) nofun (by simp)
  obtain ⟨s1, e', h'⟩ := h' ⟨fun _ => 0, fun _ => 0⟩ ⟨θ0, 0, ∅, 0, false, none⟩
    (List.replicate (m + 1) ⟨θ0, 0, ∅, 0, false, none⟩) nofun (by simp)
  obtain rfl : s0 = s1 := Except.ok.inj (e.symm.trans e')
  exact limit_unique d0 d1 d0' d1' (fun k => (h k).2) fun k => (h' k).2

/-- Two rows: the posterior mean with total mass one of the density with total mass `α ≠ 1` is not the
predictive density. -/
theorem dp_limit_ne {E : Env G H Θ} {like : Θ → ℕ → ℝ} {pred : H → ℕ → ℝ} {ν : H → Measure Θ}
    {V : H → Prop} (C : Conjugate E like pred ν V) {α : ℝ} (hα : 0 < α) (hmass : α ≠ 1) {h0 : H}
    (hv : V h0)
    (hne : 2 * Real.exp (pred (E.post h0 2 (E.contrib 0 + E.contrib 1)) 2) ≠
      Real.exp (pred (E.post h0 1 (E.contrib 0)) 2) + Real.exp (pred (E.post h0 1 (E.contrib 1)) 2)) :
    jointMean (n := 2) (dpPrior 1) like (ν h0)
        (mixDens (fun c => (c : ℝ) / ((2 : ℕ) + α)) (fun _ => α / ((2 : ℕ) + α))
          like (ENNReal.ofReal (Real.exp (pred h0 2)))) ≠
      predictiveDens (dpPrior α) like (ν h0) 2 := by
  have hp := (C.row h0 2 hv).prior
  rw [← dp_predictive hα le_rfl C.meas (pred_int (C.row h0 2 hv))]
  obtain ⟨l, l', l0, l0', h⟩ := jointMean_two C hv (fun c => (c : ℝ) / ((2 : ℕ) + α))
    (fun _ => α / ((2 : ℕ) + α)) (m := Real.exp (pred h0 2)) (fun c => by positivity)
    (fun c => by positivity) (Real.exp_pos _).le
  rw [h 1 one_pos, h α hα]
  intro e
  obtain ⟨u, hu⟩ : ∃ u, u = Real.exp (pred (E.post h0 2 (E.contrib 0 + E.contrib 1)) 2) := ⟨_, rfl⟩
  obtain ⟨v, hv'⟩ : ∃ v, v = Real.exp (pred (E.post h0 1 (E.contrib 0)) 2) +
    Real.exp (pred (E.post h0 1 (E.contrib 1)) 2) := ⟨_, rfl⟩
  obtain ⟨x, hx⟩ : ∃ x, x = Real.exp (pred h0 2) := ⟨_, rfl⟩
  rw [← hu, ← hv'] at hne e
  rw [← hx] at e
  have p1 : l + 1 * l' ≠ 0 := by positivity
  have p2 : l + α * l' ≠ 0 := by positivity
  have p3 : ((2 : ℕ) : ℝ) + α ≠ 0 := by positivity
  rw [div_eq_div_iff p1 p2] at e
  have e2 : (1 - α) * (l * l') * (2 * u - v) = 0 := by
    push_cast at e p3
    field_simp at e
    linear_combination -e
  rcases mul_eq_zero.mp e2 with e3 | e3
  · rcases mul_eq_zero.mp e3 with e4 | e4
    · exact hmass (by linarith)
    · exact (mul_pos l0 l0').ne' e4
  · exact hne (by linarith)

/-- **C117, Dirichlet process, violation.** Two rows, configured total mass not one: if the predictive
density given both rows in a cluster is not the average of those given one row, the estimates of Neal2
and Neal8 do not converge to the posterior predictive density. -/
theorem c117_dirichlet_violated (E : Env G H Θ) (hfix : ∀ h l r, E.hyperUpdate h l r = h)
    (hk : E.kind = .conjugate) (like : Θ → ℕ → ℝ) (pred : H → ℕ → ℝ) (ν : H → Measure Θ) (V : H → Prop)
    (C : Conjugate E like pred ν V) {prior : DPPrior} {dp : DPState} (hdp : DPRun prior dp)
    (hmass : dp.totalmass ≠ 1) (K m : ℕ) (hK : 0 < K) (hKn : K ≤ 2) (h0 : H) (hv : V h0) (θ0 : Θ)
    (hne : 2 * Real.exp (pred (E.post h0 2 (E.contrib 0 + E.contrib 1)) 2) ≠
      Real.exp (pred (E.post h0 1 (E.contrib 0)) 2) + Real.exp (pred (E.post h0 1 (E.contrib 1)) 2)) :
    ¬ Neal2Density E like (dpScores pred dp) ν K 2 h0 θ0
        (densityAt dpOps (dpSetState dp.totalmass) like pred 2)
        (predictiveDens (dpPrior dp.totalmass) like (ν h0) 2) ∧
      ¬ Neal8Density E like (dpScores pred dp) ν K 2 m h0 θ0
        (densityAt8 dpOps (dpSetState dp.totalmass) like ν (m + 1) 2)
        (predictiveDens (dpPrior dp.totalmass) like (ν h0) 2) := by
  have hα := hdp.pos.1
  obtain ⟨t, h1, h2, ht, -⟩ := c117_dirichlet_partial E hfix hk like pred ν V C hdp K 2 m le_rfl hK
    hKn h0 hv θ0
  have hs : t ≠ predictiveDens (dpPrior dp.totalmass) like (ν h0) 2 := by
    rw [ht]
    exact dp_limit_ne C hα hmass hv hne
  exact ⟨fun h => hs (h1.unique h), fun h => hs (h2.unique h)⟩

/-- Predictive densities of the normal hierarchy given two rows and one row at the prior mean. -/
theorem nnig_pred_ne (draw : NIG → ℕ → UniLS) :
    2 * Real.exp (nnigMargLpdf ((nnigEnv (fun _ => 0) draw fun h _ _ => h).post ⟨0, 1, 1, 1⟩ 2
      ((nnigEnv (fun _ => 0) draw fun h _ _ => h).contrib 0 +
        (nnigEnv (fun _ => 0) draw fun h _ _ => h).contrib 1)) 0) ≠
    Real.exp (nnigMargLpdf ((nnigEnv (fun _ => 0) draw fun h _ _ => h).post ⟨0, 1, 1, 1⟩ 1
      ((nnigEnv (fun _ => 0) draw fun h _ _ => h).contrib 0)) 0) +
    Real.exp (nnigMargLpdf ((nnigEnv (fun _ => 0) draw fun h _ _ => h).post ⟨0, 1, 1, 1⟩ 1
      ((nnigEnv (fun _ => 0) draw fun h _ _ => h).contrib 1)) 0) := by
  have e1 : nnigPosterior ⟨0, 1, 1, 1⟩ 1 ⟨0, 0⟩ = ⟨0, 2, 3 / 2, 1⟩ := by
    norm_num [nnigPosterior]
  have e2 : nnigPosterior ⟨0, 1, 1, 1⟩ 2 ⟨0, 0⟩ = ⟨0, 3, 2, 1⟩ := by
    norm_num [nnigPosterior]
  have hne : nnigMargLpdf ⟨0, 3, 2, 1⟩ 0 ≠ nnigMargLpdf ⟨0, 2, 3 / 2, 1⟩ 0 := by
    have g1 : Real.Gamma (3 / 2) = Real.sqrt Real.pi / 2 := by
      rw [show (3 : ℝ) / 2 = 1 / 2 + 1 by norm_num, Real.Gamma_add_one (by norm_num),
        Real.Gamma_one_half_eq]
      ring
    have g2 : Real.Gamma (5 / 2) = 3 / 2 * (Real.sqrt Real.pi / 2) := by
      rw [show (5 : ℝ) / 2 = 3 / 2 + 1 by norm_num, Real.Gamma_add_one (by norm_num), g1]
    have g3 : Real.Gamma 2 = 1 := Real.Gamma_two
    have hpi := Real.pi_pos
    have hs : 0 < Real.sqrt Real.pi := Real.sqrt_pos.mpr hpi
    have l1 : Real.log (Real.sqrt Real.pi / 2) = Real.log Real.pi / 2 - Real.log 2 := by
      rw [Real.log_div hs.ne' (by norm_num), Real.log_sqrt hpi.le]
    have l2 : Real.log (3 / 2 * (Real.sqrt Real.pi / 2)) =
        Real.log 3 - Real.log 2 + (Real.log Real.pi / 2 - Real.log 2) := by
      rw [Real.log_mul (by norm_num) (by positivity), l1, Real.log_div (by norm_num) (by norm_num)]
    have l3 : Real.log (4 * Real.pi) = 2 * Real.log 2 + Real.log Real.pi := by
      rw [Real.log_mul (by norm_num) hpi.ne', show (4 : ℝ) = 2 ^ 2 by norm_num, Real.log_pow]
      push_cast
      ring
    have l4 : Real.log (3 * Real.pi) = Real.log 3 + Real.log Real.pi :=
      Real.log_mul (by norm_num) hpi.ne'
    have l5 : Real.log (Real.sqrt (2 / 3)) = (Real.log 2 - Real.log 3) / 2 := by
      rw [Real.log_sqrt (by norm_num), Real.log_div (by norm_num) (by norm_num)]
    have hA : nnigMargLpdf ⟨0, 3, 2, 1⟩ 0 = Real.log (Real.Gamma (5 / 2)) - Real.log (Real.Gamma 2) -
        1 / 2 * Real.log (4 * Real.pi) - Real.log (Real.sqrt (2 / 3)) := by
      unfold nnigMargLpdf studentTLpdf
      norm_num
    have hB : nnigMargLpdf ⟨0, 2, 3 / 2, 1⟩ 0 = Real.log (Real.Gamma 2) -
        Real.log (Real.Gamma (3 / 2)) - 1 / 2 * Real.log (3 * Real.pi) := by
      unfold nnigMargLpdf studentTLpdf
      norm_num
    rw [hA, hB, g1, g2, g3, l1, l2, l3, l4, l5, Real.log_one]
    have h1 : Real.log 3 < Real.log Real.pi := Real.log_lt_log (by norm_num) Real.pi_gt_three
    have h2 : 9 * Real.log 2 < 6 * Real.log 3 := by
      have := Real.log_lt_log (by norm_num) (show (2 : ℝ) ^ 9 < 3 ^ 6 by norm_num)
      rw [Real.log_pow, Real.log_pow] at this
      exact_mod_cast this
    intro e
    linarith
  intro e
  apply hne
  rw [← Real.exp_eq_exp]
  have e' : 2 * Real.exp (nnigMargLpdf (nnigPosterior ⟨0, 1, 1, 1⟩ 2 ⟨0 + 0, 0 ^ 2 + 0 ^ 2⟩) 0) =
      Real.exp (nnigMargLpdf (nnigPosterior ⟨0, 1, 1, 1⟩ 1 ⟨0, 0 ^ 2⟩) 0) +
      Real.exp (nnigMargLpdf (nnigPosterior ⟨0, 1, 1, 1⟩ 1 ⟨0, 0 ^ 2⟩) 0) := e
  simp only [add_zero, ne_eq, OfNat.ofNat_ne_zero, not_false_eq_true, zero_pow, e1, e2] at e'
  linarith

/-- **C117, Dirichlet process, violation for the normal hierarchy.** Any total mass but one, two rows
and the grid point at the prior mean. -/
theorem c117_nnig_dirichlet_violated (draw : NIG → ℕ → UniLS) {prior : DPPrior} {dp : DPState}
    (hdp : DPRun prior dp) (hmass : dp.totalmass ≠ 1) (K m : ℕ) (hK : 0 < K) (hKn : K ≤ 2)
    (θ0 : UniLS) :
    haveI : Nonempty UniLS := ⟨θ0⟩
    ¬ Neal2Density (nnigEnv (fun _ => 0) draw fun h _ _ => h) (fun st _ => uniNormLpdf st 0)
        (dpScores (fun h _ => nnigMargLpdf h 0) dp) nigLaw K 2 ⟨0, 1, 1, 1⟩ θ0
        (densityAt dpOps (dpSetState dp.totalmass) (fun st _ => uniNormLpdf st 0)
          (fun h _ => nnigMargLpdf h 0) 2)
        (predictiveDens (dpPrior dp.totalmass) (fun st _ => uniNormLpdf st 0)
          (nigLaw ⟨0, 1, 1, 1⟩) 2) ∧
      ¬ Neal8Density (nnigEnv (fun _ => 0) draw fun h _ _ => h) (fun st _ => uniNormLpdf st 0)
        (dpScores (fun h _ => nnigMargLpdf h 0) dp) nigLaw K 2 m ⟨0, 1, 1, 1⟩ θ0
        (densityAt8 dpOps (dpSetState dp.totalmass) (fun st _ => uniNormLpdf st 0) nigLaw (m + 1) 2)
        (predictiveDens (dpPrior dp.totalmass) (fun st _ => uniNormLpdf st 0)
          (nigLaw ⟨0, 1, 1, 1⟩) 2) := by
  haveI : Nonempty UniLS := ⟨θ0⟩
  exact c117_dirichlet_violated _ (fun _ _ _ => rfl) (by simp [nnigEnv]) _ _ nigLaw NigValid
    (nnig_conjugate (fun _ => 0) draw _) hdp hmass K m hK hKn ⟨0, 1, 1, 1⟩
    (by norm_num [NigValid]) θ0 (nnig_pred_ne draw)

example (draw : NIG → ℕ → UniLS) (θ0 : UniLS) :
    haveI : Nonempty UniLS := ⟨θ0⟩
    ¬ Neal2Density (nnigEnv (fun _ => 0) draw fun h _ _ => h) (fun st _ => uniNormLpdf st 0)
        (dpScores (fun h _ => nnigMargLpdf h 0) ⟨2, 0⟩) nigLaw 1 2 ⟨0, 1, 1, 1⟩ θ0
        (densityAt dpOps (dpSetState 2) (fun st _ => uniNormLpdf st 0)
          (fun h _ => nnigMargLpdf h 0) 2)
        (predictiveDens (dpPrior 2) (fun st _ => uniNormLpdf st 0) (nigLaw ⟨0, 1, 1, 1⟩) 2) :=
  (c117_nnig_dirichlet_violated draw (prior := .fixed 2) (dp := ⟨2, 0⟩)
    (.init (by norm_num [dpInit, dpFresh])) (by norm_num) 1 0 (by omega) (by omega) θ0).1

end Bayesmix.Chain
