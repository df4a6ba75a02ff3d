import Verif.Algo.Neal3Mean
import Verif.Algo.PropsAverage
import Verif.Algo.PropsNeal3Multi
import Verif.Hier.PropsNwLaw

/-!
# C119: what runs of Neal3 estimate

Functions of partition and values, and density estimates; means over all draws, and averages over the
states stored by a run. Rows `0, ..., n - 1` are the data, and row `n` is a grid point.
-/

namespace Bayesmix.Chain
open Bayesmix Cond Gibbs SplitMerge Slice Mixing Density Hierarchies MeasureTheory ENNReal

variable {G H Θ : Type} [AddCommGroup G] [MeasurableSpace Θ] [Nonempty Θ]

/-- **Convergence of Neal3.** Neal3 is initialized with `K` clusters, whatever the noise. No iteration
fails, and the mean of any function of partition and values bounded by one after `k + 1` iterations
differs from its posterior mean by at most `(1 - δ)^k`. -/
def Neal3Converges (E : Env G H Θ) (like : Θ → ℕ → ℝ) (S : Scores H) (ν : H → Measure Θ) (K n : ℕ)
    (h0 : H) (θ0 : Θ) (prior : List ℕ → ℝ) : Prop :=
  ∃ δ : ℝ, 0 < δ ∧ δ ≤ 1 ∧ ∀ (zi : InitNoise) (u : Hier G H Θ), u.saved = false →
    ∃ s0, initAlloc E true K n h0 θ0 zi [u] = .ok s0 ∧
      (∀ k, (neal3IterMean E S ν n)^[k] (fun _ => 1) s0 = 1) ∧
      ∀ φ : Setoid (Fin n) → (Fin n → Θ) → ℝ≥0∞, (∀ σ, Measurable (φ σ)) → (∀ σ x, φ σ x ≤ 1) →
        ∀ k, |((neal3IterMean E S ν n)^[k + 1] (observe θ0 φ) s0).toReal -
          jointMean prior like (ν h0) φ| ≤ (1 - δ) ^ k

/-- The mean of `dens` after `k + 1` iterations of Neal3, from any initialization, is finite and
converges to `target`, geometrically. -/
def Neal3Density (E : Env G H Θ) (S : Scores H) (ν : H → Measure Θ) (K n : ℕ)
    (h0 : H) (θ0 : Θ) (dens : Alg G H Θ → ℝ≥0∞) (target : ℝ) : Prop :=
  ∃ δ b : ℝ, 0 < δ ∧ δ ≤ 1 ∧ ∀ (zi : InitNoise) (u : Hier G H Θ), u.saved = false →
    ∃ s0, initAlloc E true K n h0 θ0 zi [u] = .ok s0 ∧
      ∀ k, (neal3IterMean E S ν n)^[k + 1] dens s0 ≠ ∞ ∧
        |((neal3IterMean E S ν n)^[k + 1] dens s0).toReal - target| ≤ b * (1 - δ) ^ k

/-- The average of `est` over the states stored by a run of Neal3 converges to `target` in probability:
whatever the number of iterations and the burn-in, the probability of an error of at least `ε` is at
most `C / (N ε²)`, where `N` is the number of states stored. -/
def Neal3Average (E : Env G H Θ) (S : Scores H) (ν : H → Measure Θ) (K n : ℕ) (h0 : H) (θ0 : Θ)
    (est : Alg G H Θ → ℝ≥0∞) (target : ℝ) : Prop :=
  ∃ C : ℝ, 0 < C ∧ ∀ (zi : InitNoise) (u : Hier G H Θ), u.saved = false →
    ∃ s0, initAlloc E true K n h0 θ0 zi [u] = .ok s0 ∧
      ∀ maxiter burnin : ℕ, burnin < maxiter → ∀ ε : ℝ, 0 < ε →
        averageProb (neal3IterMean E S ν n) (Measure.dirac ()) (fun s _ => est s) maxiter burnin
          {t | ε ≤ |t - target|} s0 ≤ ENNReal.ofReal (C / ((maxiter - burnin) * ε ^ 2))

section general

variable {E : Env G H Θ} {like : Θ → ℕ → ℝ} {S : Scores H} {ν : H → Measure Θ} {n : ℕ} {h0 : H}
  {prior : List ℕ → ℝ}

theorem Neal3Ok.init (hO : Neal3Ok E like S ν n h0 prior) {K : ℕ} (hK : 0 < K) (hKn : K ≤ n) (θ0 : Θ)
    (zi : InitNoise) {u : Hier G H Θ} (hu : u.saved = false) :
    ∃ s0, initAlloc E true K n h0 θ0 zi [u] = .ok s0 ∧ ∃ σ x, Held (n := n) E h0 σ x s0 := by
  have hk : E.kind ≠ .other := (hO.target fun _ => θ0).kind
  obtain ⟨s0, e0, hm0, -, hh0, hf0⟩ := initAlloc_ok (E := E) (upd := true) (h0 := h0) (θ0 := θ0)
    zi (o := u) (fun _ => hk) hK hKn (by simp [Hier.CacheOk, hu])
  have hg : Good E n h0 s0 := ⟨hm0, hh0, fun o ho => by
    obtain ⟨j, hj⟩ := List.getElem?_of_mem ho
    rw [hh0]
    exact hf0 rfl j o hj⟩
  exact ⟨s0, e0, _, _, hg.held θ0⟩

/-- Functions of partition and values, on states with saved hyperparameters. -/
theorem observe_held (d : Θ) (φ : Setoid (Fin n) → (Fin n → Θ) → ℝ≥0∞) :
    Reads3 E h0 (observe d φ) φ := by
  intro σ x s hs
  have h := reads_observable d φ σ ∅ x (forget s) hs.seen
  dsimp only at h
  rw [rowValues_forget] at h
  exact h

theorem Neal3Ok.density (hO : Neal3Ok E like S ν n h0 prior) {K : ℕ} (hK : 0 < K) (hKn : K ≤ n) (θ0 : Θ)
    {dens : Alg G H Θ → ℝ≥0∞} {Φ : Setoid (Fin n) → (Fin n → Θ) → ℝ≥0∞} (hΦ : ∀ σ, Measurable (Φ σ))
    (hfin : ∀ σ, ∫⁻ y, Φ σ y ∂partValues E ν h0 σ ≠ ∞) (hd : Reads3 E h0 dens Φ) :
    Neal3Density E S ν K n h0 θ0 dens (jointMean prior like (ν h0) Φ) := by
  obtain ⟨δ, d0, d1, hδ⟩ := hO.converges
  obtain ⟨b, hb⟩ := hδ Φ hΦ hfin
  refine ⟨δ, b, d0, d1, fun zi u hu => ?_⟩
  obtain ⟨s0, e, σ, x, hs⟩ := hO.init hK hKn θ0 zi hu
  refine ⟨s0, e, fun k => ?_⟩
  rw [(hO.iterates hΦ hd (k + 1)).2 σ x s0 hs]
  exact hb k σ x

theorem Neal3Ok.joint (hO : Neal3Ok E like S ν n h0 prior) {K : ℕ} (hK : 0 < K) (hKn : K ≤ n) (θ0 : Θ) :
    Neal3Converges E like S ν K n h0 θ0 prior := by
  have hp := hO.discOk.prob
  obtain ⟨δ, d0, d1, hδ⟩ := hO.converges_one
  refine ⟨δ, d0, d1, fun zi u hu => ?_⟩
  obtain ⟨s0, e, σ, x, hs⟩ := hO.init hK hKn θ0 zi hu
  refine ⟨s0, e, fun k => ?_, fun φ hφ hle => ?_⟩
  · rw [(hO.iterates (g := fun _ => 1) (Φ := fun _ _ => 1) (fun _ => measurable_const)
      (fun _ _ _ _ => rfl) k).2 σ x s0 hs]
    induction k generalizing σ x with
    | zero => rfl
    | succ k ih =>
      rw [Function.iterate_succ_apply']
      have : (discKernel (partMoves prior like (ν h0)) (partValues E ν h0))^[k]
          (fun _ _ => 1) = fun (_ : Setoid (Fin n)) (_ : Fin n → Θ) => 1 := by
        clear ih
        induction k with
        | zero => rfl
        | succ k ih =>
          rw [Function.iterate_succ_apply', ih]
          funext σ x
          unfold discKernel
          simp [hO.discOk.one]
      rw [this]
      unfold discKernel
      simp [hO.discOk.one]
  · intro k
    rw [(hO.iterates hφ (observe_held θ0 φ) (k + 1)).2 σ x s0 hs]
    exact hδ φ hφ hle k σ x

/-- Values away from the limit have small probability. -/
theorem Neal3Ok.average_away (hO : Neal3Ok E like S ν n h0 prior) {K : ℕ} (hK : 0 < K) (hKn : K ≤ n)
    (θ0 : Θ) {φ : Setoid (Fin n) → (Fin n → Θ) → ℝ≥0∞}
    (hφ : Square E ν h0 (Measure.dirac ()) fun σ x (_ : Unit) => φ σ x)
    {est : Alg G H Θ → ℝ≥0∞} (he : Reads3 E h0 est φ) {L : ℝ} (hL : jointMean prior like (ν h0) φ = L) :
    ∃ C : ℝ, 0 < C ∧ ∀ (zi : InitNoise) (u : Hier G H Θ), u.saved = false →
      ∃ s0, initAlloc E true K n h0 θ0 zi [u] = .ok s0 ∧
        ∀ maxiter burnin : ℕ, burnin < maxiter → ∀ ε : ℝ, 0 < ε → ∀ D : Set ℝ, MeasurableSet D →
          (∀ t ∈ D, ε ≤ |t - L|) →
          averageProb (neal3IterMean E S ν n) (Measure.dirac ()) (fun s _ => est s) maxiter burnin D s0 ≤
            ENNReal.ofReal (C / ((maxiter - burnin) * ε ^ 2)) := by
  obtain ⟨C, hC, h⟩ := hO.sum_away hφ () (L := L) (by rw [overDraw_unit]; exact hL)
  refine ⟨C, hC, fun zi u hu => ?_⟩
  obtain ⟨s0, e, σ, x, hs⟩ := hO.init hK hKn θ0 zi hu
  refine ⟨s0, e, fun maxiter burnin hlt ε hε D hD hDε => ?_⟩
  obtain ⟨N, rfl⟩ : ∃ N, maxiter = burnin + N := ⟨maxiter - burnin, by omega⟩
  have hN : 0 < N := by omega
  rw [averageProb_eq]
  have hF := measurable_hit hD N
  rw [(hO.iterates (hO.partSum_meas hF hφ () N 0).1
    (hO.sum_reads hF hφ () (est := fun s _ => est s) (fun σ x s hs _ => he σ x s hs) N 0)
    burnin).2 σ x s0 hs]
  refine hO.iterate_le (fun σ y => ?_) burnin _ _
  refine (h N hN ε hε D hDε σ y).trans (le_of_eq ?_)
  push_cast
  rw [add_sub_cancel_left]

theorem Neal3Ok.average (hO : Neal3Ok E like S ν n h0 prior) {K : ℕ} (hK : 0 < K) (hKn : K ≤ n)
    (θ0 : Θ) {φ : Setoid (Fin n) → (Fin n → Θ) → ℝ≥0∞}
    (hφ : Square E ν h0 (Measure.dirac ()) fun σ x (_ : Unit) => φ σ x)
    {est : Alg G H Θ → ℝ≥0∞} (he : Reads3 E h0 est φ) :
    Neal3Average E S ν K n h0 θ0 est (jointMean prior like (ν h0) φ) := by
  obtain ⟨C, hC, h⟩ := hO.average_away hK hKn θ0 hφ he rfl
  refine ⟨C, hC, fun zi u hu => ?_⟩
  obtain ⟨s0, e, h⟩ := h zi u hu
  exact ⟨s0, e, fun M B hMB ε hε => h M B hMB ε hε _ (measurable_far _ _) fun t ht => ht⟩

theorem Neal3Density.unique {K : ℕ} {θ0 : Θ} {dens : Alg G H Θ → ℝ≥0∞} {t t' : ℝ}
    (h : Neal3Density E S ν K n h0 θ0 dens t) (h' : Neal3Density E S ν K n h0 θ0 dens t') : t = t' := by
  obtain ⟨δ, b, d0, d1, h⟩ := h
  obtain ⟨δ', b', d0', d1', h'⟩ := h'
  obtain ⟨s0, e, h⟩ := h ⟨fun _ => 0, fun _ => 0⟩ ⟨θ0, 0, ∅, 0, false, none⟩ rfl
  obtain ⟨s1, e', h'⟩ := h' ⟨fun _ => 0, fun _ => 0⟩ ⟨θ0, 0, ∅, 0, false, none⟩ rfl
  obtain rfl : s0 = s1 := Except.ok.inj (e.symm.trans e')
  exact limit_unique d0 d1 d0' d1' (fun k => (h k).2) fun k => (h' k).2

end general

/-! ### Instances -/

omit [Nonempty Θ] in
theorem conjugate_draw {E : Env G H Θ} {like : Θ → ℕ → ℝ} {pred : H → ℕ → ℝ} {ν : H → Measure Θ}
    {V : H → Prop} (C : Conjugate E like pred ν V) (draw : H × ℕ → Θ) :
    Conjugate (withDraw E draw) like pred ν V :=
  ⟨C.meas, fun h i hv => ⟨(C.row h i hv).prior, (C.row h i hv).post, (C.row h i hv).rule⟩, C.valid,
    C.chain⟩

theorem py_neal3Ok (E : Env G H Θ) (hfix : ∀ h l r, E.hyperUpdate h l r = h) (hk : E.kind ≠ .other)
    {like : Θ → ℕ → ℝ} {pred : H → ℕ → ℝ} {ν : H → Measure Θ} {V : H → Prop}
    (C : Conjugate E like pred ν V) {a b : ℝ} {py : PYState} (hpy : pyInit a b = .ok py) {n : ℕ}
    (hn : 2 ≤ n) {h0 : H} (hv : V h0) : Neal3Ok E like (pyScores pred py) ν n h0 (pyPrior py) := by
  have e : pyPosterior py (fun D => Real.log (intLik like (ν h0) D)) =
      mixPosterior (pyPrior py) like (ν h0) := funext fun al => posterior_mix C hv _ _ al
  refine ⟨fun draw => ?_, C.meas, C.clusters hv, pyPrior_pos hpy hn,
    jointMean_part C hv (pyPrior_pos hpy hn)⟩
  rw [← e]
  exact py_target (withDraw E draw) hfix hk pred hpy hn
    (margLik_intLik (conjugate_draw C draw) hv (pyScores pred py) rfl)

theorem dp_neal3Ok (E : Env G H Θ) (hfix : ∀ h l r, E.hyperUpdate h l r = h) (hk : E.kind ≠ .other)
    {like : Θ → ℕ → ℝ} {pred : H → ℕ → ℝ} {ν : H → Measure Θ} {V : H → Prop}
    (C : Conjugate E like pred ν V) {prior : DPPrior} {dp : DPState} (hdp : DPRun prior dp) {n : ℕ}
    (hn : 2 ≤ n) {h0 : H} (hv : V h0) : Neal3Ok E like (dpScores pred dp) ν n h0 (dpPrior 1) := by
  have e : dpPosterior 1 (fun D => Real.log (intLik like (ν h0) D)) =
      mixPosterior (dpPrior 1) like (ν h0) := funext fun al => posterior_mix C hv _ _ al
  refine ⟨fun draw => ?_, C.meas, C.clusters hv, dpPrior_pos one_pos hn,
    jointMean_part C hv (dpPrior_pos one_pos hn)⟩
  rw [← e]
  exact dp_target (withDraw E draw) hfix hk pred hdp hn
    (margLik_intLik (conjugate_draw C draw) hv (dpScores pred dp) rfl)

theorem densityAt_forget {T : Type} (M : MixOps T) (st : T) (like : Θ → ℕ → ℝ) (pred : H → ℕ → ℝ)
    (x : ℕ) (s : Alg G H Θ) : densityAt M st like pred x (forget s) = densityAt M st like pred x s :=
  estimateAt_forget M st like _ x s

/-- Density estimates of Neal3, if they are those of a mixture at the values of the clusters. -/
theorem Neal3Ok.mixture {E : Env G H Θ} {like : Θ → ℕ → ℝ} {S : Scores H} {ν : H → Measure Θ}
    {pred : H → ℕ → ℝ} {V : H → Prop} {n : ℕ} {h0 : H} {prior : List ℕ → ℝ}
    (hO : Neal3Ok E like S ν n h0 prior) {K : ℕ} (hK : 0 < K) (hKn : K ≤ n) (θ0 : Θ)
    (C : Conjugate E like pred ν V) (hv : V h0) {ce cn : ℕ → ℝ} {dens : Alg G H Θ → ℝ≥0∞} {m : ℝ≥0∞}
    (hm : m ≠ ∞) (hd : Reads3 (n := n) E h0 dens (mixDens ce cn like m)) :
    Neal3Density E S ν K n h0 θ0 dens (jointMean (n := n) prior like (ν h0) (mixDens ce cn like m)) ∧
    Neal3Average E S ν K n h0 θ0 dens (jointMean (n := n) prior like (ν h0) (mixDens ce cn like m)) :=
  ⟨hO.density hK hKn θ0 (measurable_mixDens C.meas) (fun σ => mixDens_int C hv ce cn hm (σ, ∅)) hd,
    hO.average hK hKn θ0 (square_mixDens (P := Measure.dirac ()) C hv ce cn (μ := fun _ : Unit => m)
      measurable_const (fun _ => hm) (memLp_const _)) hd⟩

/-! ### Pitman-Yor process -/

/-- **C119, Neal3, Pitman-Yor process.** Means over all draws of bounded functions of partition and
values converge to posterior means, and so do averages over the stored states. -/
theorem c119_pitman_yor (E : Env G H Θ) (hfix : ∀ h l r, E.hyperUpdate h l r = h)
    (hk : E.kind ≠ .other) (like : Θ → ℕ → ℝ) (pred : H → ℕ → ℝ) (ν : H → Measure Θ) (V : H → Prop)
    (C : Conjugate E like pred ν V) {a b : ℝ} {py : PYState} (hpy : pyInit a b = .ok py) (K n : ℕ)
    (hn : 2 ≤ n) (hK : 0 < K) (hKn : K ≤ n) (h0 : H) (hv : V h0) (θ0 : Θ) :
    Neal3Converges E like (pyScores pred py) ν K n h0 θ0 (pyPrior py) ∧
    ∀ (φ : Setoid (Fin n) → (Fin n → Θ) → ℝ≥0∞) (M : ℝ≥0∞), (∀ σ, Measurable (φ σ)) → M ≠ ∞ →
      (∀ σ x, φ σ x ≤ M) →
      Neal3Average E (pyScores pred py) ν K n h0 θ0 (observe θ0 φ)
        (jointMean (pyPrior py) like (ν h0) φ) := by
  have hO := py_neal3Ok E hfix hk C hpy hn hv
  exact ⟨hO.joint hK hKn θ0, fun φ M hφ hM hle =>
    hO.average hK hKn θ0 (square_bounded (C.clusters hv) hφ hM hle) (observe_held θ0 φ)⟩

/-- **C119, Neal3, Pitman-Yor process, density estimates.** The mean of the density estimate at a grid
point converges geometrically to the posterior predictive density, and so does its average over the
stored states, in probability. -/
theorem c119_density_pitman_yor (E : Env G H Θ) (hfix : ∀ h l r, E.hyperUpdate h l r = h)
    (hk : E.kind ≠ .other) (like : Θ → ℕ → ℝ) (pred : H → ℕ → ℝ) (ν : H → Measure Θ) (V : H → Prop)
    (C : Conjugate E like pred ν V) {a b : ℝ} {py : PYState} (hpy : pyInit a b = .ok py) (K n : ℕ)
    (hn : 2 ≤ n) (hK : 0 < K) (hKn : K ≤ n) (h0 : H) (hv : V h0) (θ0 : Θ) :
    Neal3Density E (pyScores pred py) ν K n h0 θ0 (densityAt pyOps py like pred n)
      (predictiveDens (pyPrior py) like (ν h0) n) ∧
    Neal3Average E (pyScores pred py) ν K n h0 θ0 (densityAt pyOps py like pred n)
      (predictiveDens (pyPrior py) like (ν h0) n) := by
  have hp := (C.row h0 n hv).prior
  rw [← py_predictive hpy hn C.meas (pred_int (C.row h0 n hv))]
  exact (py_neal3Ok E hfix hk C hpy hn hv).mixture hK hKn θ0 C hv ofReal_ne_top fun σ x s hs => by
    rw [← densityAt_forget]
    exact densityAt_py hs.seen (by omega) hpy like pred

/-- **C119, normal hierarchy.** Co-clustering of two rows, and density estimates, for every Pitman-Yor
process, every data set and every grid point `y n`. -/
theorem c119_nnig (y : ℕ → ℝ) (draw : NIG → ℕ → UniLS) {a b : ℝ} {py : PYState}
    (hpy : pyInit a b = .ok py) (K n : ℕ) (hn : 2 ≤ n) (hK : 0 < K) (hKn : K ≤ n) (h0 : NIG)
    (hv : NigValid h0) (θ0 : UniLS) :
    haveI : Nonempty UniLS := ⟨θ0⟩
    Neal3Converges (nnigEnv y draw fun h _ _ => h) (fun st i => uniNormLpdf st (y i))
      (pyScores (fun h i => nnigMargLpdf h (y i)) py) nigLaw K n h0 θ0 (pyPrior py) ∧
    Neal3Density (nnigEnv y draw fun h _ _ => h)
      (pyScores (fun h i => nnigMargLpdf h (y i)) py) nigLaw K n h0 θ0
      (densityAt pyOps py (fun st i => uniNormLpdf st (y i)) (fun h i => nnigMargLpdf h (y i)) n)
      (predictiveDens (pyPrior py) (fun st i => uniNormLpdf st (y i)) (nigLaw h0) n) ∧
    Neal3Average (nnigEnv y draw fun h _ _ => h)
      (pyScores (fun h i => nnigMargLpdf h (y i)) py) nigLaw K n h0 θ0
      (densityAt pyOps py (fun st i => uniNormLpdf st (y i)) (fun h i => nnigMargLpdf h (y i)) n)
      (predictiveDens (pyPrior py) (fun st i => uniNormLpdf st (y i)) (nigLaw h0) n) := by
  haveI : Nonempty UniLS := ⟨θ0⟩
  exact ⟨(c119_pitman_yor _ (fun _ _ _ => rfl) (by simp [nnigEnv]) _ _ nigLaw NigValid
    (nnig_conjugate y draw _) hpy K n hn hK hKn h0 hv θ0).1,
    c119_density_pitman_yor _ (fun _ _ _ => rfl) (by simp [nnigEnv]) _ _ nigLaw NigValid
    (nnig_conjugate y draw _) hpy K n hn hK hKn h0 hv θ0⟩

/-- Three rows, two initial clusters: after 1000 iterations of burn-in the probability that the average
of the density estimates over 100 states is off by at least 1/2. -/
example (y : ℕ → ℝ) (draw : NIG → ℕ → UniLS) (θ0 : UniLS) (zi : InitNoise)
    (u : Hier (ℝ × ℝ) NIG UniLS) (hu : u.saved = false) :
    haveI : Nonempty UniLS := ⟨θ0⟩
    ∃ C : ℝ, ∃ s0, initAlloc (nnigEnv y draw fun h _ _ => h) true 2 3 ⟨0, 1, 2, 1⟩ θ0 zi [u] = .ok s0 ∧
      averageProb (neal3IterMean (nnigEnv y draw fun h _ _ => h)
        (pyScores (fun h i => nnigMargLpdf h (y i)) ⟨1, 1 / 2⟩) nigLaw 3) (Measure.dirac ())
        (fun s _ => densityAt pyOps ⟨1, 1 / 2⟩ (fun st i => uniNormLpdf st (y i))
          (fun h i => nnigMargLpdf h (y i)) 3 s) 1100 1000
        {t | 1 / 2 ≤ |t - predictiveDens (pyPrior ⟨1, 1 / 2⟩) (fun st i => uniNormLpdf st (y i))
          (nigLaw ⟨0, 1, 2, 1⟩) 3|} s0 ≤ ENNReal.ofReal (C / 25) := by
  haveI : Nonempty UniLS := ⟨θ0⟩
  obtain ⟨C, -, h⟩ := (c119_nnig y draw (a := 1) (b := 1 / 2) (py := ⟨1, 1 / 2⟩)
    (by norm_num [pyInit]) 2 3 (by omega) (by omega) (by omega) ⟨0, 1, 2, 1⟩
    (by norm_num [NigValid]) θ0).2.2
  obtain ⟨s0, e, h⟩ := h zi u hu
  refine ⟨C, s0, e, (h 1100 1000 (by omega) (1 / 2) (by norm_num)).trans (le_of_eq ?_)⟩
  norm_num

/-- **C119, linear regression.** The grid point is the value `y n` with covariates `x n`. -/
theorem c119_linreg {d : ℕ} (y : ℕ → ℝ) (x : ℕ → Fin d → ℝ) (draw : MNIG d → ℕ → UniLinRegLS d)
    {a b : ℝ} {py : PYState} (hpy : pyInit a b = .ok py) (K n : ℕ) (hn : 2 ≤ n) (hK : 0 < K)
    (hKn : K ≤ n) (h0 : MNIG d) (hv : MnigValid h0) (θ0 : UniLinRegLS d) :
    haveI : Nonempty (UniLinRegLS d) := ⟨θ0⟩
    Neal3Converges (linRegEnv y x draw fun h _ _ => h) (fun st i => linRegLpdf st (y i) (x i))
      (pyScores (fun h i => linRegMargLpdf h (y i) (x i)) py) mnigLaw K n h0 θ0 (pyPrior py) ∧
    Neal3Density (linRegEnv y x draw fun h _ _ => h)
      (pyScores (fun h i => linRegMargLpdf h (y i) (x i)) py) mnigLaw K n h0 θ0
      (densityAt pyOps py (fun st i => linRegLpdf st (y i) (x i))
        (fun h i => linRegMargLpdf h (y i) (x i)) n)
      (predictiveDens (pyPrior py) (fun st i => linRegLpdf st (y i) (x i)) (mnigLaw h0) n) ∧
    Neal3Average (linRegEnv y x draw fun h _ _ => h)
      (pyScores (fun h i => linRegMargLpdf h (y i) (x i)) py) mnigLaw K n h0 θ0
      (densityAt pyOps py (fun st i => linRegLpdf st (y i) (x i))
        (fun h i => linRegMargLpdf h (y i) (x i)) n)
      (predictiveDens (pyPrior py) (fun st i => linRegLpdf st (y i) (x i)) (mnigLaw h0) n) := by
  haveI : Nonempty (UniLinRegLS d) := ⟨θ0⟩
  exact ⟨(c119_pitman_yor _ (fun _ _ _ => rfl) (by simp [linRegEnv]) _ _ mnigLaw MnigValid
    (linReg_conjugate y x draw _) hpy K n hn hK hKn h0 hv θ0).1,
    c119_density_pitman_yor _ (fun _ _ _ => rfl) (by simp [linRegEnv]) _ _ mnigLaw MnigValid
    (linReg_conjugate y x draw _) hpy K n hn hK hKn h0 hv θ0⟩

example (y : ℕ → ℝ) (x : ℕ → Fin 2 → ℝ) (draw : MNIG 2 → ℕ → UniLinRegLS 2) (θ0 : UniLinRegLS 2) :
    haveI : Nonempty (UniLinRegLS 2) := ⟨θ0⟩
    Neal3Density (linRegEnv y x draw fun h _ _ => h)
      (pyScores (fun h i => linRegMargLpdf h (y i) (x i)) ⟨1, 1 / 2⟩) mnigLaw 2 3 exMNIG θ0
      (densityAt pyOps ⟨1, 1 / 2⟩ (fun st i => linRegLpdf st (y i) (x i))
        (fun h i => linRegMargLpdf h (y i) (x i)) 3)
      (predictiveDens (pyPrior ⟨1, 1 / 2⟩) (fun st i => linRegLpdf st (y i) (x i)) (mnigLaw exMNIG) 3) :=
  (c119_linreg y x draw (a := 1) (b := 1 / 2) (by norm_num [pyInit]) 2 3 (by omega) (by omega)
    (by omega) exMNIG (mnigInit_pos exMNIG_valid) θ0).2.1

/-! ### Multivariate Normal hierarchy -/

/-- **C119, multivariate Normal hierarchy, what holds.** Means and averages of functions of partition,
means and precisions of the clusters are right. -/
theorem c119_nnw_partial {d : ℕ} (y : ℕ → Fin d → ℝ) (draw : NW d → ℕ → MultiLS d)
    {a b : ℝ} {py : PYState} (hpy : pyInit a b = .ok py) (K n : ℕ) (hn : 2 ≤ n) (hK : 0 < K)
    (hKn : K ≤ n) (p : NWPrior d) (h0 : NW d) (hp : nwInit p = .ok h0) (θ0 : MultiLS d) :
    haveI : Nonempty (MultiLS d) := ⟨θ0⟩
    Neal3Converges (nnwEnv y draw fun h _ _ => h)
      (fun st i => stanMultiNormalPrecLpdf (y i) st.mean st.prec)
      (pyScores (fun h i => nnwMargLpdf (nwGetProto h) (y i)) py) nwLaw K n h0 θ0 (pyPrior py) ∧
    ∀ (φ : Setoid (Fin n) → (Fin n → MultiLS d) → ℝ≥0∞) (M : ℝ≥0∞), (∀ σ, Measurable (φ σ)) → M ≠ ∞ →
      (∀ σ x, φ σ x ≤ M) →
      Neal3Average (nnwEnv y draw fun h _ _ => h)
        (pyScores (fun h i => nnwMargLpdf (nwGetProto h) (y i)) py) nwLaw K n h0 θ0 (observe θ0 φ)
        (jointMean (pyPrior py) (fun st i => stanMultiNormalPrecLpdf (y i) st.mean st.prec)
          (nwLaw h0) φ) := by
  haveI : Nonempty (MultiLS d) := ⟨θ0⟩
  exact c119_pitman_yor _ (fun _ _ _ => rfl) (by simp [nnwEnv]) _ _ nwLaw NWValid
    (nnw_conjugate y draw _) hpy K n hn hK hKn h0 (nwInit_valid hp) θ0

example (y : ℕ → Fin 2 → ℝ) (draw : NW 2 → ℕ → MultiLS 2) (θ0 : MultiLS 2) :
    haveI : Nonempty (MultiLS 2) := ⟨θ0⟩
    Neal3Converges (nnwEnv y draw fun h _ _ => h)
      (fun st i => stanMultiNormalPrecLpdf (y i) st.mean st.prec)
      (pyScores (fun h i => nnwMargLpdf (nwGetProto h) (y i)) ⟨1, 1 / 2⟩) nwLaw 2 3 exNW θ0
      (pyPrior ⟨1, 1 / 2⟩) :=
  (c119_nnw_partial y draw (a := 1) (b := 1 / 2) (by norm_num [pyInit]) 2 3 (by omega) (by omega)
    (by omega) _ exNW exNW_init θ0).1

/-- The mean of a mixture density over the values of the clusters. -/
theorem lintegral_mixDens {E : Env G H Θ} {like like' : Θ → ℕ → ℝ} {ν : H → Measure Θ} {n : ℕ} {h : H}
    (hB : BayesClusters E like ν h) (hl : ∀ i, Measurable fun θ => like' θ i) (ce cn : ℕ → ℝ) (m : ℝ≥0∞)
    (σ : Setoid (Fin n)) :
    ∫⁻ y, mixDens ce cn like' m σ y ∂partValues E ν h σ =
      (∑ q : Quotient σ, ENNReal.ofReal (ce (blockRows σ q).card) *
        ∫⁻ θ, ENNReal.ofReal (Real.exp (like' θ n)) ∂ν (E.post h (blockRows σ q).card
          (∑ i ∈ blockRows σ q, E.contrib i))) +
      ENNReal.ofReal (cn (Fintype.card (Quotient σ))) * m := by
  have hp : IsProbabilityMeasure (partValues E ν h σ) := valueLaw_prob hB (σ, ∅)
  have hme : Measurable fun θ : Θ => ENNReal.ofReal (Real.exp (like' θ n)) :=
    ENNReal.measurable_ofReal.comp (Real.measurable_exp.comp (hl n))
  have hmq : ∀ q : Quotient σ, Measurable fun y : Fin n → Θ =>
    ENNReal.ofReal (Real.exp (like' (y q.out) n)) := fun q => hme.comp (measurable_pi_apply _)
  unfold mixDens
  rw [lintegral_add_right _ measurable_const, lintegral_const, measure_univ, mul_one,
    lintegral_finsetSum _ fun q _ => (hmq q).const_mul _]
  congr 1
  refine Finset.sum_congr rfl fun q _ => ?_
  rw [lintegral_const_mul _ (hmq q)]
  congr 1
  have h1 := (valueLaw_eval hB (σ, ∅) q.out).lintegral_comp hme
  rw [show Quotient.mk (σ, (∅ : Finset (Fin n))).1 q.out = q from Quotient.out_eq q] at h1
  have h2 : blockHyp E h (σ, ∅) q = E.post h (blockRows σ q).card
      (∑ i ∈ blockRows σ q, E.contrib i) := by
    unfold blockHyp
    rw [if_neg (by simp)]
  rw [h2] at h1
  exact h1

/-- Data at the prior mean leave the mean where it is. -/
theorem nnw_post_mean {d : ℕ} (draw : NW d → ℕ → MultiLS d) {h0 : NW d} (hv : NWValid h0)
    {D : Finset ℕ} (hD : D.Nonempty) :
    ((nnwEnv (fun _ => h0.mean) draw fun h _ _ => h).post h0 D.card
      (∑ i ∈ D, (nnwEnv (fun _ => h0.mean) draw fun h _ _ => h).contrib i)).mean = h0.mean := by
  have hc : ((D.card : ℤ) : ℝ) ≠ 0 := by
    have := hD.card_pos
    push_cast
    positivity
  have hc' : (D.card : ℤ) ≠ 0 := by exact_mod_cast hc
  have hl : h0.varScaling + ((D.card : ℤ) : ℝ) ≠ 0 := by
    have := hv.scaling
    have := hD.card_pos
    push_cast
    positivity
  have hs : (∑ i ∈ D, (nnwEnv (fun _ => h0.mean) draw fun h _ _ => h).contrib i).1 =
      ((D.card : ℤ) : ℝ) • h0.mean := by
    simp only [nnwEnv, Finset.sum_const, Prod.smul_fst]
    push_cast
    exact (Nat.cast_smul_eq_nsmul ℝ _ _).symm
  show (nnwPosterior h0 D.card ⟨(∑ i ∈ D, (nnwEnv (fun _ => h0.mean) draw fun h _ _ => h).contrib i).1,
    _⟩).mean = h0.mean
  unfold nnwPosterior
  rw [if_neg hc']
  dsimp only
  rw [hs]
  funext j
  simp only [Pi.smul_apply, Pi.add_apply, smul_eq_mul]
  field_simp

/-- **C119, multivariate Normal hierarchy, violation.** Density estimates evaluate the likelihood of
stored states, which hold the wrong Cholesky factor (C74): for every accepted two-dimensional prior,
every Pitman-Yor process and data at the prior mean, the estimate there converges to something smaller
than the posterior predictive density. -/
theorem c119_nnw_violated (draw : NW 2 → ℕ → MultiLS 2) {a b : ℝ} {py : PYState}
    (hpy : pyInit a b = .ok py) (K n : ℕ) (hn : 2 ≤ n) (hK : 0 < K) (hKn : K ≤ n) (p : NWPrior 2)
    (h0 : NW 2) (hp : nwInit p = .ok h0) (θ0 : MultiLS 2) :
    haveI : Nonempty (MultiLS 2) := ⟨θ0⟩
    ∃ t, t < predictiveDens (pyPrior py)
        (fun st _ => stanMultiNormalPrecLpdf h0.mean st.mean st.prec) (nwLaw h0) n ∧
      Neal3Density (nnwEnv (fun _ => h0.mean) draw fun h _ _ => h)
        (pyScores (fun h _ => nnwMargLpdf (nwGetProto h) h0.mean) py) nwLaw K n h0 θ0
        (densityAt pyOps py (fun st _ => multiNormLpdf st h0.mean)
          (fun h _ => nnwMargLpdf (nwGetProto h) h0.mean) n) t ∧
      ¬ Neal3Density (nnwEnv (fun _ => h0.mean) draw fun h _ _ => h)
        (pyScores (fun h _ => nnwMargLpdf (nwGetProto h) h0.mean) py) nwLaw K n h0 θ0
        (densityAt pyOps py (fun st _ => multiNormLpdf st h0.mean)
          (fun h _ => nnwMargLpdf (nwGetProto h) h0.mean) n)
        (predictiveDens (pyPrior py)
          (fun st _ => stanMultiNormalPrecLpdf h0.mean st.mean st.prec) (nwLaw h0) n) := by
  haveI : Nonempty (MultiLS 2) := ⟨θ0⟩
  have hv := nwInit_valid hp
  have C := nnw_conjugate (fun _ => h0.mean) draw fun h _ _ => h
  have hB := C.clusters hv
  have hprob := (C.row h0 n hv).prior
  have hO := py_neal3Ok (nnwEnv (fun _ => h0.mean) draw fun h _ _ => h) (fun _ _ _ => rfl)
    (by simp [nnwEnv]) C hpy hn hv
  obtain ⟨ce, hce⟩ : ∃ ce : ℕ → ℝ, ce = fun c : ℕ => ((c : ℝ) - b) / (n + a) := ⟨_, rfl⟩
  obtain ⟨cn, hcn⟩ : ∃ cn : ℕ → ℝ, cn = fun k : ℕ => (a + b * k) / (n + a) := ⟨_, rfl⟩
  obtain ⟨m, hm⟩ : ∃ m, m = ENNReal.ofReal (Real.exp (nnwMargLpdf (nwGetProto h0) h0.mean)) := ⟨_, rfl⟩
  have hm' : m ≠ ∞ := hm ▸ ENNReal.ofReal_ne_top
  have hce0 : ∀ c : ℕ, 0 < c → 0 < ce c := by
    intro c hc
    obtain ⟨-, p1, p2, p3⟩ := pyInit_ok hpy
    have h1 : (1 : ℝ) ≤ c := by exact_mod_cast hc
    have h2 : (2 : ℝ) ≤ n := by exact_mod_cast hn
    rw [hce]
    exact div_pos (by linarith) (by linarith)
  have hml : ∀ _ : ℕ, Measurable fun st : MultiLS 2 => multiNormLpdf st h0.mean :=
    fun _ => measurable_multiNormLpdf _
  -- the integrals of the evaluated likelihood are too small
  have hlt : ∀ (σ : Setoid (Fin n)) (q : Quotient σ),
      ∫⁻ st, ENNReal.ofReal (Real.exp (multiNormLpdf st h0.mean))
        ∂nwLaw ((nnwEnv (fun _ => h0.mean) draw fun h _ _ => h).post h0 (blockRows σ q).card
          (∑ i ∈ blockRows σ q, (nnwEnv (fun _ => h0.mean) draw fun h _ _ => h).contrib i)) <
      ∫⁻ st, ENNReal.ofReal (Real.exp (normalAt st h0.mean))
        ∂nwLaw ((nnwEnv (fun _ => h0.mean) draw fun h _ _ => h).post h0 (blockRows σ q).card
          (∑ i ∈ blockRows σ q, (nnwEnv (fun _ => h0.mean) draw fun h _ _ => h).contrib i)) := by
    intro σ q
    have hvq := C.post hv _ (blockRows_nonempty σ q)
    have h1 := nnw_evaluated_lt hvq
    rw [nnw_post_mean draw hv (blockRows_nonempty σ q)] at h1
    have h2 := pred_int (C.row _ n hvq)
    rw [h2]
    exact h1
  have hnorm : ∀ σ : Setoid (Fin n), ∫⁻ y, mixDens ce cn (fun st _ => normalAt st h0.mean) m σ y
      ∂partValues (nnwEnv (fun _ => h0.mean) draw fun h _ _ => h) nwLaw h0 σ ≠ ∞ :=
    fun σ => mixDens_int C hv ce cn hm' (σ, ∅)
  have hsm : ∀ σ : Setoid (Fin n), ∫⁻ y, mixDens ce cn (fun st _ => multiNormLpdf st h0.mean) m σ y
        ∂partValues (nnwEnv (fun _ => h0.mean) draw fun h _ _ => h) nwLaw h0 σ <
      ∫⁻ y, mixDens ce cn (fun st _ => normalAt st h0.mean) m σ y
        ∂partValues (nnwEnv (fun _ => h0.mean) draw fun h _ _ => h) nwLaw h0 σ := by
    intro σ
    have hf := hnorm σ
    rw [lintegral_mixDens hB (fun _ => measurable_normalAt _)] at hf ⊢
    rw [lintegral_mixDens hB hml]
    have hf1 := (ENNReal.add_ne_top.mp hf).2
    refine ENNReal.add_lt_add_right hf1 ?_
    have hne : (Finset.univ : Finset (Quotient σ)).Nonempty :=
      ⟨Quotient.mk σ ⟨0, by omega⟩, Finset.mem_univ _⟩
    refine ENNReal.sum_lt_sum_of_nonempty hne fun q _ => ?_
    have hc := hce0 _ (blockRows_nonempty σ q).card_pos
    exact (ENNReal.mul_lt_mul_iff_right (ENNReal.ofReal_pos.mpr hc).ne' ENNReal.ofReal_ne_top).mpr
      (hlt σ q)
  have hfin := fun σ => ((hsm σ).trans (lt_top_iff_ne_top.mpr (hnorm σ))).ne
  have hdens : Neal3Density (nnwEnv (fun _ => h0.mean) draw fun h _ _ => h)
      (pyScores (fun h _ => nnwMargLpdf (nwGetProto h) h0.mean) py) nwLaw K n h0 θ0
      (densityAt pyOps py (fun st _ => multiNormLpdf st h0.mean)
        (fun h _ => nnwMargLpdf (nwGetProto h) h0.mean) n)
      (jointMean (n := n) (pyPrior py) (fun st _ => normalAt st h0.mean) (nwLaw h0)
        (mixDens ce cn (fun st _ => multiNormLpdf st h0.mean) m)) :=
    hO.density hK hKn θ0 (measurable_mixDens hml) hfin fun σ x s hs => by
      rw [← densityAt_forget, hce, hcn, hm]
      exact densityAt_py hs.seen (by omega) hpy (fun st _ => multiNormLpdf st h0.mean)
        (fun h _ => nnwMargLpdf (nwGetProto h) h0.mean)
  have hpd : predictiveDens (pyPrior py) (fun st _ => stanMultiNormalPrecLpdf h0.mean st.mean st.prec)
      (nwLaw h0) n = jointMean (n := n) (pyPrior py) (fun st _ => normalAt st h0.mean) (nwLaw h0)
        (mixDens ce cn (fun st _ => normalAt st h0.mean) m) := by
    rw [hce, hcn, hm]
    exact (py_predictive hpy hn C.meas (pred_int (C.row h0 n hv))).symm
  have hT := (hO.target fun _ => θ0).weight_pos
  have hless : jointMean (n := n) (pyPrior py) (fun st _ => normalAt st h0.mean) (nwLaw h0)
        (mixDens ce cn (fun st _ => multiNormLpdf st h0.mean) m) <
      jointMean (n := n) (pyPrior py) (fun st _ => normalAt st h0.mean) (nwLaw h0)
        (mixDens ce cn (fun st _ => normalAt st h0.mean) m) := by
    have l1 := hO.limit (measurable_mixDens hml) hfin
    have l2 := hO.limit (Φ := mixDens ce cn (fun st _ => normalAt st h0.mean) m)
      (measurable_mixDens C.meas) hnorm
    have l1' := l1.symm
    have l2' := l2.symm
    have hZ : 0 < ∑ ρ : Setoid (Fin n), weight (mixPosterior (pyPrior py)
        (fun st _ => normalAt st h0.mean) (nwLaw h0)) ρ :=
      Finset.sum_pos (fun σ _ => hT σ) Finset.univ_nonempty
    refine l1'.trans_lt (lt_of_lt_of_eq ?_ l2)
    refine Finset.sum_lt_sum_of_nonempty Finset.univ_nonempty fun σ _ => ?_
    exact mul_lt_mul_of_pos_left ((ENNReal.toReal_lt_toReal (hfin σ) (hnorm σ)).mpr (hsm σ))
      (div_pos (hT σ) hZ)
  refine ⟨_, hpd ▸ hless, hdens, fun h => ?_⟩
  have := hdens.unique h
  rw [hpd] at this
  exact hless.ne this

/-- Three rows at the prior mean. -/
example (draw : NW 2 → ℕ → MultiLS 2) (θ0 : MultiLS 2) :
    haveI : Nonempty (MultiLS 2) := ⟨θ0⟩
    ¬ Neal3Density (nnwEnv (fun _ => exNW.mean) draw fun h _ _ => h)
      (pyScores (fun h _ => nnwMargLpdf (nwGetProto h) exNW.mean) ⟨1, 1 / 2⟩) nwLaw 2 3 exNW θ0
      (densityAt pyOps ⟨1, 1 / 2⟩ (fun st _ => multiNormLpdf st exNW.mean)
        (fun h _ => nnwMargLpdf (nwGetProto h) exNW.mean) 3)
      (predictiveDens (pyPrior ⟨1, 1 / 2⟩)
        (fun st _ => stanMultiNormalPrecLpdf exNW.mean st.mean st.prec) (nwLaw exNW) 3) := by
  obtain ⟨t, -, -, h⟩ := c119_nnw_violated draw (a := 1) (b := 1 / 2) (py := ⟨1, 1 / 2⟩)
    (by norm_num [pyInit]) 2 3 (by omega) (by omega) (by omega) _ exNW exNW_init θ0
  exact h

/-! ### Dirichlet process -/

/-- **C119, Dirichlet process, what holds**: limits are posterior means with total mass one; for density
estimates, of the density with the configured total mass. -/
theorem c119_dirichlet_partial (E : Env G H Θ) (hfix : ∀ h l r, E.hyperUpdate h l r = h)
    (hk : E.kind ≠ .other) (like : Θ → ℕ → ℝ) (pred : H → ℕ → ℝ) (ν : H → Measure Θ) (V : H → Prop)
    (C : Conjugate E like pred ν V) {prior : DPPrior} {dp : DPState} (hdp : DPRun prior dp) (K n : ℕ)
    (hn : 2 ≤ n) (hK : 0 < K) (hKn : K ≤ n) (h0 : H) (hv : V h0) (θ0 : Θ) :
    Neal3Converges E like (dpScores pred dp) ν K n h0 θ0 (dpPrior 1) ∧
    (∀ (φ : Setoid (Fin n) → (Fin n → Θ) → ℝ≥0∞) (M : ℝ≥0∞), (∀ σ, Measurable (φ σ)) → M ≠ ∞ →
      (∀ σ x, φ σ x ≤ M) →
      Neal3Average E (dpScores pred dp) ν K n h0 θ0 (observe θ0 φ)
        (jointMean (dpPrior 1) like (ν h0) φ)) ∧
    ∃ t : ℝ, Neal3Density E (dpScores pred dp) ν K n h0 θ0
        (densityAt dpOps (dpSetState dp.totalmass) like pred n) t ∧
      Neal3Average E (dpScores pred dp) ν K n h0 θ0
        (densityAt dpOps (dpSetState dp.totalmass) like pred n) t ∧
      t = jointMean (n := n) (dpPrior 1) like (ν h0)
        (mixDens (fun c => (c : ℝ) / (n + dp.totalmass)) (fun _ => dp.totalmass / (n + dp.totalmass))
          like (ENNReal.ofReal (Real.exp (pred h0 n)))) ∧
      (dp.totalmass = 1 → t = predictiveDens (dpPrior dp.totalmass) like (ν h0) n) := by
  have hp := (C.row h0 n hv).prior
  have hO := dp_neal3Ok E hfix hk C hdp hn hv
  have h := hO.mixture hK hKn θ0 C hv
    (ce := fun c => (c : ℝ) / (n + dp.totalmass)) (cn := fun _ => dp.totalmass / (n + dp.totalmass))
    (dens := densityAt dpOps (dpSetState dp.totalmass) like pred n)
    (m := ENNReal.ofReal (Real.exp (pred h0 n))) ofReal_ne_top fun σ x s hs => by
      rw [← densityAt_forget]
      exact densityAt_dp hs.seen (by omega) hdp.pos.1 like pred
  refine ⟨hO.joint hK hKn θ0, fun φ M hφ hM hle =>
    hO.average hK hKn θ0 (square_bounded (C.clusters hv) hφ hM hle) (observe_held θ0 φ),
    _, h.1, h.2, rfl, fun e => ?_⟩
  rw [e]
  exact dp_predictive one_pos hn C.meas (pred_int (C.row h0 n hv))

/-- Total mass two, three rows. -/
example (y : ℕ → ℝ) (draw : NIG → ℕ → UniLS) (θ0 : UniLS) :
    haveI : Nonempty UniLS := ⟨θ0⟩
    Neal3Converges (nnigEnv y draw fun h _ _ => h) (fun st i => uniNormLpdf st (y i))
      (dpScores (fun h i => nnigMargLpdf h (y i)) ⟨2, 0⟩) nigLaw 1 3 ⟨0, 1, 2, 1⟩ θ0 (dpPrior 1) := by
  haveI : Nonempty UniLS := ⟨θ0⟩
  exact (c119_dirichlet_partial _ (fun _ _ _ => rfl) (by simp [nnigEnv]) _ _ nigLaw
    NigValid (nnig_conjugate y draw fun h _ _ => h) (prior := .fixed 2) (dp := ⟨2, 0⟩)
    (.init (by norm_num [dpInit, dpFresh])) 1 3
    (by omega) (by omega) (by omega) ⟨0, 1, 2, 1⟩ (by norm_num [NigValid]) θ0).1

/-- **C119, Dirichlet process, violation.** If the configured total mass is not one, averages are not
consistent: for some set of partitions the probability that the fraction of stored partitions in the
set comes within `γ` of the posterior probability of the set goes to zero. -/
theorem c119_dirichlet_violated (E : Env G H Θ) (hfix : ∀ h l r, E.hyperUpdate h l r = h)
    (hk : E.kind ≠ .other) (like : Θ → ℕ → ℝ) (pred : H → ℕ → ℝ) (ν : H → Measure Θ) (V : H → Prop)
    (C : Conjugate E like pred ν V) {prior : DPPrior} {dp : DPState} (hdp : DPRun prior dp)
    (hmass : dp.totalmass ≠ 1) (K n : ℕ) (hn : 2 ≤ n) (hK : 0 < K) (hKn : K ≤ n) (h0 : H) (hv : V h0)
    (θ0 : Θ) :
    ∃ (A : Finset (Setoid (Fin n))) (γ c : ℝ), 0 < γ ∧
      ∀ (zi : InitNoise) (u : Hier G H Θ), u.saved = false →
        ∃ s0, initAlloc E true K n h0 θ0 zi [u] = .ok s0 ∧ ∀ maxiter burnin : ℕ, burnin < maxiter →
          averageProb (neal3IterMean E (dpScores pred dp) ν n) (Measure.dirac ())
            (fun s _ => observe θ0 (fun σ _ => open Classical in if σ ∈ A then 1 else 0) s)
            maxiter burnin {t | |t - jointMean (dpPrior dp.totalmass) like (ν h0)
              (fun σ _ => open Classical in if σ ∈ A then 1 else 0)| ≤ γ} s0 ≤
            ENNReal.ofReal (c / (maxiter - burnin)) := by
  classical
  have hα := hdp.pos.1
  obtain ⟨α, hαd⟩ : ∃ α, α = dp.totalmass := ⟨_, rfl⟩
  rw [← hαd] at hα hmass ⊢
  obtain ⟨l, hld⟩ : ∃ l : Finset ℕ → ℝ, l = fun D => Real.log (intLik like (ν h0) D) := ⟨_, rfl⟩
  have e : ∀ β, mixPosterior (dpPrior β) like (ν h0) = dpPosterior β l := fun β => by
    rw [hld]
    exact funext fun al => (posterior_mix C hv _ _ al).symm
  obtain ⟨A, hA⟩ := dp_posterior_ne l hn hα hmass
  have e1 := jointMean_part C hv (prior := dpPrior 1) (dpPrior_pos one_pos hn) A
  have eα := jointMean_part C hv (prior := dpPrior α) (dpPrior_pos hα hn) A
  rw [e] at e1 eα
  rw [← e1, ← eα] at hA
  obtain ⟨φ, hφd⟩ : ∃ φ : Setoid (Fin n) → (Fin n → Θ) → ℝ≥0∞,
    φ = fun σ _ => if σ ∈ A then 1 else 0 := ⟨_, rfl⟩
  rw [← hφd] at hA
  have hs := square_bounded (M := 1) (C.clusters hv) (φ := φ) (fun σ => by rw [hφd]; exact measurable_const)
    ENNReal.one_ne_top (fun σ x => by rw [hφd]; dsimp only; split <;> simp)
  obtain ⟨c1, hc1, h1⟩ := (dp_neal3Ok E hfix hk C hdp hn hv).average_away hK hKn θ0 hs
    (observe_held θ0 φ) (L := jointMean (dpPrior 1) like (ν h0) φ) rfl
  obtain ⟨γ, hγ⟩ : ∃ γ, γ = |jointMean (dpPrior 1) like (ν h0) φ -
    jointMean (dpPrior α) like (ν h0) φ| / 2 := ⟨_, rfl⟩
  have hγ0 : 0 < γ := by
    rw [hγ]
    exact half_pos (abs_pos.mpr (sub_ne_zero.mpr hA))
  obtain ⟨D, hD⟩ : ∃ D : Set ℝ, D = {t | |t - jointMean (dpPrior α) like (ν h0) φ| ≤ γ} := ⟨_, rfl⟩
  have hDm : MeasurableSet D := by
    rw [hD]
    exact measurableSet_le (measurable_id.sub_const _).abs measurable_const
  have hDγ : ∀ t ∈ D, γ ≤ |t - jointMean (dpPrior 1) like (ν h0) φ| := by
    intro t ht
    rw [hD] at ht
    have h7 := abs_sub_le (jointMean (dpPrior 1) like (ν h0) φ) t (jointMean (dpPrior α) like (ν h0) φ)
    rw [abs_sub_comm _ t] at h7
    have : |t - jointMean (dpPrior α) like (ν h0) φ| ≤ γ := ht
    linarith
  refine ⟨A, γ, c1 / γ ^ 2, hγ0, fun zi u hu => ?_⟩
  obtain ⟨s0, i1, h1⟩ := h1 zi u hu
  refine ⟨s0, i1, fun maxiter burnin hlt => ?_⟩
  have g1 := h1 maxiter burnin hlt γ hγ0 D hDm hDγ
  rw [mul_comm, ← div_div] at g1
  rw [hD, hφd] at g1
  convert g1

/-- Total mass two, three rows. -/
example (y : ℕ → ℝ) (draw : NIG → ℕ → UniLS) (θ0 : UniLS) (zi : InitNoise)
    (u : Hier (ℝ × ℝ) NIG UniLS) (hu : u.saved = false) :
    haveI : Nonempty UniLS := ⟨θ0⟩
    ∃ (A : Finset (Setoid (Fin 3))) (γ c : ℝ), 0 < γ ∧ ∃ s0,
      initAlloc (nnigEnv y draw fun h _ _ => h) true 1 3 ⟨0, 1, 2, 1⟩ θ0 zi [u] = .ok s0 ∧
      averageProb (neal3IterMean (nnigEnv y draw fun h _ _ => h)
        (dpScores (fun h i => nnigMargLpdf h (y i)) ⟨2, 0⟩) nigLaw 3) (Measure.dirac ())
        (fun s _ => observe θ0 (fun (σ : Setoid (Fin 3)) _ => open Classical in
          if σ ∈ A then 1 else 0) s) 1100 1000
        {t | |t - jointMean (dpPrior 2) (fun st i => uniNormLpdf st (y i)) (nigLaw ⟨0, 1, 2, 1⟩)
          (fun (σ : Setoid (Fin 3)) _ => open Classical in if σ ∈ A then 1 else 0)| ≤ γ} s0 ≤
        ENNReal.ofReal (c / 100) := by
  haveI : Nonempty UniLS := ⟨θ0⟩
  obtain ⟨A, γ, c, h0, h⟩ := c119_dirichlet_violated _ (fun _ _ _ => rfl) (by simp [nnigEnv]) _ _ nigLaw
    NigValid (nnig_conjugate y draw fun h _ _ => h) (prior := .fixed 2) (dp := ⟨2, 0⟩)
    (.init (by norm_num [dpInit, dpFresh])) (by norm_num) 1 3
    (by omega) (by omega) (by omega) ⟨0, 1, 2, 1⟩ (by norm_num [NigValid]) θ0
  obtain ⟨s0, e, h⟩ := h zi u hu
  refine ⟨A, γ, c, h0, s0, e, (h 1100 1000 (by omega)).trans (le_of_eq ?_)⟩
  norm_num

/-- **C119, Dirichlet process, violation for density estimates of the normal hierarchy.** Any total mass
but one, two rows and the grid point at the prior mean. -/
theorem c119_density_dirichlet_violated (draw : NIG → ℕ → UniLS) {prior : DPPrior} {dp : DPState}
    (hdp : DPRun prior dp) (hmass : dp.totalmass ≠ 1) (K : ℕ) (hK : 0 < K) (hKn : K ≤ 2) (θ0 : UniLS) :
    haveI : Nonempty UniLS := ⟨θ0⟩
    ¬ Neal3Density (nnigEnv (fun _ => 0) draw fun h _ _ => h)
        (dpScores (fun h _ => nnigMargLpdf h 0) dp) nigLaw K 2 ⟨0, 1, 1, 1⟩ θ0
        (densityAt dpOps (dpSetState dp.totalmass) (fun st _ => uniNormLpdf st 0)
          (fun h _ => nnigMargLpdf h 0) 2)
        (predictiveDens (dpPrior dp.totalmass) (fun st _ => uniNormLpdf st 0)
          (nigLaw ⟨0, 1, 1, 1⟩) 2) := by
  haveI : Nonempty UniLS := ⟨θ0⟩
  have hv : NigValid ⟨0, 1, 1, 1⟩ := by norm_num [NigValid]
  have C := nnig_conjugate (fun _ => 0) draw fun h _ _ => h
  obtain ⟨-, -, t, h1, -, ht, -⟩ := c119_dirichlet_partial _ (fun _ _ _ => rfl) (by simp [nnigEnv]) _ _
    nigLaw NigValid C hdp K 2 le_rfl hK hKn ⟨0, 1, 1, 1⟩ hv θ0
  intro h
  exact dp_limit_ne C hdp.pos.1 hmass hv (nnig_pred_ne draw) (ht.symm.trans (h1.unique h))

example (draw : NIG → ℕ → UniLS) (θ0 : UniLS) :
    haveI : Nonempty UniLS := ⟨θ0⟩
    ¬ Neal3Density (nnigEnv (fun _ => 0) draw fun h _ _ => h)
        (dpScores (fun h _ => nnigMargLpdf h 0) ⟨2, 0⟩) nigLaw 1 2 ⟨0, 1, 1, 1⟩ θ0
        (densityAt dpOps (dpSetState 2) (fun st _ => uniNormLpdf st 0)
          (fun h _ => nnigMargLpdf h 0) 2)
        (predictiveDens (dpPrior 2) (fun st _ => uniNormLpdf st 0) (nigLaw ⟨0, 1, 1, 1⟩) 2) :=
  c119_density_dirichlet_violated draw (prior := .fixed 2) (dp := ⟨2, 0⟩)
    (.init (by norm_num [dpInit, dpFresh])) (by norm_num) 1 (by omega) (by omega) θ0

end Bayesmix.Chain
