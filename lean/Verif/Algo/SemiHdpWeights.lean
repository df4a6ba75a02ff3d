import Verif.Algo.SemiHdp
import Mathlib.Analysis.SpecialFunctions.Log.Basic

/-!
# The weights of the semi-HDP sampler

The parts of `src/algorithms/semihdp_sampler.cc` that compute the probabilities of the draws.
-/

namespace Bayesmix.SemiHdp

variable {g : ℕ} {T D : Type}

/-- A logarithm of a count is stored in a `std::vector<int>`, `semihdp_sampler.cc` 152-161, 175, 213:
the value is truncated; the conversion of minus infinity or not-a-number is undefined behaviour. -/
noncomputable def logInt (n : ℤ) : Except Fault ℤ :=
  if n ≤ 0 then .error .ub else .ok ⌊Real.log n⌋

/-- `log_n_by_table[r]` at the start of `update_table_allocs`, `semihdp_sampler.cc` 152-157. -/
noncomputable def logCounts (v : List ℤ) : Except Fault (List ℤ) := v.mapM logInt

/-- The log-probabilities of the existing tables, `semihdp_sampler.cc` 185-188; `lik` are the values
of `get_like_lpdf` for the observation. -/
noncomputable def tableLogProbas (logN : List ℤ) (lik : List ℝ) : List ℝ :=
  List.zipWith (fun (k : ℤ) x => (k : ℝ) + x) logN lik

/-- An observation leaves a table that is linked to shared value `h`, `semihdp_sampler.cc` 177-179:
`cnt_shared_tables` and `log_m`. The logarithm is that of the index. -/
noncomputable def leaveShared (cnt logM : List ℤ) (h : ℤ) : Except Fault (List ℤ × List ℤ) := do
  let cnt ← decr cnt h
  let l ← logInt h
  let logM ← iset logM h l
  .ok (cnt, logM)

/-- `prior_pred_lpdf_grid` without covariate-dependence, `src/hierarchies/base_hierarchy.h` 159-183:
one value per row of the first argument. -/
def priorPredGrid (marg : D → ℝ) (data : List D) (_covariates : List D) : List ℝ := data.map marg

/-- The log-weight of a new shared value in `update_to_shared`, `semihdp_sampler.cc` 283-288: the
arguments of `prior_pred_lpdf_grid` are swapped. -/
noncomputable def relinkNew (totalmass : ℝ) (marg : D → ℝ) (data : List D) : ℝ :=
  Real.log totalmass + (priorPredGrid marg [] data).sum

/-- The logarithm of a count in `reassign_group`, `semihdp_sampler.cc` 576-580. -/
noncomputable def reassignLogN (n : ℤ) : ℝ := if 0 < n then Real.log n else 1e-20

/-- `cnt` and `tot` of `update_semihdp_weight`, `semihdp_sampler.cc` 358-368: private tables and all
tables of the restaurants in use. -/
def weightCounts (s : State g T) : ℕ × ℕ :=
  (List.finRange g).foldl (fun c r =>
    if ∃ i, s.restAllocs i = r then
      (s.toPrivate r).foldl (fun c p => (if 0 ≤ p then c.1 + 1 else c.1, c.2 + 1)) c
    else c) (0, 0)

/-- The parameters of `beta_rng` in `update_semihdp_weight`, `semihdp_sampler.cc` 369-371. -/
def weightParams (shape1 shape2 : ℝ) (s : State g T) : ℝ × ℝ :=
  (shape1 + (weightCounts s).1, shape2 + (weightCounts s).2 - (weightCounts s).1)

/-- The parameters of `dirichlet_rng` in `update_dirichlet_concentration`, `semihdp_sampler.cc`
374-383. -/
def dirichletParams (conc : ℝ) (s : State g T) : Fin g → ℝ :=
  (List.finRange g).foldl (fun c i => Function.update c (s.restAllocs i) (c (s.restAllocs i) + 1))
    (fun _ => 0) + fun _ => conc

end Bayesmix.SemiHdp
