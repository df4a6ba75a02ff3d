import Verif.Algo.Gibbs

/-!
# The categorical probabilities of Neal2 and Neal8

As `Verif/Algo/Gibbs.lean`, for the samplers that keep the unique values. `like θ i` is
`get_like_lpdf(data.row(i), hier_covariates.row(i))` of a hierarchy with state `θ`.
-/

namespace Bayesmix.Gibbs
open Bayesmix.SplitMerge

variable {G H Θ : Type}

/-- `Neal2Algorithm::get_cluster_lpdf`, `neal2_algorithm.cc` 94-108. -/
noncomputable def neal2ClusterLpdf (like : Θ → ℕ → ℝ) (S : Scores H) (s : Alg G H Θ) (i : ℕ) :
    Except Fault (List ℝ) := do
  let _ ← vget s.clus 0
  .ok (s.clus.map (fun o => like o.state i) ++ [S.pred s.hyp i])

/-- The probabilities handed to `categorical_rng`, `neal2_algorithm.cc` 41-45, in Neal2; `s` is the
state after row `i` was taken out of its cluster. -/
noncomputable def neal2Probas (like : Θ → ℕ → ℝ) (S : Scores H) (n : ℕ) (s : Alg G H Θ) (i : ℕ) :
    Except Fault (List ℝ) := do
  let l ← neal2ClusterLpdf like S s i
  .ok (softmax (List.zipWith (· + ·) (clusterPriorMass S n s) l))

/-- `Neal8Algorithm::get_cluster_prior_mass`, `neal8_algorithm.cc` 108-125. -/
def neal8PriorMass (S : Scores H) (n nAux : ℕ) (s : Alg G H Θ) : List ℝ :=
  s.clus.map (fun o => S.exist (n - 1) s.clus.length o.card) ++
    List.replicate nAux (S.fresh (n - 1) s.clus.length)

/-- `Neal8Algorithm::get_cluster_lpdf`, `neal8_algorithm.cc` 127-145; `aux` are the states of the
auxiliary blocks, `n_aux` many. -/
noncomputable def neal8ClusterLpdf (like : Θ → ℕ → ℝ) (aux : List Θ) (s : Alg G H Θ) (i : ℕ) :
    List ℝ :=
  s.clus.map (fun o => like o.state i) ++ aux.map (fun θ => like θ i - Real.log aux.length)

/-- The probabilities handed to `categorical_rng`, `neal8_algorithm.cc` 69-73. -/
noncomputable def neal8Probas (like : Θ → ℕ → ℝ) (S : Scores H) (n : ℕ) (aux : List Θ)
    (s : Alg G H Θ) (i : ℕ) : List ℝ :=
  softmax (List.zipWith (· + ·) (neal8PriorMass S n aux.length s) (neal8ClusterLpdf like aux s i))

end Bayesmix.Gibbs
