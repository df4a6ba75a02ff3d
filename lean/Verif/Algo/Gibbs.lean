import Verif.Algo.SplitMerge

/-!
# The categorical probabilities of the collapsed Gibbs update

`Neal2Algorithm::sample_allocations` (`src/algorithms/neal2_algorithm.cc` 24-62) draws the label of
row `i` with `softmax(get_cluster_prior_mass(i) + get_cluster_lpdf(i))` (lines 40-45). `Scores`
(`Verif/Algo/SplitMerge.lean`) holds the masses of the mixing and the marginal densities.
-/

namespace Bayesmix.Gibbs
open Bayesmix.SplitMerge

variable {G H Θ : Type}

/-- `stan::math::softmax`. -/
noncomputable def softmax (l : List ℝ) : List ℝ :=
  l.map fun x => Real.exp x / (l.map Real.exp).sum

/-- `Neal2Algorithm::get_cluster_prior_mass`, `neal2_algorithm.cc` 76-92, inherited by Neal3. -/
def clusterPriorMass (S : Scores H) (n : ℕ) (s : Alg G H Θ) : List ℝ :=
  s.clus.map (fun o => S.exist (n - 1) s.clus.length o.card) ++ [S.fresh (n - 1) s.clus.length]

/-- `Neal3Algorithm::get_cluster_lpdf`, `neal3_algorithm.cc` 18-33. -/
noncomputable def neal3ClusterLpdf (E : Env G H Θ) (S : Scores H) (s : Alg G H Θ) (i : ℕ) :
    Except Fault (List ℝ) := do
  let l ← s.clus.mapM (fun o => condPred E S s.hyp o i)
  let _ ← vget s.clus 0
  .ok (l ++ [S.pred s.hyp i])

/-- The probabilities handed to `categorical_rng`, `neal2_algorithm.cc` 41-45, in Neal3; `s` is the
state after row `i` was taken out of its cluster. -/
noncomputable def neal3Probas (E : Env G H Θ) (S : Scores H) (n : ℕ) (s : Alg G H Θ) (i : ℕ) :
    Except Fault (List ℝ) := do
  let l ← neal3ClusterLpdf E S s i
  .ok (softmax (List.zipWith (· + ·) (clusterPriorMass S n s) l))

end Bayesmix.Gibbs
