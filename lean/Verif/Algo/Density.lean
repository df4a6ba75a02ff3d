import Verif.Mixing.Model

/-!
# Density estimates from saved states

`MarginalAlgorithm::lpdf_from_state` (`src/algorithms/marginal_algorithm.cc` 22-56) and
`ConditionalAlgorithm::lpdf_from_state` (`src/algorithms/conditional_algorithm.cc` 10-40). The log
densities of the components (`like_lpdf_grid`, `get_like_lpdf`, `prior_pred_lpdf_grid`) are
arbitrary functions of the grid point.
-/

namespace Bayesmix.Density
open Bayesmix.Mixing

noncomputable section

/-- `stan::math::log_sum_exp` of a vector: minus infinity for an empty vector, the maximum if it is
not finite, otherwise shifted by the maximum. -/
def logSumExp (l : List EReal) : EReal :=
  let m := l.foldr max ⊥
  if m = ⊥ ∨ m = ⊤ then m else m + stdLog ((l.map fun x => stdExp (x - m)).sum)

/-- The queries of a marginal mixing, `get_mass_existing_cluster` and `get_mass_new_cluster` with
`log = true`, `propto = false`: number of data, number of clusters, cardinality. The mixing may
change its mutable members. -/
structure MixOps (σ : Type) where
  existing : σ → ℕ → ℕ → ℕ → Except Fault (EReal × σ)
  new : σ → ℕ → ℕ → Except Fault (EReal × σ)

/-- Dirichlet process. -/
def dpOps : MixOps DPState :=
  ⟨fun s n _ c => .ok (dpLogMassExisting s n false c, s), fun s n _ => .ok (dpLogMassNew s n false, s)⟩

/-- Pitman-Yor process. -/
def pyOps : MixOps PYState :=
  ⟨fun s n _ c => .ok (pyLogMassExisting s n false c, s),
    fun s n k => .ok (pyLogMassNew s n k false, s)⟩

/-- Mixture of finite mixtures. -/
def mfmOps (coef : ℕ → ℕ → ℝ) : MixOps MFMState :=
  ⟨fun s n k c => mfmLogMassExisting coef s n k false c, fun s n k => mfmLogMassNew coef s n k false⟩

variable {σ X : Type}

/-- The masses `mass_ex` of the loop, `marginal_algorithm.cc` 36-41. -/
def existingMasses (M : MixOps σ) (n k : ℕ) : σ → List ℕ → Except Fault (List EReal × σ)
  | s, [] => .ok ([], s)
  | s, c :: cs => do
      let a ← M.existing s n k c
      let b ← existingMasses M n k a.2 cs
      .ok (a.1 :: b.1, b.2)

/-- `MarginalAlgorithm::lpdf_from_state`, `marginal_algorithm.cc` 22-56. `s` is the mixing after
`set_state_from_proto`; `nObjs` the number of unique values that the algorithm object holds (line
33); `n` the number of saved allocations; `cards` the cardinalities of the saved clusters; `like j`
the log density of saved cluster `j`; `marg` is `lpdf_marginal_component`. -/
def marginalLpdf (M : MixOps σ) (s : σ) (nObjs n : ℕ) (cards : List ℕ) (like : ℕ → X → EReal)
    (marg : X → EReal) (grid : List X) : Except Fault (List EReal × σ) :=
  if nObjs = 0 then .error .ub
  else do
    let a ← existingMasses M n cards.length s cards
    let b ← M.new a.2 n cards.length
    .ok (grid.map fun x => logSumExp
      ((a.1.zipIdx.map fun p => like p.2 x + p.1) ++ [marg x + b.1]), b.2)

/-- `Neal8Algorithm::lpdf_marginal_component`, `neal8_algorithm.cc` 92-106: `draws j` is the log
density under the `j`-th value drawn from the prior. -/
def neal8Marginal (nAux : ℕ) (draws : ℕ → X → EReal) (x : X) : EReal :=
  logSumExp ((List.range nAux).map fun j => draws j x) - stdLog nAux

/-- `ConditionalAlgorithm::lpdf_from_state`, `conditional_algorithm.cc` 10-40. `lw` are the log
weights that the mixing returns after `set_state_from_proto`, `nClust` the number of saved
clusters. -/
def conditionalLpdf (lw : List EReal) (nObjs nClust : ℕ) (like : ℕ → X → EReal)
    (grid : List X) : Except Fault (List EReal) :=
  if nObjs = 0 then .error .ub
  else grid.mapM fun x => do
    let l ← (List.range nClust).mapM fun j => do
      let w ← vget lw j
      .ok (w + like j x)
    .ok (logSumExp l)

end

end Bayesmix.Density
