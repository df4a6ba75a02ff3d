import Verif.Fault
import Verif.Hier.Conj

/-!
# Metropolis-Hastings updaters

Vectors are unconstrained states of any size `n`. The likelihood of the cluster's data at an
unconstrained state (`cluster_lpdf_from_unconstrained`), the prior (`lpdf_from_unconstrained`,
which may throw) and the gradient of their sum are arbitrary functions. Standard normal and uniform draws are
inputs. The accumulator of `proposal_lpdf` is not initialised: its first value is an input.
-/

namespace Bayesmix.Hierarchies

/-- `stan::math::normal_rng(mu, sigma)`, called for each of `n` entries: a scale that is not
positive is rejected. `z` are the standard normal draws. -/
noncomputable def normalRngs {n : ℕ} (sigma : ℝ) (z : Fin n → ℝ) : Except Fault (Fin n → ℝ) :=
  if n = 0 ∨ 0 < sigma then .ok (fun i => sigma * z i) else .error .throw

/-- The loop adding `normal_lpdf(prop(i), mean(i), sigma)` to the accumulator `garbage`: a scale
that is not positive is rejected. -/
noncomputable def normalLpdfs {n : ℕ} (garbage sigma : ℝ) (prop mean : Fin n → ℝ) :
    Except Fault ℝ :=
  if n = 0 ∨ 0 < sigma then .ok (garbage + ∑ i, normalLpdf (prop i) (mean i) sigma)
  else .error .throw

/-- A proposal: `sample_proposal(curr)` with standard normal draws, and
`proposal_lpdf(prop, curr)` with the first value of its accumulator. -/
structure Proposal (n : ℕ) where
  sample : (Fin n → ℝ) → (Fin n → ℝ) → Except Fault (Fin n → ℝ)
  lpdf : ℝ → (Fin n → ℝ) → (Fin n → ℝ) → Except Fault ℝ

/-- `RandomWalkUpdater`, `src/hierarchies/updaters/random_walk_updater.h` 40-68. -/
noncomputable def randomWalk (n : ℕ) (step : ℝ) : Proposal n where
  sample curr z := do
    let noise ← normalRngs step z
    .ok (curr + noise)
  lpdf garbage prop curr := normalLpdfs garbage step prop curr

/-- `MalaUpdater`, `src/hierarchies/updaters/mala_updater.h` 43-82. `grad` is the call of
`stan::math::gradient` on `target_lpdf_unconstrained`. -/
noncomputable def malaOf (n : ℕ) (grad : (Fin n → ℝ) → Except Fault (Fin n → ℝ)) (step : ℝ) :
    Proposal n where
  sample curr z := do
    let noise ← normalRngs (Real.sqrt (2 * step)) z
    let g ← grad curr
    .ok (curr + step • g + noise)
  lpdf garbage prop curr := do
    let g ← grad curr
    normalLpdfs garbage (Real.sqrt (2 * step)) prop (curr + step • g)

/-- `MalaUpdater` where likelihood and prior never throw. -/
noncomputable def mala (n : ℕ) (grad : (Fin n → ℝ) → Fin n → ℝ) (step : ℝ) : Proposal n :=
  malaOf n (fun x => .ok (grad x)) step

/-- `target_lpdf_unconstrained::operator()`,
`src/hierarchies/updaters/target_lpdf_unconstrained.h` 25-29. -/
noncomputable def targetLpdf {n : ℕ} (like prior : (Fin n → ℝ) → Except Fault ℝ)
    (x : Fin n → ℝ) : Except Fault ℝ := do
  let a ← like x
  let b ← prior x
  .ok (a + b)

/-- `stan::math::gradient(f, x, fx, grad)`: evaluates `f`, so an exception of `f` passes through;
the values `grad` of the derivative are arbitrary. -/
noncomputable def stanGradient {n : ℕ} (f : (Fin n → ℝ) → Except Fault ℝ)
    (grad : (Fin n → ℝ) → Fin n → ℝ) (x : Fin n → ℝ) : Except Fault (Fin n → ℝ) := do
  let _ ← f x
  .ok (grad x)

/-- `NIGPriorModel::lpdf_from_unconstrained`, `src/hierarchies/priors/nig_prior_model.h` 40-53:
the log density at the constrained state plus the log determinant of the map. -/
noncomputable def nigLpdfFromUnconstrained (h : NIG) (x : Fin 2 → ℝ) : Except Fault ℝ :=
  .ok (nigLpdf h ⟨x 0, Real.exp (x 1)⟩ + Real.log (Real.exp (x 1)))

/-- `lpdf_from_unconstrained` on an `NxIGPriorModel`: `src/hierarchies/priors/nxig_prior_model.h`
23-48 has no such template, so `src/hierarchies/priors/prior_model_internal.h` 23-29 throws. -/
noncomputable def nxigLpdfFromUnconstrained (_ : NxIG) (_ : Fin 2 → ℝ) : Except Fault ℝ :=
  .error .throw

/-- `MetropolisUpdater::draw`, `src/hierarchies/updaters/metropolis_updater.h` 31-50: the new
unconstrained state. `u` is the uniform draw, `g1` and `g2` the first values of the accumulators
of the two calls to `proposal_lpdf`. -/
noncomputable def metropolisDraw {n : ℕ} (clusterLpdf : (Fin n → ℝ) → ℝ) (q : Proposal n)
    (z : Fin n → ℝ) (u g1 g2 : ℝ) (curr : Fin n → ℝ) : Except Fault (Fin n → ℝ) := do
  let prop ← q.sample curr z
  let back ← q.lpdf g1 curr prop
  let forth ← q.lpdf g2 prop curr
  let logArate := clusterLpdf prop - clusterLpdf curr + back - forth
  .ok (if Real.log u < logArate then prop else curr)

/-- A `MalaUpdater` in a `LapNIGHierarchy` (`src/hierarchies/lapnig_hierarchy.h` 30-32: Laplace
likelihood and `NxIGPriorModel`) whose cluster is `c`. -/
noncomputable def lapNIGMala {S P : Type} (data : ℤ → ℝ) (c : Cluster S P) (h : NxIG)
    (grad : (Fin 2 → ℝ) → Fin 2 → ℝ) (step : ℝ) : Proposal 2 :=
  malaOf 2 (stanGradient (targetLpdf (fun x => .ok (laplaceClusterLpdf data c (x 0) (x 1)))
    (nxigLpdfFromUnconstrained h)) grad) step

/-- `std::make_shared<MalaUpdater>()`: the defaulted constructor leaves `step_size` zero
(value initialization); the default updater of `LapNIGHierarchy`,
`src/hierarchies/lapnig_hierarchy.h` 43. -/
noncomputable def lapNIGDefaultUpdater {S P : Type} (data : ℤ → ℝ) (c : Cluster S P) (h : NxIG)
    (grad : (Fin 2 → ℝ) → Fin 2 → ℝ) : Proposal 2 :=
  lapNIGMala data c h grad 0

/-- A `MalaUpdater` in an `NNIGHierarchy` (`src/hierarchies/nnig_hierarchy.h` 30-32: normal
likelihood and `NIGPriorModel`) whose cluster is `c`. -/
noncomputable def nnigMala {P : Type} (c : Cluster UniNormStats P) (h : NIG)
    (grad : (Fin 2 → ℝ) → Fin 2 → ℝ) (step : ℝ) : Proposal 2 :=
  malaOf 2 (stanGradient (targetLpdf (fun x => .ok (uniNormClusterLpdf c (x 0) (x 1)))
    (nigLpdfFromUnconstrained h)) grad) step

end Bayesmix.Hierarchies
