import Verif.Hier.Conj

/-!
# Initialization of hyperparameters

`initialize_hypers()` of the priors in `src/hierarchies/priors`. Simplifications: the
dimensions of vectors and matrices agree (the code throws otherwise), and the approximate
symmetry test of `check_spd` is exact. `stan::math::inverse_spd` throws unless its argument is
symmetric positive definite.
-/

namespace Bayesmix.Hierarchies

open Real Matrix

/-- `NNIGPrior`, `src/proto/hierarchy_prior.proto`: the three priors on the hyperparameters.
`normalMean`: mean and variance of the prior of the mean, then scaling, shape and scale.
`ngg`: mean and variance for the mean, shape and rate for the scaling, shape and rate for the
scale, and the fixed shape. -/
inductive NIGPrior where
  | fixed (mean varScaling shape scale : ℝ)
  | normalMean (mu00 sig200 varScaling shape scale : ℝ)
  | ngg (mu00 sig200 alpha00 beta00 a00 b00 shape : ℝ)
  | unset

/-- `NIGPriorModel::initialize_hypers`, `src/hierarchies/priors/nig_prior_model.cc` 3-76. -/
noncomputable def nigInit : NIGPrior → Except Fault NIG
  | .fixed mean varScaling shape scale =>
    if varScaling ≤ 0 then .error .throw
    else if shape ≤ 0 then .error .throw
    else if scale ≤ 0 then .error .throw
    else .ok ⟨mean, varScaling, shape, scale⟩
  | .normalMean mu00 _ varScaling shape scale =>
    if varScaling ≤ 0 then .error .throw
    else if shape ≤ 0 then .error .throw
    else if scale ≤ 0 then .error .throw
    else .ok ⟨mu00, varScaling, shape, scale⟩
  | .ngg mu00 sig200 alpha00 beta00 a00 b00 shape =>
    if sig200 ≤ 0 then .error .throw
    else if alpha00 ≤ 0 then .error .throw
    else if beta00 ≤ 0 then .error .throw
    else if a00 ≤ 0 then .error .throw
    else if b00 ≤ 0 then .error .throw
    else if shape ≤ 0 then .error .throw
    else .ok ⟨mu00, alpha00 / beta00, shape, a00 / b00⟩
  | .unset => .error .throw

/-- `NNxIGPrior`: fixed values only. -/
inductive NxIGPrior where
  | fixed (mean var shape scale : ℝ)
  | unset

/-- `NxIGPriorModel::initialize_hypers`, `src/hierarchies/priors/nxig_prior_model.cc` 3-23. -/
noncomputable def nxigInit : NxIGPrior → Except Fault NxIG
  | .fixed mean var shape scale =>
    if var ≤ 0 then .error .throw
    else if shape ≤ 0 then .error .throw
    else if scale ≤ 0 then .error .throw
    else .ok ⟨mean, var, shape, scale⟩
  | .unset => .error .throw

open Classical in
/-- `stan::math::inverse_spd` with its check. -/
noncomputable def inverseSpd {d : ℕ} (m : Matrix (Fin d) (Fin d) ℝ) :
    Except Fault (Matrix (Fin d) (Fin d) ℝ) :=
  if m.PosDef then .ok m⁻¹ else .error .throw

open Classical in
/-- `bayesmix::check_spd`, `src/utils/eigen_utils.cc` 80-88. -/
noncomputable def checkSpd {d : ℕ} (m : Matrix (Fin d) (Fin d) ℝ) : Except Fault Unit :=
  if m.PosDef then .ok () else .error .throw

/-- `LinRegUniPrior`: fixed values only. -/
inductive MNIGPrior (d : ℕ) where
  | fixed (mean : Fin d → ℝ) (varScaling : Matrix (Fin d) (Fin d) ℝ) (shape scale : ℝ)
  | unset

/-- `MNIGPriorModel::initialize_hypers`, `src/hierarchies/priors/mnig_prior_model.cc` 60-85. -/
noncomputable def mnigInit {d : ℕ} : MNIGPrior d → Except Fault (MNIG d)
  | .fixed mean varScaling shape scale => do
    let _inv ← inverseSpd varScaling
    checkSpd varScaling
    if shape ≤ 0 then .error .throw
    else if scale ≤ 0 then .error .throw
    else .ok ⟨mean, varScaling, shape, scale⟩
  | .unset => .error .throw

/-- `NNWPrior`. `normalMean`: mean and covariance of the prior of the mean, then scaling, scale
and degrees of freedom. `ngiw`: mean and covariance for the mean, shape and rate for the
scaling, degrees of freedom and scale for the scale, and the fixed degrees of freedom. -/
inductive NWPrior (d : ℕ) where
  | fixed (mean : Fin d → ℝ) (varScaling : ℝ) (scale : Matrix (Fin d) (Fin d) ℝ) (degFree : ℝ)
  | normalMean (mu00 : Fin d → ℝ) (sigma00 : Matrix (Fin d) (Fin d) ℝ) (lambda0 : ℝ)
      (tau0 : Matrix (Fin d) (Fin d) ℝ) (nu0 : ℝ)
  | ngiw (mu00 : Fin d → ℝ) (sigma00 : Matrix (Fin d) (Fin d) ℝ) (alpha00 beta00 nu00 : ℝ)
      (tau00 : Matrix (Fin d) (Fin d) ℝ) (nu0 : ℝ)
  | unset

/-- The end of `NWPriorModel::initialize_hypers`, `src/hierarchies/priors/nw_prior_model.cc`
110-111. -/
noncomputable def nwFinish {d : ℕ} (mean : Fin d → ℝ) (varScaling degFree : ℝ)
    (scale : Matrix (Fin d) (Fin d) ℝ) : Except Fault (NW d) := do
  let scaleInv ← inverseSpd scale
  .ok ⟨mean, varScaling, degFree, scale, scaleInv, lltU scale⟩

/-- `NWPriorModel::initialize_hypers`, `src/hierarchies/priors/nw_prior_model.cc` 7-112. The
comparison with `dim - 1` is the one for `dim ≥ 1`. -/
noncomputable def nwInit {d : ℕ} : NWPrior d → Except Fault (NW d)
  | .fixed mean varScaling scale degFree =>
    if varScaling ≤ 0 then .error .throw
    else if degFree ≤ d - 1 then .error .throw
    else nwFinish mean varScaling degFree scale
  | .normalMean mu00 sigma00 lambda0 tau0 nu0 => do
    checkSpd sigma00
    if lambda0 ≤ 0 then .error .throw
    else do
      checkSpd tau0
      if nu0 ≤ d - 1 then .error .throw
      else nwFinish mu00 lambda0 nu0 tau0
  | .ngiw mu00 sigma00 alpha00 beta00 nu00 tau00 nu0 => do
    checkSpd sigma00
    if alpha00 ≤ 0 then .error .throw
    else if beta00 ≤ 0 then .error .throw
    else if nu00 ≤ 0 then .error .throw
    else do
      checkSpd tau00
      if nu0 ≤ d - 1 then .error .throw
      else nwFinish mu00 (alpha00 / beta00) nu0 ((1 / (nu00 + d + 1)) • tau00)
  | .unset => .error .throw

/-- `GammaPriorModel::initialize_hypers`, `examples/gamma_hierarchy/gamma_prior_model.h`. -/
noncomputable def gammaInit (shape rateAlpha rateBeta : ℝ) : Except Fault GammaHypers :=
  if shape ≤ 0 then .error .throw
  else if rateAlpha ≤ 0 then .error .throw
  else if rateBeta ≤ 0 then .error .throw
  else .ok ⟨rateAlpha, rateBeta⟩

end Bayesmix.Hierarchies
