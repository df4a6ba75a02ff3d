import Verif.Hier.Serial
import Verif.Hier.Checks
import Verif.Hier.FA

/-!
# Hyperparameters as messages

`get_hypers_proto` and `set_hypers_from_proto` of the prior models, with the sizes of vectors and
matrices as run-time values. The message is `AlgorithmState::HierarchyHypers`,
`src/proto/algorithm_state.proto` 38-49. Also `set_fa_hyperparams_from_data`.
-/

namespace Bayesmix.Hierarchies

open Utils Matrix

/-- `Hyperparams::NW` with run-time sizes, `src/hierarchies/priors/hyperparams.h` 16-20. -/
structure NWDyn where
  mean : List ℝ
  varScaling : ℝ
  degFree : ℝ
  scale : Mat ℝ
  scaleInv : Mat ℝ
  scaleChol : Mat ℝ

/-- `Hyperparams::MNIG` with run-time sizes, `src/hierarchies/priors/hyperparams.h` 22-26. -/
structure MNIGDyn where
  mean : List ℝ
  varScaling : Mat ℝ
  varScalingInv : Mat ℝ
  shape : ℝ
  scale : ℝ

/-- `Hyperparams::FA` with run-time sizes, `src/hierarchies/priors/hyperparams.h` 28-32. -/
structure FAHypDyn where
  mutilde : List ℝ
  beta : List ℝ
  phi : ℝ
  alpha0 : ℝ
  q : ℕ

/-- `HierarchyHypers`, the `oneof val` (`src/proto/algorithm_state.proto` 40-47; messages in
`src/proto/distribution.proto` 53-97 and `src/proto/hierarchy_prior.proto` 99-105). -/
inductive HypMsg where
  | unset
  | nnig (mean varScaling shape scale : ℝ)
  | nnxig (mean var shape scale : ℝ)
  | nnw (mean : VecMsg ℝ) (varScaling degFree : ℝ) (scale scaleChol : MatMsg ℝ)
  | linReg (mean : VecMsg ℝ) (varScaling : MatMsg ℝ) (shape scale : ℝ)
  | fa (mutilde beta : VecMsg ℝ) (phi alpha0 : ℝ) (q : ℕ)

/-- `NIGPriorModel::get_hypers_proto`, `src/hierarchies/priors/nig_prior_model.cc` 174-185. -/
def nigToProto (h : NIG) : HypMsg := .nnig h.mean h.varScaling h.shape h.scale

/-- `NIGPriorModel::set_hypers_from_proto`, `nig_prior_model.cc` 165-172; fields of a message of another
case are zero. -/
def nigFromProto : HypMsg → NIG
  | .nnig a b c d => ⟨a, b, c, d⟩
  | _ => ⟨0, 0, 0, 0⟩

/-- `NxIGPriorModel::get_hypers_proto`, `src/hierarchies/priors/nxig_prior_model.cc` 64-75. -/
def nxigToProto (h : NxIG) : HypMsg := .nnxig h.mean h.var h.shape h.scale

/-- `NxIGPriorModel::set_hypers_from_proto`, `nxig_prior_model.cc` 55-62. -/
def nxigFromProto : HypMsg → NxIG
  | .nnxig a b c d => ⟨a, b, c, d⟩
  | _ => ⟨0, 0, 0, 0⟩

/-- `NWPriorModel::get_hypers_proto`, `src/hierarchies/priors/nw_prior_model.cc` 233-253: the
inverse is not written. -/
def nwDynToProto (h : NWDyn) : HypMsg :=
  .nnw (vecToProto h.mean) h.varScaling h.degFree (matToProto h.scale) (matToProto h.scaleChol)

/-- `NWPriorModel::set_hypers_from_proto`, `nw_prior_model.cc` 222-231. `inv` is
`stan::math::inverse_spd`, which throws for other matrices. -/
def nwDynFromProto (inv : Mat ℝ → Except Fault (Mat ℝ)) : HypMsg → Except Fault NWDyn
  | .nnw mean vs df scale chol => do
    let mean ← vecToEigen mean
    let scale ← matToEigen scale
    let scaleInv ← inv scale
    let chol ← matToEigen chol
    .ok ⟨mean, vs, df, scale, scaleInv, chol⟩
  | _ => do
    let scaleInv ← inv ⟨0, 0, []⟩
    .ok ⟨[], 0, 0, ⟨0, 0, []⟩, scaleInv, ⟨0, 0, []⟩⟩

/-- `MNIGPriorModel::get_hypers_proto`, `src/hierarchies/priors/mnig_prior_model.cc` 46-58. -/
def mnigToProto (h : MNIGDyn) : HypMsg :=
  .linReg (vecToProto h.mean) (matToProto h.varScaling) h.shape h.scale

/-- `MNIGPriorModel::set_hypers_from_proto`, `mnig_prior_model.cc` 37-44, on an object that had the
hyperparameters `old`: the inverse is left alone. -/
def mnigFromProto (old : MNIGDyn) : HypMsg → Except Fault MNIGDyn
  | .linReg mean vs shape scale => do
    let mean ← vecToEigen mean
    let vs ← matToEigen vs
    .ok { old with mean := mean, varScaling := vs, shape := shape, scale := scale }
  | _ => .ok { old with mean := [], varScaling := ⟨0, 0, []⟩, shape := 0, scale := 0 }

/-- The members of `FAPriorModel`, `src/hierarchies/priors/fa_prior_model.h` 57 and
`base_prior_model.h` 125. -/
structure FAPriorObj where
  dim : ℕ
  hyp : FAHypDyn

/-- A new `FAPriorModel`: all members are zero or empty. -/
def faPriorFresh : FAPriorObj := ⟨0, ⟨[], [], 0, 0, 0⟩⟩

/-- `FAPriorModel::get_hypers_proto`, `src/hierarchies/priors/fa_prior_model.cc` 76-88. -/
def faHypToProto (o : FAPriorObj) : HypMsg :=
  .fa (vecToProto o.hyp.mutilde) (vecToProto o.hyp.beta) o.hyp.phi o.hyp.alpha0 o.hyp.q

/-- `FAPriorModel::set_hypers_from_proto`, `fa_prior_model.cc` 66-74: `dim` is left alone. -/
def faHypFromProto (old : FAPriorObj) : HypMsg → Except Fault FAPriorObj
  | .fa mu b phi a0 q => do
    let mu ← vecToEigen mu
    let b ← vecToEigen b
    .ok { old with hyp := ⟨mu, b, phi, a0, q⟩ }
  | _ => .ok { old with hyp := ⟨[], [], 0, 0, 0⟩ }

open Classical in
/-- `FAPriorModel::initialize` with fixed values, `fa_prior_model.cc` 90-122 and
`base_prior_model.h` 182-187. -/
noncomputable def faPriorInit (mutilde beta : List ℝ) (phi alpha0 : ℝ) (q : ℕ) :
    Except Fault FAPriorObj :=
  if mutilde.length ≠ beta.length then .error .throw
  else if ∃ b ∈ beta, b ≤ 0 then .error .throw
  else if alpha0 ≤ 0 then .error .throw
  else if phi ≤ 0 then .error .throw
  else if q ≤ 0 then .error .throw
  else .ok ⟨mutilde.length, ⟨mutilde, beta, phi, alpha0, q⟩⟩

/-- A draw of `FAPriorModel::sample`. -/
structure FADrawDyn where
  mu : List ℝ
  psi : List ℝ
  /-- the rows of the loadings -/
  lambda : List (List ℝ)

/-- `FAPriorModel::sample`, `fa_prior_model.cc` 30-54: `normal` and `ig` are the generators, with the
number of the call. The loops go up to `dim`. -/
noncomputable def faDynSample (o : FAPriorObj) (normal ig : ℕ → ℝ → ℝ → ℝ) : Except Fault FADrawDyn := do
  let mu ← (List.range o.dim).foldlM (fun (mu : List ℝ) j => do
    let m ← vget o.hyp.mutilde j
    vset mu j (normal (j * (o.hyp.q + 1)) m (Real.sqrt o.hyp.phi))) o.hyp.mutilde
  let psi ← (List.range o.dim).foldlM (fun (psi : List ℝ) j => do
    let b ← vget o.hyp.beta j
    vset psi j (ig j o.hyp.alpha0 b)) (o.hyp.beta.map fun b => b / (o.hyp.alpha0 + 1))
  .ok ⟨mu, psi, (List.range o.dim).map fun j =>
    (List.range o.hyp.q).map fun i => normal (j * (o.hyp.q + 1) + 1 + i) 0 1⟩

/-- The parts of an `FAHierarchy` that `set_fa_hyperparams_from_data` touches: the data set by
`set_dataset` (`n` rows of `p` numbers), `dim` of the likelihood, the prior model and the fixed values of
the prior message. -/
structure FAHier (n p : ℕ) where
  data : Option (Fin n → Fin p → ℝ)
  likeDim : ℕ
  prior : FAPriorObj
  msg : FAHypDyn

/-- `BaseHierarchy::initialize` (`base_hierarchy.h` 322-330) with `FAHierarchy::initialize_state`
(`src/hierarchies/fa_hierarchy.h` 48-62): the hyperparameters are those of the message. -/
noncomputable def FAHier.init {n p : ℕ} (h : FAHier n p) : Except Fault (FAHier n p) := do
  let o ← faPriorInit h.msg.mutilde h.msg.beta h.msg.phi h.msg.alpha0 h.msg.q
  .ok { h with prior := o, likeDim := o.dim }

/-- `dataset_ptr->colwise().mean()`. -/
noncomputable def colMeans {n p : ℕ} (y : Fin n → Fin p → ℝ) : Fin p → ℝ :=
  fun j => (∑ i, y i j) / n

/-- The covariance matrix of the data, `fa_hierarchy.h` 85-88. -/
noncomputable def covOf {n p : ℕ} (y : Fin n → Fin p → ℝ) : Matrix (Fin p) (Fin p) ℝ :=
  let c : Matrix (Fin n) (Fin p) ℝ := Matrix.of fun i j => y i j - colMeans y j
  (1 / ((n : ℝ) - 1)) • (cᵀ * c)

/-- `set_fa_hyperparams_from_data`, `src/hierarchies/fa_hierarchy.h` 68-109. The data pointer is
only followed if it is needed; a null pointer is undefined behaviour; solving with the
identity of another size is an assertion of Eigen. (The solution of a singular system is modelled as
zero.) -/
noncomputable def faFromData {n p : ℕ} (h : FAHier n p) : Except Fault (FAHier n p) := do
  let mutilde ← if h.likeDim = 0 then
      match h.data with
      | none => .error .ub
      | some y => .ok (List.ofFn (colMeans y))
    else .ok h.prior.hyp.mutilde
  let dim := if h.likeDim = 0 then mutilde.length else h.likeDim
  let beta ← if h.prior.hyp.beta = [] then
      match h.data with
      | none => .error .ub
      | some y =>
        if dim ≠ p then .error .assertFail
        else if h.prior.hyp.alpha0 = 1 then .error .throw
        else .ok (List.ofFn fun j => (h.prior.hyp.alpha0 - 1) * ((covOf y)⁻¹ j j)⁻¹)
    else .ok h.prior.hyp.beta
  let o ← faHypFromProto h.prior (.fa (vecToProto mutilde) (vecToProto beta) h.prior.hyp.phi
    h.prior.hyp.alpha0 h.prior.hyp.q)
  .ok { h with prior := o }

end Bayesmix.Hierarchies
