import Verif.Hier.Like
import Verif.Utils.Model

/-!
# Cluster states as messages

`State::UniLS`, `State::UniLinRegLS`, `State::MultiLS`, `State::FA` and their conversion to and
from `AlgorithmState::ClusterState` (`src/proto/algorithm_state.proto` 18-31,
`src/proto/ls_state.proto`). Here the sizes of vectors and matrices are run-time values, as in
the code, so that the effects of empty matrices are visible.
-/

namespace Bayesmix.Hierarchies

open Utils

/-- `MultiLSState`, `src/proto/ls_state.proto` 18-22. -/
structure MultiLSMsg where
  mean : VecMsg ℝ
  prec : MatMsg ℝ
  precChol : MatMsg ℝ

/-- `LinRegUniLSState`, `src/proto/ls_state.proto` 27-30. -/
structure LinRegMsg where
  coeffs : VecMsg ℝ
  var : ℝ

/-- `FAState`, `src/proto/ls_state.proto` 32-37. -/
structure FAMsg where
  mu : VecMsg ℝ
  psi : VecMsg ℝ
  eta : MatMsg ℝ
  lambda : MatMsg ℝ

/-- The `oneof val` of `ClusterState`, `src/proto/algorithm_state.proto` 22-29. -/
inductive ClusterVal where
  | unset
  | uniLs (mean var : ℝ)
  | multiLs (m : MultiLSMsg)
  | linReg (m : LinRegMsg)
  | fa (m : FAMsg)
  | general (m : VecMsg ℝ)

/-- `AlgorithmState::ClusterState`; an unset cardinality reads as `0` (proto3). -/
structure ClusterMsg where
  val : ClusterVal
  cardinality : ℤ

/-- A vector message with no field set. -/
def VecMsg.dflt : VecMsg ℝ := ⟨0, []⟩

/-- A matrix message with no field set. -/
def MatMsg.dflt : MatMsg ℝ := ⟨0, 0, false, []⟩

/-- `state_.uni_ls_state()`: the default message if another case of the `oneof` is set. -/
def ClusterMsg.uniLs (m : ClusterMsg) : ℝ × ℝ :=
  match m.val with
  | .uniLs a b => (a, b)
  | _ => (0, 0)

/-- `state_.multi_ls_state()`. -/
def ClusterMsg.multiLs (m : ClusterMsg) : MultiLSMsg :=
  match m.val with
  | .multiLs a => a
  | _ => ⟨VecMsg.dflt, MatMsg.dflt, MatMsg.dflt⟩

/-- `state_.lin_reg_uni_ls_state()`. -/
def ClusterMsg.linReg (m : ClusterMsg) : LinRegMsg :=
  match m.val with
  | .linReg a => a
  | _ => ⟨VecMsg.dflt, 0⟩

/-- `state_.fa_state()`. -/
def ClusterMsg.fa (m : ClusterMsg) : FAMsg :=
  match m.val with
  | .fa a => a
  | _ => ⟨VecMsg.dflt, VecMsg.dflt, MatMsg.dflt, MatMsg.dflt⟩

/-- `state_.general_state()`. -/
def ClusterMsg.general (m : ClusterMsg) : VecMsg ℝ :=
  match m.val with
  | .general a => a
  | _ => VecMsg.dflt

/-- `State::UniLinRegLS` with run-time size, `uni_lin_reg_ls_state.h` 54-57. -/
structure LinRegDyn where
  coeffs : List ℝ
  var : ℝ

/-- `State::MultiLS` with run-time size, `multi_ls_state.h` 61-65. -/
structure MultiLSDyn where
  mean : List ℝ
  prec : Mat ℝ
  precChol : Mat ℝ
  precLogdet : ℝ

/-- `State::FA` with run-time sizes, `fa_state.h` 34-39. -/
structure FADyn where
  mu : List ℝ
  psi : List ℝ
  eta : Mat ℝ
  lambda : Mat ℝ
  covWood : Mat ℝ
  psiInverse : List ℝ
  covLogdet : ℝ

/-- `m.diagonal()` of a column-major matrix. -/
def matDiag (m : Mat ℝ) : List ℝ :=
  (List.range (min m.rows m.cols)).filterMap (fun i => m.store[i * m.rows + i]?)

/-- `2 * log(diag.array()).sum()`, `multi_ls_state.h` 82-83 and 94-95. -/
noncomputable def logdetOfChol (chol : Mat ℝ) : ℝ := 2 * ((matDiag chol).map Real.log).sum

/-- `get_as_proto` of `UniLS`, `uni_ls_state.h` 71-76. -/
def uniLSToProto (st : UniLS) : ClusterMsg := ⟨.uniLs st.mean st.var, 0⟩

/-- `set_from_proto` of `UniLS`, `uni_ls_state.h` 63-69 (without the cardinality). -/
def uniLSFromProto (m : ClusterMsg) : Except Fault UniLS := .ok ⟨m.uniLs.1, m.uniLs.2⟩

/-- `get_as_proto` of `UniLinRegLS`, `uni_lin_reg_ls_state.h` 83-90. -/
def linRegToProto (st : LinRegDyn) : ClusterMsg := ⟨.linReg ⟨vecToProto st.coeffs, st.var⟩, 0⟩

/-- `set_from_proto` of `UniLinRegLS`, `uni_lin_reg_ls_state.h` 74-81. -/
def linRegFromProto (m : ClusterMsg) : Except Fault LinRegDyn := do
  let coeffs ← vecToEigen m.linReg.coeffs
  .ok ⟨coeffs, m.linReg.var⟩

/-- `get_as_proto` of `MultiLS`, `multi_ls_state.h` 98-105: the log determinant is not written. -/
def multiLSToProto (st : MultiLSDyn) : ClusterMsg :=
  ⟨.multiLs ⟨vecToProto st.mean, matToProto st.prec, matToProto st.precChol⟩, 0⟩

/-- `set_from_proto` of `MultiLS`, `multi_ls_state.h` 86-96. -/
noncomputable def multiLSFromProto (m : ClusterMsg) : Except Fault MultiLSDyn := do
  let mean ← vecToEigen m.multiLs.mean
  let prec ← matToEigen m.multiLs.prec
  let chol ← matToEigen m.multiLs.precChol
  .ok ⟨mean, prec, chol, logdetOfChol chol⟩

/-- `get_as_proto` of `FA`, `fa_state.h` 65-75: derived quantities are not written. -/
def faToProto (st : FADyn) : ClusterMsg :=
  ⟨.fa ⟨vecToProto st.mu, vecToProto st.psi, matToProto st.eta, matToProto st.lambda⟩, 0⟩

/-- `set_from_proto` of `FA`, `fa_state.h` 43-54. `wood` is
`bayesmix::compute_wood_chol_and_logdet`. -/
noncomputable def faFromProto (wood : List ℝ → Mat ℝ → Mat ℝ × ℝ) (m : ClusterMsg) :
    Except Fault FADyn := do
  let mu ← vecToEigen m.fa.mu
  let psi ← vecToEigen m.fa.psi
  let eta ← matToEigen m.fa.eta
  let lambda ← matToEigen m.fa.lambda
  let psiInverse := psi.map (fun x => x⁻¹)
  let w := wood psiInverse lambda
  .ok ⟨mu, psi, eta, lambda, w.1, psiInverse, w.2⟩

/-- `BaseLikelihood::write_state_to_proto`, `base_likelihood.h` 208-214. -/
def writeStateToProto {S P : Type} (toProto : P → ClusterMsg) (c : Cluster S P) : ClusterMsg :=
  { toProto c.state with cardinality := c.card }

/-- `BaseHierarchy::get_state_proto`, `base_hierarchy.h` 261-265: no cardinality. -/
def getStateProto {S P : Type} (toProto : P → ClusterMsg) (c : Cluster S P) : ClusterMsg :=
  toProto c.state

/-- `BaseLikelihood::set_state_from_proto` with `update_card` (default `true`),
`base_likelihood.h` 103-116. -/
noncomputable def setStateFromProto {S P : Type} (fromProto : ClusterMsg → Except Fault P)
    (c : Cluster S P) (m : ClusterMsg) (updateCard : Bool) : Except Fault (Cluster S P) := do
  let st ← fromProto m
  .ok (if updateCard then
    { c with state := st, card := m.cardinality, logCard := logCardOf m.cardinality }
    else { c with state := st })

end Bayesmix.Hierarchies
