import Verif.Mixing.Props
import Verif.Utils.Model

/-!
# Mixing states as messages

`get_state_proto` and `set_state_from_proto` of the mixings. The message is
`MixingState`, /repo/src/proto/mixing_state.proto:48-57.
-/

namespace Bayesmix.Mixing
open Bayesmix Utils

noncomputable section

/-- The `oneof state` of `MixingState`, /repo/src/proto/mixing_state.proto:48-57
    (the case `general_state` is written by no mixing). -/
inductive MixMsg where
  | unset
  | dp (totalmass : ℝ)
  | py (strength discount : ℝ)
  | logSb (coeffs : MatMsg ℝ)
  | truncSb (sticks : VecMsg ℝ) (logweights : VecMsg EReal)
  | mfm (lambda gamma : ℝ)

/-- `statecast.dp_state().totalmass()`: zero if another case is set (proto3). -/
def MixMsg.dpMass : MixMsg → ℝ
  | .dp m => m
  | _ => 0

/-- `statecast.py_state()`. -/
def MixMsg.pyPair : MixMsg → ℝ × ℝ
  | .py a b => (a, b)
  | _ => (0, 0)

/-- `statecast.mfm_state()`. -/
def MixMsg.mfmPair : MixMsg → ℝ × ℝ
  | .mfm a b => (a, b)
  | _ => (0, 0)

/-- `statecast.log_sb_state().regression_coeffs()`. -/
def MixMsg.logSbCoeffs : MixMsg → MatMsg ℝ
  | .logSb m => m
  | _ => ⟨0, 0, false, []⟩

/-- `statecast.trunc_sb_state().sticks()`. -/
def MixMsg.truncSticks : MixMsg → VecMsg ℝ
  | .truncSb v _ => v
  | _ => ⟨0, []⟩

/-- `DirichletMixing::get_state_proto`, dirichlet_mixing.cc:84-91. -/
def dpGetProto (s : DPState) : MixMsg := .dp s.totalmass

/-- `DirichletMixing::set_state_from_proto`, dirichlet_mixing.cc:77-82: what was in
    the object before is overwritten. (`std::log` of zero is not modelled.) -/
def dpSetFromProto (_old : DPState) (m : MixMsg) : DPState := dpSetState m.dpMass

/-- `PitYorMixing::get_state_proto`, pityor_mixing.cc:64-72. -/
def pyGetProto (s : PYState) : MixMsg := .py s.strength s.discount

/-- `PitYorMixing::set_state_from_proto`, pityor_mixing.cc:57-62. -/
def pySetFromProto (_old : PYState) (m : MixMsg) : PYState := ⟨m.pyPair.1, m.pyPair.2⟩

/-- `MixtureFiniteMixing` with both parameters, mixture_finite_mixing.h:16-18, 116-126. -/
structure MFMObj where
  lambda : ℝ
  gamma : ℝ
  table : Option (List (Option ℝ))

/-- The part of the object that the masses read. -/
def MFMObj.core (o : MFMObj) : MFMState := ⟨o.gamma, o.table⟩

/-- `MixtureFiniteMixing::get_state_proto`, mixture_finite_mixing.cc:78-86. -/
def mfmGetProto (o : MFMObj) : MixMsg := .mfm o.lambda o.gamma

/-- `MixtureFiniteMixing::set_state_from_proto`, mixture_finite_mixing.cc:71-76: `V`, `C` and
    `V_C_are_initialized` are left alone. -/
def mfmSetFromProto (old : MFMObj) (m : MixMsg) : MFMObj :=
  { old with lambda := m.mfmPair.1, gamma := m.mfmPair.2 }

/-- `mass_new_cluster(n, n_clust, false, true)` of the object: `V lambda gamma t m` is the value
    `compute_V_t` finds with these parameters. Returns the mass and the object. -/
def mfmObjMassNew (V : ℝ → ℝ → ℕ → ℕ → ℝ) (o : MFMObj) (n k : ℕ) (propto : Bool) :
    Except Fault (ℝ × MFMObj) := do
  let (x, s) ← mfmMassNew (V o.lambda o.gamma) o.core n k propto
  .ok (x, { o with table := s.table })

/-- `mass_existing_cluster` of the object. -/
def mfmObjMassExisting (V : ℝ → ℝ → ℕ → ℕ → ℝ) (o : MFMObj) (n k : ℕ) (propto : Bool) (card : ℕ) :
    Except Fault (ℝ × MFMObj) := do
  let (x, s) ← mfmMassExisting (V o.lambda o.gamma) o.core n k propto card
  .ok (x, { o with table := s.table })

/-- `TruncatedSBMixing::get_state_proto`, truncated_sb_mixing.cc:69-78. -/
def sbGetProto (s : SBState) : MixMsg := .truncSb (vecToProto s.sticks) (vecToProto s.logweights)

/-- `TruncatedSBMixing::set_state_from_proto`, truncated_sb_mixing.cc:61-67: the stored log weights
    are not read. -/
def sbSetFromProto (_old : SBState) (m : MixMsg) : Except Fault SBState := do
  let sticks ← vecToEigen m.truncSticks
  sbSetSticks sticks

/-- `LogitSBMixing`: number of components, coefficients (one column for each component but the
    last) and prior precision, logit_sb_mixing.h:14-18, 108-118. -/
structure LogitObj where
  num : ℕ
  coeffs : Mat ℝ
  precision : Mat ℝ

/-- An object made by the factory: no components, empty matrices. -/
def logitFresh : LogitObj := ⟨0, ⟨0, 0, []⟩, ⟨0, 0, []⟩⟩

/-- `LogitSBMixing::get_state_proto`, logit_sb_mixing.cc:87-95. -/
def logitGetProto (o : LogitObj) : MixMsg := .logSb (matToProto o.coeffs)

/-- `LogitSBMixing::set_state_from_proto`, logit_sb_mixing.cc:80-85: only the coefficients. -/
def logitSetFromProto (old : LogitObj) (m : MixMsg) : Except Fault LogitObj := do
  let c ← matToEigen m.logSbCoeffs
  .ok { old with coeffs := c }

/-- `mixing_weights(true, _, covariate)` of the object, logit_sb_mixing.cc:54-78: a product with a
    covariate of another length is an assertion of Eigen. -/
def logitObjLogWeights (o : LogitObj) (x : List ℝ) : Except Fault (List EReal) :=
  if 2 ≤ o.num ∧ o.coeffs.rows ≠ x.length ∧ o.num - 1 ≤ o.coeffs.cols then .error .assertFail
  else logitLogWeights (d := x.length) o.num
    ((List.range o.coeffs.cols).map fun h (i : Fin x.length) =>
      o.coeffs.store.getD (h * o.coeffs.rows + i) 0)
    (fun i => x.get i)

end
end Bayesmix.Mixing
