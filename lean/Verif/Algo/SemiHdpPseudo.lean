import Verif.Algo.SemiHdp
import Mathlib.Data.Real.Basic
import Mathlib.Algebra.BigOperators.Group.List.Basic

/-!
# The pseudo-prior and the saved messages of the semi-HDP sampler
-/

namespace Bayesmix.SemiHdp

variable {g : ℕ} {T V P : Type}

/-- The parts of an `AlgorithmState` that `sample_pseudo_prior` reads: `cluster_states` and
`cluster_allocs`. -/
structure Saved (P : Type) where
  states : List P
  allocs : List ℤ

/-- `cards[state.cluster_allocs(j)] += 1` on an Eigen vector, `semihdp_sampler.cc` 476-480: an index
out of range fails an assertion. -/
def countCards (n : ℕ) (allocs : List ℤ) : Except Fault (List ℤ) :=
  allocs.foldlM (fun c a =>
    if a < 0 ∨ (n : ℤ) ≤ a then .error .assertFail
    else .ok (c.set a.toNat (c.getD a.toNat 0 + 1))) (List.replicate n 0)

noncomputable section

/-- `cards_perturb`, `semihdp_sampler.cc` 484-489; `w` is `card_weight`. If there are no allocations
the frequencies are not numbers, which `multinomial_rng` rejects. -/
def cardsPerturb (w : ℝ) (cards : List ℤ) : Except Fault (List ℝ) :=
  if cards.sum = 0 then .error .throw
  else .ok (cards.map fun c : ℤ =>
    w * ((c : ℝ) / (cards.sum : ℤ)) + (1 - w) * 1 / (cards.length : ℝ))

/-- `stan::math::multinomial_rng(theta, N)` (trusted): `theta` has to be a simplex, up to the tolerance
of `check_simplex`, and `N` positive. The labels of the `N` draws are arbitrary (draws of probability
zero included). -/
def multinomialRng (theta : List ℝ) (N : ℕ) (label : ℕ → ℕ) : Except Fault (List ℤ) :=
  open Classical in
  if theta = [] ∨ 1e-8 < |1 - theta.sum| ∨ (∃ p ∈ theta, p < 0) ∨ N = 0 then .error .throw
  else .ok ((List.range theta.length).map fun k =>
    (((List.range N).filter fun j => label j % theta.length = k).length : ℤ))

/-- Restaurant `r` in `sample_pseudo_prior`, `semihdp_sampler.cc` 472-501; `setState` is
`set_state_from_proto` on a clone of the master hierarchy. -/
def pseudoRest (w : ℝ) (setState : P → Except Fault T) (st : Saved P) (N : ℕ) (label : ℕ → ℕ) :
    Except Fault (List T × List ℤ) := do
  let cards ← countCards st.states.length st.allocs
  let p ← cardsPerturb w cards
  let n ← multinomialRng p N label
  let t ← st.states.mapM setState
  .ok (t, n)

/-- `sample_pseudo_prior`, `semihdp_sampler.cc` 467-503: `coll` are the states of
`pseudoprior_collectors`; `pseudo_iter` is the number of those of the first one (`semihdp_sampler.h`
102). `get_state` reads its vector without a check (`memory_collector.cc` 10-13). -/
def samplePseudoPrior (w : ℝ) (setState : P → Except Fault T) (coll : List (List (Saved P)))
    (nByGroup : Fin g → ℕ) (draw : ℕ) (label : Fin g → ℕ → ℕ) : Except Fault (Pseudo g T) := do
  let first ← vget coll 0
  let iter ← categorical first.length draw
  let l ← (List.finRange g).mapM fun r : Fin g => do
    let c ← vget coll r.val
    let st ← vget c iter
    pseudoRest w setState st (nByGroup r) (label r)
  .ok ⟨fun r => (l.getD r.val ([], [])).1, fun r => (l.getD r.val ([], [])).2⟩

/-- `perturb` of a univariate state, `semihdp_sampler.cc` 505-521: `z` is the draw of the standard
normal distribution, `u` that of the uniform distribution on `(0, 1)`; `uniform_rng` throws unless its
bounds are in order. The call in `sample_pseudo_prior` is commented out (line 496). -/
def perturb (sd frac z u : ℝ) (s : ℝ × ℝ) : Except Fault (ℝ × ℝ) :=
  if sd ≤ 0 ∨ ¬ -s.2 / frac < s.2 / frac then .error .throw
  else .ok (s.1 + sd * z, s.2 + (-s.2 / frac + u * (s.2 / frac - -s.2 / frac)))

end

/-! ## Saved messages -/

/-- The message types of a cluster state: `AlgorithmState::ClusterState`
(`src/proto/algorithm_state.proto` 19-32) and `SemiHdpState::ClusterState` (`src/proto/semihdp.proto`
9-17). -/
inductive ClusterMsg
  | algorithm
  | semiHdp
  deriving DecidableEq

/-- `google::protobuf::internal::down_cast` (trusted): it asserts that the object is of the type; with
`NDEBUG` it is a `static_cast`, which is undefined behaviour for an object of another type. -/
def downCast (actual wanted : ClusterMsg) : Except Fault Unit :=
  if actual = wanted then .ok () else .error .assertFail

/-- `BaseLikelihood::write_state_to_proto`, `src/hierarchies/likelihoods/base_likelihood.h` 156-161,
209-214: `actual` is the type of the message that is passed. -/
def writeState (val : T → V) (actual : ClusterMsg) (t : T) : Except Fault V := do
  downCast actual .algorithm
  .ok (val t)

/-- `get_state_as_proto`, `semihdp_sampler.cc` 641-677, with the calls of `write_state_to_proto`: the
messages passed are of the type `SemiHdpState::ClusterState` (646, 663). The message itself is that of
`stateAsProto`. -/
def getStateAsProto (val : T → V) (s : State g T) : Except Fault (Msg V) := do
  (List.finRange g).forM fun i => do
    (s.rest i).forM fun t => do
      let _ ← writeState val .semiHdp t
      pure ()
    s.shared.forM fun t => do
      let _ ← writeState val .semiHdp t
      pure ()
  .ok (stateAsProto val s)

/-- `SemiHdpSampler::run`, `semihdp_sampler.h` 93-134, with the messages that the collector gets. -/
def runSaved (val : T → V) (rows cols : Fin g → ℕ) (sh : ℕ → T) (pr : Fin g → ℕ → T)
    (draw : Fin g → ℕ → ℕ) (draws : ℕ → StepDraws g T) (adaptIter burnin iter thin : ℕ) :
    Except Fault (List (Msg V)) := do
  let p ← run rows cols sh pr draw draws adaptIter burnin iter thin
  p.2.mapM (getStateAsProto val)

end Bayesmix.SemiHdp
