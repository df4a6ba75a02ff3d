import Verif.Algo.SemiHdpWeights
import Verif.Algo.CondAlloc
import Verif.Algo.Density
import Verif.Hier.MixDistMulti
import Mathlib.MeasureTheory.Measure.Lebesgue.Basic

/-!
# Moving a group to another restaurant

`SemiHdpSampler::update_rest_allocs` (`src/algorithms/semihdp_sampler.cc` 310-353) with the
probabilities of its draws. `like t y` is the log density `like_lpdf_grid` of a table at a row of the
data; `data i` are the rows of group `i`.
-/

namespace Bayesmix.SemiHdp
open Bayesmix Cond Density Mixing Hierarchies MeasureTheory

variable {g d : ℕ} {T Y : Type}

noncomputable section

/-- The tables that `lpdf_for_group` looks at in restaurant `r`, and their counts,
`semihdp_sampler.cc` 526-528, 536-539. -/
def seenTables (ps : Pseudo g T) (s : State g T) (r : Fin g) : List T × List ℤ :=
  if s.isUsedRest r then (s.rest r, s.nByTable r) else (ps.tables r, ps.counts r)

/-- A row of `lpdf_local` and its `log_sum_exp`, `semihdp_sampler.cc` 527-550; `M` is
`totalmass_rest`. -/
def rowLpdf (M : ℝ) (like : T → Y → ℝ) (tc : List T × List ℤ) (y : Y) : Except Fault EReal := do
  let l ← (List.range tc.1.length).mapM fun h => do
    let t ← vget tc.1 h
    let n ← vget tc.2 h
    .ok (stdLog ((n : ℝ) / (M + (tc.2.sum : ℤ))) + ((like t y : ℝ) : EReal))
  .ok (logSumExp l)

/-- `lpdf_for_group`, `semihdp_sampler.cc` 523-553. (For a group without rows nothing is read here,
while the code reads the counts.) -/
def lpdfForGroup (M : ℝ) (like : T → Y → ℝ) (data : Fin g → List Y) (ps : Pseudo g T)
    (s : State g T) (i r : Fin g) : Except Fault EReal := do
  let l ← (data i).mapM (rowLpdf M like (seenTables ps s r))
  .ok l.sum

/-- `lpdf_for_group(i, r) + log(dirichlet_concentration(r))`, `semihdp_sampler.cc` 321-322, 341-344. -/
def restLogWeight (M : ℝ) (like : T → Y → ℝ) (data : Fin g → List Y) (conc : Fin g → ℝ)
    (ps : Pseudo g T) (s : State g T) (i r : Fin g) : Except Fault EReal := do
  let l ← lpdfForGroup M like data ps s i r
  .ok (l + stdLog (conc r))

/-- The draw of the move `full`, `semihdp_sampler.cc` 316-324: `w r` is the log weight. -/
def fullMove (w : Fin g → Except Fault EReal) : Except Fault (Law (Fin g)) := do
  let l ← (List.finRange g).mapM w
  let p ← softmaxLog l
  .ok (p.zip (List.finRange g))

/-- The probability that `log(uniform_rng(0, 1)) < num - den`, `semihdp_sampler.cc` 346. (Minus
infinity minus minus infinity is not a number in the code, and minus infinity in `EReal`: no number is
below either.) -/
def acceptProb (num den : EReal) : ℝ :=
  (volume {u : ℝ | 0 ≤ u ∧ u < 1 ∧ stdLog u < num - den}).toReal

/-- The moves with a proposal, `semihdp_sampler.cc` 341-348: `q` is the law of `prop_r`. -/
def metroMove (w : Fin g → Except Fault EReal) (curr : Fin g) (q : Law (Fin g)) :
    Except Fault (Law (Fin g)) := do
  let l ← q.mapM fun x => do
    let num ← w x.2
    let den ← w curr
    .ok [(x.1 * acceptProb num den, x.2), (x.1 * (1 - acceptProb num den), curr)]
  .ok l.flatten

/-- `std::uniform_int_distribution<int>(0, ngroups - 1)`, `semihdp_sampler.cc` 327-329. -/
def uniformProposal : Law (Fin g) := (List.finRange g).map fun r => (1 / (g : ℝ), r)

/-- The mixture of restaurant `r` in `_compute_mixture_distance`, `semihdp_sampler.cc` 589-599,
604-613; `toState` is `write_state_to_proto`. If all counts are zero the weights are not numbers, and
`categorical_rng` rejects the probabilities that are computed from them. -/
def restMixture (toState : T → ClusterState d) (s : State g T) (r : Fin g) :
    Except Fault (List (ClusterState d) × List ℝ) := do
  let w ← (List.range (s.rest r).length).mapM fun l => do
    let n ← vget (s.nByTable r) l
    .ok (n : ℝ)
  if s.rest r ≠ [] ∧ w.sum = 0 then .error .throw
  else .ok ((s.rest r).map toState, w.map fun x => x / w.sum)

/-- `_compute_mixture_distance`, `semihdp_sampler.cc` 588-619: entry `r` of the result. -/
def mixtureDistance (toState : T → ClusterState d) (s : State g T) (c r : Fin g) : Except Fault ℝ := do
  let a ← restMixture toState s c
  let b ← restMixture toState s r
  gaussianMixtureDistStates a.1 a.2 b.1 b.2

/-- `categorical_rng` of a vector of weights divided by its sum: the quotients have to be nonnegative
numbers. -/
def normalizedDraw (w : List (ℝ × Fin g)) : Except Fault (Law (Fin g)) :=
  if (w.map Prod.fst).sum = 0 ∨ ∃ x ∈ w, x.1 / (w.map Prod.fst).sum < 0 then .error .throw
  else .ok (w.map fun x => (x.1 / (w.map Prod.fst).sum, x.2))

/-- The proposal of `metro_dist`, `semihdp_sampler.cc` 330-337. -/
def distProposal (toState : T → ClusterState d) (s : State g T) (curr : Fin g) :
    Except Fault (Law (Fin g)) := do
  let w ← (List.finRange g).mapM fun r => do
    let x ← mixtureDistance toState s curr r
    if 0.0001 + x = 0 then .error .throw else .ok (1 + 0.1 / (0.0001 + x), r)
  normalizedDraw w

/-- The new restaurant of group `i` in `update_rest_allocs`, `semihdp_sampler.cc` 312-348: `upd` is
`params.rest_allocs_update()`. -/
def choiceLaw (upd : String) (M : ℝ) (like : T → Y → ℝ) (data : Fin g → List Y) (conc : Fin g → ℝ)
    (toState : T → ClusterState d) (ps : Pseudo g T) (s : State g T) (i : Fin g) :
    Except Fault (Law (Fin g)) :=
  let w := restLogWeight M like data conc ps s i
  let curr := s.restAllocs i
  if upd = "full" then fullMove w
  else if upd = "metro_base" then metroMove w curr uniformProposal
  else if upd = "metro_dist" then do
    let q ← distProposal toState s curr
    metroMove w curr q
  else metroMove w curr [(1, curr)]

end

end Bayesmix.SemiHdp
