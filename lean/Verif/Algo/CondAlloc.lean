import Verif.Algo.Slice
import Verif.Algo.Gibbs

/-!
# The laws of the labels in the conditional samplers

`BlockedGibbsAlgorithm::sample_allocations` (`src/algorithms/blocked_gibbs_algorithm.cc` 20-44) and
`SliceSampler::sample_slice`, `sample_allocations` (`src/algorithms/slice_sampler.cc` 26-33, 75-106)
with the probabilities of their categorical draws. A law on finitely many outcomes is the list of
its outcomes with their probabilities. `like θ i` is
`get_like_lpdf(data.row(i), hier_covariates.row(i))` of a hierarchy with state `θ`.
-/

namespace Bayesmix.Cond
open Bayesmix Mixing Slice Gibbs

variable {G H Θ S : Type}

noncomputable section

/-- Outcomes with their probabilities. -/
abbrev Law (S : Type) := List (ℝ × S)

open Classical in
/-- The probability of an event. -/
def Law.prob (l : Law S) (P : S → Prop) : ℝ := (l.map fun x => if P x.2 then x.1 else 0).sum

/-- Continue each outcome with `f`. -/
def Law.andThen (l : Law S) (f : S → Except Fault (Law S)) : Except Fault (Law S) := do
  let r ← l.mapM fun x => do
    let m ← f x.2
    .ok (m.map fun y => (x.1 * y.1, y.2))
  .ok r.flatten

/-- A loop over rows whose body draws. -/
def sweep (row : ℕ → S → Except Fault (Law S)) : List ℕ → S → Except Fault (Law S)
  | [], s => .ok [(1, s)]
  | i :: is, s => do
    let l ← row i s
    l.andThen (sweep row is)

/-- `categorical_rng(probas, rng, 0)` followed by `next`; the `k`-th category has probability
`probas(k)`. -/
def drawThen (probas : List ℝ) (next : ℕ → Except Fault S) : Except Fault (Law S) :=
  (List.range probas.length).mapM fun k => do
    let p ← eigenAt probas k
    let s ← next k
    .ok (p, s)

/-- `stan::math::softmax` of log weights that may be minus infinity. If all are, it returns NaN,
which `categorical_rng` rejects. -/
def softmaxLog (l : List EReal) : Except Fault (List ℝ) :=
  if (l.map stdExp).sum = 0 then .error .throw
  else .ok (l.map fun x => stdExp x / (l.map stdExp).sum)

/-- `v(i)` on an Eigen vector of log weights: out of range fails an assertion. -/
def logAt (v : List EReal) (i : ℕ) : Except Fault EReal :=
  match v[i]? with
  | some x => .ok x
  | none => .error .assertFail

/-- The probabilities of `blocked_gibbs_algorithm.cc` 25-33: `lw` are the log weights of the mixing
for row `i`, `K` their number. -/
def blockedProbas (like : Θ → ℕ → ℝ) (lw : List EReal) (K : ℕ) (s : Alg G H Θ) (i : ℕ) :
    Except Fault (List ℝ) := do
  let l ← (List.range K).mapM fun j => do
    let w ← logAt lw j
    let o ← vget s.clus j
    .ok (w + (like o.state i : ℝ))
  softmaxLog (l ++ lw.drop K)

/-- One pass of the loop of `blocked_gibbs_algorithm.cc` 23-43. -/
def blockedRow [AddGroup G] (E : Env G H Θ) (like : Θ → ℕ → ℝ) (lw : ℕ → List EReal) (K : ℕ)
    (i : ℕ) (s : Alg G H Θ) : Except Fault (Law (Alg G H Θ)) := do
  let p ← blockedProbas like (lw i) K s i
  drawThen p (blockedDatum E K s i)

/-- `BlockedGibbsAlgorithm::sample_allocations`, `blocked_gibbs_algorithm.cc` 20-44. -/
def blockedLaw [AddGroup G] (E : Env G H Θ) (like : Θ → ℕ → ℝ) (lw : ℕ → List EReal) (K n : ℕ)
    (s : Alg G H Θ) : Except Fault (Law (Alg G H Θ)) :=
  sweep (blockedRow E like lw K) (List.range n) s

/-- The probabilities of `slice_sampler.cc` 80-92. `softmax` and `categorical_rng` reject an empty
vector. -/
def sliceProbas (like : Θ → ℕ → ℝ) (mix : SBState) (u : List ℝ) (s : Alg G H Θ) (i : ℕ) :
    Except Fault (List ℝ) := do
  let weights := sbWeights mix
  let ui ← eigenAt u i
  if mix.num ≤ weights.length then do
    let l ← (eligible mix.num weights ui).mapM fun j => do
      let o ← vget s.clus j
      .ok (like o.state i)
    if l.length = 0 then .error .throw else .ok (softmax l)
  else .error .assertFail

/-- One pass of the loop of `slice_sampler.cc` 78-105. -/
def sliceRow [AddGroup G] (E : Env G H Θ) (like : Θ → ℕ → ℝ) (mix : SBState) (u : List ℝ)
    (i : ℕ) (s : Alg G H Θ) : Except Fault (Law (Alg G H Θ)) := do
  let p ← sliceProbas like mix u s i
  drawThen p (sliceAllocDatum E mix u s i)

/-- `sample_slice` and `sample_allocations`, `slice_sampler.cc` 22-23: `uniform_rng(0, w)` for row
`i` is `w` times the number `x i` in the unit interval. -/
def sliceLaw [AddGroup G] (E : Env G H Θ) (like : Θ → ℕ → ℝ) (n : ℕ) (x : ℕ → ℝ)
    (s : State G H Θ) : Except Fault (Law (Alg G H Θ)) := do
  let s ← sampleSlice n (fun i w => w * x i) s
  sweep (sliceRow E like s.mix s.u) (List.range n) s.alg

end

end Bayesmix.Cond
