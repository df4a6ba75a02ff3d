import Verif.Algo.Neal3Chain

/-!
# The laws of the split-merge sampler

`src/algorithms/split_and_merge_algorithm.cc` with the probabilities of its draws. The text of the
functions is that of `Algo/SplitMerge.lean`; here each categorical draw becomes a law.
-/

namespace Bayesmix.Chain
open Bayesmix Cond Gibbs SplitMerge Slice

variable {G H Θ S T : Type}

noncomputable section

/-- Continue each outcome with `f`, which may return something of another type. -/
def Law.into (l : Law S) (f : S → Except Fault (Law T)) : Except Fault (Law T) := do
  let r ← l.mapM fun x => do
    let m ← f x.2
    .ok (m.map fun y => (x.1 * y.1, y.2))
  .ok r.flatten

/-- `categorical_rng(VectorXd::Constant(m, 1.0 / m), rng, 0)`: it throws if there is no category. -/
def drawUniform (m : ℕ) : Except Fault (Law ℕ) :=
  if m = 0 then .error .throw else drawThen (List.replicate m (1 / (m : ℝ))) .ok

variable [AddCommGroup G]

/-- `compute_restricted_gs_unique_values`, lines 96-130, with `probas = (0.5, 0.5)`. -/
def launchLaw (E : Env G H Θ) (s : Alg G H Θ) (i j : ℕ) (rows : List ℕ) :
    Except Fault (Law (Launch G H Θ)) := do
  let o ← vget s.clus 0
  let l ← sweep (fun k L => drawThen [1 / 2, 1 / 2] fun c => launchAdd E s.hyp (fun _ => c) L k)
    (List.range rows.length)
    (⟨rows, List.replicate rows.length false, fun _ => o.clone⟩ : Launch G H Θ)
  Law.into l fun L => do
    let o0 ← (L.vals false).addDatum E s.hyp true i
    let L : Launch G H Θ := { L with vals := Function.update L.vals false o0 }
    let o1 ← (L.vals true).addDatum E s.hyp true j
    .ok [(1, { L with vals := Function.update L.vals true o1 })]

/-- `softmax(logprobas)` in the loop of `restricted_gs`, lines 305-321. -/
def restrictedProbas (E : Env G H Θ) (S : Scores H) (s : Alg G H Θ) (L : Launch G H Θ) (k : ℕ) :
    Except Fault (List ℝ) := do
  let c ← vget L.lab k
  let x ← vget L.rows k
  let o ← (L.vals c).removeDatum E s.hyp true x
  let vals := Function.update L.vals c o
  let p0 ← condPred E S s.hyp (vals false) x
  let p1 ← condPred E S s.hyp (vals true) x
  let l : Bool → ℝ := fun b =>
    S.exist (L.rows.length + 2 - 1) 2 (vals b).card + (if b then p1 else p0)
  .ok [Real.exp (l false) / (Real.exp (l false) + Real.exp (l true)),
    Real.exp (l true) / (Real.exp (l false) + Real.exp (l true))]

/-- Body of the loop of `restricted_gs`, lines 305-341: the label is drawn (line 329) unless
`step_to_original_clust`. -/
def restrictedRow (E : Env G H Θ) (S : Scores H) (s : Alg G H Θ) (first : ℕ) (ret toOrig : Bool)
    (k : ℕ) (La : Launch G H Θ × ℝ) : Except Fault (Law (Launch G H Θ × ℝ)) :=
  if toOrig then do
    let t ← restrictedStep E S s first ret true (fun _ => 0) La k
    .ok [(1, t)]
  else do
    let p ← restrictedProbas E S s La.1 k
    drawThen p fun c => restrictedStep E S s first ret false (fun _ => c) La k

/-- `restricted_gs`, lines 298-344. -/
def restrictedLaw (E : Env G H Θ) (S : Scores H) (s : Alg G H Θ) (first : ℕ) (ret toOrig : Bool)
    (L : Launch G H Θ) : Except Fault (Law (Launch G H Θ × ℝ)) :=
  sweep (restrictedRow E S s first ret toOrig) (List.range L.rows.length) (L, 0)

/-- The restricted scans, lines 46-48. -/
def scansLaw (E : Env G H Θ) (S : Scores H) (s : Alg G H Θ) (first : ℕ) :
    ℕ → Launch G H Θ → Except Fault (Law (Launch G H Θ))
  | 0, L => .ok [(1, L)]
  | t + 1, L => do
    let l ← restrictedLaw E S s first false false L
    Law.into l fun La => scansLaw E S s first t La.1

/-- `split_or_merge`, lines 225-248: `log(uniform_rng(0, 1)) < log_arate` has probability
`min(1, exp(log_arate))`. -/
def splitMergeLaw (E : Env G H Θ) (S : Scores H) (s : Alg G H Θ) (L : Launch G H Θ) (i j : ℕ) :
    Except Fault (Law (Alg G H Θ)) := do
  let a ← vget s.alloc i
  let b ← vget s.alloc j
  let split := decide (a = b)
  let l ← restrictedLaw E S s i true (!split) L
  Law.into l fun La => do
    let trans := if split then La.2 * -1 else La.2
    let ratio ← logRatios E S s La.1 i j split
    let t ← proposalUpdate E s La.1 i j split
    .ok [(min 1 (Real.exp (trans + ratio.2 + ratio.1)), t),
      (1 - min 1 (Real.exp (trans + ratio.2 + ratio.1)), s)]

/-- One Metropolis-Hastings update for two given rows, lines 42-50. -/
def pairLaw (E : Env G H Θ) (S : Scores H) (nRestr : ℕ) (s : Alg G H Θ) (i j : ℕ) :
    Except Fault (Law (Alg G H Θ)) := do
  let rows ← launchRows s i j
  let l ← launchLaw E s i j rows
  let l ← Law.into l (scansLaw E S s i nRestr)
  Law.into l fun L => splitMergeLaw E S s L i j

/-- One pass of the first loop of `sample_allocations`, lines 30-51. -/
def mhLaw (E : Env G H Θ) (S : Scores H) (nRestr n : ℕ) (s : Alg G H Θ) :
    Except Fault (Law (Alg G H Θ)) := do
  let l ← drawUniform n
  Law.into l fun i => do
    let m ← drawUniform (n - 1)
    Law.into m fun j => pairLaw E S nRestr s i (if j ≥ i then j + 1 else j)

/-- The noise of an iteration that is not used for labels: for the values of new clusters in each
full scan, for the unique values, for the hyperparameters. -/
structure RestNoise where
  full : ℕ → ℕ → ℕ
  uv : ℕ → ℕ
  hyp : ℕ

/-- `BaseAlgorithm::step` (`base_algorithm.h` 179-184) with `sample_allocations` (lines 26-57):
`nMh` Metropolis-Hastings updates, `nFull` full scans (`full_gs`, lines 347-387, has the text of
Neal3's `sample_allocations`). -/
def smIter (E : Env G H Θ) (S : Scores H) (nRestr n nMh nFull : ℕ) (z : RestNoise)
    (s : Alg G H Θ) : Except Fault (Law (Alg G H Θ)) := do
  let l ← sweep (fun _ => mhLaw E S nRestr n) (List.range nMh) s
  let l ← Law.into l fun s =>
    sweep (fun k => sweep (neal3Row E S n (z.full k)) (List.range n)) (List.range nFull) s
  l.mapM fun x => do
    let t ← sampleUniqueValues E true z.uv x.2
    let t ← updateHypers E z.hyp t
    .ok (x.1, t)

/-- The loop of `BaseAlgorithm::run` (`base_algorithm.h` 61-71). -/
def smChain (E : Env G H Θ) (S : Scores H) (nRestr n nMh nFull : ℕ) : List RestNoise → Alg G H Θ →
    Except Fault (Law (Alg G H Θ))
  | [], s => .ok [(1, s)]
  | z :: zs, s => do
    let l ← smIter E S nRestr n nMh nFull z s
    l.andThen (smChain E S nRestr n nMh nFull zs)

end

end Bayesmix.Chain
