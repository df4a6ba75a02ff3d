import Verif.Alloc.Model
import Verif.Mixing.Model

/-!
# The slice sampler

`src/algorithms/slice_sampler.cc` with the truncated stick-breaking mixing
`src/mixings/truncated_sb_mixing.cc`. Doubles are exact reals. `uniform_rng(0, w)` throws unless
`0 < w`; its value is an arbitrary function of `w`. The `while` loop gets fuel.
-/

namespace Bayesmix.Slice

open Bayesmix Mixing

variable {G H Θ : Type}

noncomputable section

/-- The state of a slice sampler: allocations and components, the mixing, `slice_u`. -/
structure State (G H Θ : Type) where
  alg : Alg G H Θ
  mix : SBState
  u : List ℝ

/-- `uniform_rng(0.0, w)`: throws unless `0 < w`. -/
def uniformRng (w : ℝ) (draw : ℝ → ℝ) : Except Fault ℝ :=
  if 0 < w then .ok (draw w) else .error .throw

/-- `v(i)` on an Eigen vector: out of range fails an assertion. -/
def eigenAt (v : List ℝ) (i : ℕ) : Except Fault ℝ :=
  match v[i]? with
  | some x => .ok x
  | none => .error .assertFail

/-- Body of the loop of `sample_slice`, `slice_sampler.cc` 30-31. -/
def sliceDatum (alloc : List ℕ) (weights : List ℝ) (draws : ℕ → ℝ → ℝ) (i : ℕ) :
    Except Fault ℝ := do
  let c ← vget alloc i
  let w ← eigenAt weights c
  let x ← uniformRng w (draws i)
  .ok (max 1e-16 x)

/-- `SliceSampler::sample_slice`, `slice_sampler.cc` 26-33. -/
def sampleSlice (n : ℕ) (draws : ℕ → ℝ → ℝ) (s : State G H Θ) : Except Fault (State G H Θ) := do
  let u ← (List.range n).mapM (sliceDatum s.alg.alloc (sbWeights s.mix) draws)
  .ok { s with u := u }

/-- `slice_u.minCoeff()`: of an empty vector an assertion fails. -/
def minCoeff : List ℝ → Except Fault ℝ
  | [] => .error .assertFail
  | x :: xs => .ok (xs.foldl min x)

/-- `*std::max_element(allocations.begin(), allocations.end())`. -/
def maxElement : List ℕ → Except Fault ℕ
  | [] => .error .ub
  | x :: xs => .ok (xs.foldl max x)

/-- The loop `while (sum_w <= (1.0 - min_u)) sum_w += mixing->keep_breaking(1)`,
`slice_sampler.cc` 54-57. `iter` counts the passes, `draws iter` is the Beta generator of that
pass. -/
def breakLoop (prior : SBPrior) (draws : ℕ → ℝ → ℝ → ℝ) (minU : ℝ) :
    ℕ → ℕ → SBState → ℝ → Except Fault SBState
  | 0, _, mix, sumW => if sumW ≤ 1.0 - minU then .error .outOfFuel else .ok mix
  | fuel + 1, iter, mix, sumW =>
    if sumW ≤ 1.0 - minU then do
      let r ← keepBreaking mix prior 1 (fun _ => draws iter)
      breakLoop prior draws minU fuel (iter + 1) r.1 (sumW + r.2)
    else .ok mix

/-- `k` times `unique_values[0]->clone()`, `sample_prior()`, `push_back`, `slice_sampler.cc`
61-66; `r` is the randomness of the draws. -/
def pushNew [Zero G] (E : Env G H Θ) (h : H) (r : ℕ → ℕ) :
    ℕ → List (Hier G H Θ) → Except Fault (List (Hier G H Θ))
  | 0, cl => .ok cl
  | k + 1, cl => do
    let cl ← pushNew E h r k cl
    let o ← vget cl 0
    .ok (cl ++ [o.clone.samplePrior E h (r k)])

/-- `k` times `unique_values.pop_back()`, `slice_sampler.cc` 68-70: undefined on an empty
vector. -/
def popBacks (k : ℕ) (cl : List (Hier G H Θ)) : Except Fault (List (Hier G H Θ)) :=
  if k ≤ cl.length then .ok (cl.take (cl.length - k)) else .error .ub

/-- Randomness of one iteration: unique values, Beta draws of the update of the sticks and of
the new sticks, prior draws of new components, uniform draws, categories. -/
structure Noise where
  uv : ℕ → ℕ
  upd : ℕ → ℝ → ℝ → ℝ
  brk : ℕ → ℝ → ℝ → ℝ
  fresh : ℕ → ℕ
  unif : ℕ → ℝ → ℝ
  cat : ℕ → ℕ

/-- `SliceSampler::sample_weights`, `slice_sampler.cc` 41-73. `head(k)` of more entries than
there are fails an assertion. -/
def sampleWeights [Zero G] (E : Env G H Θ) (prior : SBPrior) (inf : Bool) (fuel : ℕ) (z : Noise)
    (s : State G H Θ) : Except Fault (State G H Θ) := do
  let mix ← sbUpdate s.mix prior inf (s.alg.clus.map (fun o => o.card.toNat)) z.upd
  let numOld := mix.sticks.length
  let maxAlloc ← maxElement s.alg.alloc
  if maxAlloc + 1 ≤ mix.sticks.length then do
    let mix ← sbSetSticks (mix.sticks.take (maxAlloc + 1))
    let minU ← minCoeff s.u
    let mix ← breakLoop prior z.brk minU fuel 0 mix (sbWeights mix).sum
    let numNew := mix.sticks.length
    if numNew ≥ numOld then do
      let cl ← pushNew E s.alg.hyp z.fresh (numNew - numOld) s.alg.clus
      .ok { s with alg := { s.alg with clus := cl }, mix := mix }
    else do
      let cl ← popBacks (numOld - numNew) s.alg.clus
      .ok { s with alg := { s.alg with clus := cl }, mix := mix }
  else .error .assertFail

/-- The components considered for row `i`, `slice_sampler.cc` 83-89. -/
def eligible (num : ℕ) (weights : List ℝ) (u : ℝ) : List ℕ :=
  (List.range num).filter (fun j => decide (u < weights.getD j 0))

/-- Move row `i` to component `cNew`, `slice_sampler.cc` 96-104. -/
def moveTo [AddGroup G] (E : Env G H Θ) (s : Alg G H Θ) (i cNew : ℕ) :
    Except Fault (Alg G H Θ) := do
  let cOld ← vget s.alloc i
  if cNew ≠ cOld then
    let al ← vset s.alloc i cNew
    let o ← vget s.clus cOld
    let o' ← o.removeDatum E s.hyp false i
    let cl := s.clus.set cOld o'
    let p ← vget cl cNew
    let p' ← p.addDatum E s.hyp false i
    .ok { s with alloc := al, clus := cl.set cNew p' }
  else .ok s

/-- One pass of the loop of `SliceSampler::sample_allocations`, `slice_sampler.cc` 78-105. Reads
of the weights beyond their number fail an assertion. -/
def sliceAllocDatum [AddGroup G] (E : Env G H Θ) (mix : SBState) (u : List ℝ) (s : Alg G H Θ)
    (i rc : ℕ) : Except Fault (Alg G H Θ) := do
  let weights := sbWeights mix
  let ui ← eigenAt u i
  if mix.num ≤ weights.length then do
    let inds := eligible mix.num weights ui
    let _ ← inds.mapM (fun j => vget s.clus j)
    let k ← categorical inds.length rc
    let cNew ← vget inds k
    moveTo E s i cNew
  else .error .assertFail

/-- `SliceSampler::sample_allocations`, `slice_sampler.cc` 75-106. -/
def sliceAllocations [AddGroup G] (E : Env G H Θ) (n : ℕ) (cat : ℕ → ℕ) (s : State G H Θ) :
    Except Fault (State G H Θ) := do
  let a ← (List.range n).foldlM (fun a i => sliceAllocDatum E s.mix s.u a i (cat i)) s.alg
  .ok { s with alg := a }

/-- `SliceSampler::step`, `slice_sampler.cc` 19-24. -/
def step [AddGroup G] (E : Env G H Θ) (prior : SBPrior) (inf : Bool) (n fuel : ℕ)
    (s : State G H Θ) (z : Noise) : Except Fault (State G H Θ) := do
  let a ← sampleUniqueValues E false z.uv s.alg
  let s ← sampleWeights E prior inf fuel z { s with alg := a }
  let s ← sampleSlice n z.unif s
  sliceAllocations E n z.cat s

/-- `SliceSampler::initialize`, `slice_sampler.cc` 11-17, after `BaseAlgorithm::initialize` left
the allocations `alg` and the mixing `mix`. If the mixing reports no components the latter calls
`set_num_components(data.rows())`, `base_algorithm.cc` 118-120, which leaves the sticks alone. -/
def initSlice (n : ℕ) (draws : ℕ → ℝ → ℝ) (alg : Alg G H Θ) (mix : SBState) :
    Except Fault (State G H Θ) :=
  sampleSlice n draws ⟨alg, if mix.num = 0 then { mix with num := n } else mix,
    List.replicate n 0⟩

end

end Bayesmix.Slice
