import Verif.Fault
import Mathlib.Algebra.Group.Defs
import Mathlib.Data.Finset.Insert
import Mathlib.Data.Finset.Basic

/-!
# Cluster objects and the allocation step of the Gibbs samplers

Model of `BaseHierarchy` / `BaseLikelihood` / `SemiConjugateUpdater` as used by
the samplers, and of the `sample_allocations`, `sample_unique_values` and `step`
functions of Neal2, Neal3, Neal8 and blocked Gibbs.

Type parameters: `G` summary statistics, `H` hyperparameters, `Θ` cluster state
(unique value).

Simplifications: arithmetic on statistics is exact (an abelian group);
`log_card` is not stored (it is a function of `card`); `dataset_ptr` is omitted;
the prior hyperparameters, shared by all clones through a `shared_ptr`, are the
single field `Alg.hyp`.
-/

namespace Bayesmix

variable {G H Θ : Type}

/-- Which family the updater of the hierarchy belongs to.  `conjugate` and
`semiConjugate` use `SemiConjugateUpdater::draw`; only `conjugate` has
`is_conjugate() = true`; `other` are Metropolis-like updaters and the FA
updater. -/
inductive UpdaterKind where
  | conjugate
  | semiConjugate
  | other
  deriving DecidableEq, Repr

/-- The problem-specific functions a hierarchy supplies, kept as parameters.
* `contrib i`: contribution of row `i` (and its covariates) to the summary
  statistics (`update_sum_stats`);
* `post h n ss`: `compute_posterior_hypers` of prior hypers `h`, cardinality `n`,
  statistics `ss`;
* `sample h r`: `prior->sample(h)` with randomness `r`;
* `otherDraw`: the draw of a non semi-conjugate updater that never throws (draws that may throw
  are in `Verif/Algo/LaplaceRun.lean`);
* `hyperUpdate`: `prior->update_hypers(states)`. -/
structure Env (G H Θ : Type) where
  kind : UpdaterKind
  contrib : Nat → G
  post : H → Int → G → H
  sample : H → Nat → Θ
  otherDraw : Θ → Int → Finset Nat → G → H → Nat → Θ
  hyperUpdate : H → List (Θ × Int) → Nat → H

/-- A hierarchy object: likelihood state, cardinality, index set and summary
statistics (`src/hierarchies/likelihoods/base_likelihood.h` 170-179), plus the
updater's saved posterior hypers
(`src/hierarchies/updaters/abstract_updater.h` 70-71). -/
structure Hier (G H Θ : Type) where
  state : Θ
  card : Int
  idx : Finset Nat
  ss : G
  saved : Bool
  ph : Option H

namespace Hier

/-- `BaseHierarchy::clone` (`src/hierarchies/base_hierarchy.h` 95-103): same
state, likelihood without data (`base_likelihood.h` 35-40), updater with
`clear_hypers` (`abstract_updater.h` 62-65, called by each updater's `clone`). -/
def clone [Zero G] (o : Hier G H Θ) : Hier G H Θ :=
  { o with card := 0, idx := ∅, ss := 0, saved := false, ph := none }

/-- `save_posterior_hypers` (`base_hierarchy.h` 316-319, `abstract_updater.h`
49-52). A non-(semi)conjugate updater throws (`abstract_updater.h` 36-46). -/
def savePosterior (E : Env G H Θ) (h : H) (o : Hier G H Θ) : Except Fault (Hier G H Θ) :=
  if E.kind = .other then .error .throw
  else .ok { o with saved := true, ph := some (E.post h o.card o.ss) }

/-- `add_datum` (`base_likelihood.h` 185-194 and `base_hierarchy.h` 295-303). -/
def addDatum [Add G] (E : Env G H Θ) (h : H) (update : Bool) (i : Nat) (o : Hier G H Θ) :
    Except Fault (Hier G H Θ) :=
  if i ∈ o.idx then .error .assertFail
  else
    let o' := { o with card := o.card + 1, ss := o.ss + E.contrib i, idx := insert i o.idx }
    if update then o'.savePosterior E h else .ok o'

/-- `remove_datum` (`base_likelihood.h` 196-206 and `base_hierarchy.h` 306-314). -/
def removeDatum [Sub G] (E : Env G H Θ) (h : H) (update : Bool) (i : Nat) (o : Hier G H Θ) :
    Except Fault (Hier G H Θ) :=
  if i ∉ o.idx then .error .assertFail
  else
    let o' := { o with card := o.card - 1, ss := o.ss - E.contrib i, idx := o.idx.erase i }
    if update then o'.savePosterior E h else .ok o'

/-- `SemiConjugateUpdater::get_posterior_hypers`
(`src/hierarchies/updaters/semi_conjugate_updater.h` 39-48): the returned hypers
and the object after the call.  A null `posterior_hypers` is dereferenced by the
caller. -/
def getPosterior (E : Env G H Θ) (h : H) (save : Bool) (o : Hier G H Θ) :
    Except Fault (H × Hier G H Θ) :=
  if !o.saved && save then
    let p := E.post h o.card o.ss
    .ok (p, { o with ph := some p })
  else if !o.saved && !save then
    .ok (E.post h o.card o.ss, o)
  else
    match o.ph with
    | some p => .ok (p, o)
    | none => .error .ub

/-- `sample_full_cond(update_params)` (`base_hierarchy.h` 219-221), that is
`SemiConjugateUpdater::draw` (`semi_conjugate_updater.h` 69-83) or the draw of
another updater. The cardinality is not touched. -/
def sampleFullCond (E : Env G H Θ) (h : H) (update : Bool) (r : Nat) (o : Hier G H Θ) :
    Except Fault (Hier G H Θ) :=
  if E.kind = .other then .ok { o with state := E.otherDraw o.state o.card o.idx o.ss h r }
  else if o.card = 0 then .ok { o with state := E.sample h r }
  else do
    let (p, o') ← o.getPosterior E h update
    .ok { o' with state := E.sample p r }

/-- `sample_prior` (`base_hierarchy.h` 215). -/
def samplePrior (E : Env G H Θ) (h : H) (r : Nat) (o : Hier G H Θ) : Hier G H Θ :=
  { o with state := E.sample h r }

end Hier

/-- The allocation state of an algorithm (`src/algorithms/base_algorithm.h`:
`allocations`, `unique_values`) and the hyperparameters shared by all
hierarchies. -/
structure Alg (G H Θ : Type) where
  alloc : List Nat
  clus : List (Hier G H Θ)
  hyp : H

/-- `MarginalAlgorithm::remove_singleton`
(`src/algorithms/marginal_algorithm.cc` 11-20). -/
def removeSingleton (s : Alg G H Θ) (idx : Nat) : Except Fault (Alg G H Θ) := do
  let cl ← verase s.clus idx
  .ok { s with alloc := s.alloc.map (fun c => if c > idx then c - 1 else c), clus := cl }

/-- Lines 30-38 of `src/algorithms/neal2_algorithm.cc` (and 48-61 of
`neal8_algorithm.cc`): take observation `i` out of its cluster. Also returns the
object it came from and whether it was a singleton. -/
def detach [Sub G] (E : Env G H Θ) (upd : Bool) (s : Alg G H Θ) (i : Nat) :
    Except Fault (Alg G H Θ × Hier G H Θ × Bool) := do
  let cOld ← vget s.alloc i
  let o ← vget s.clus cOld
  if o.card ≤ 1 then
    let s' ← removeSingleton s cOld
    .ok (s', o, true)
  else
    let o' ← o.removeDatum E s.hyp upd i
    .ok ({ s with clus := s.clus.set cOld o' }, o, false)

/-- Move observation `i` into the existing cluster `c`
(`neal2_algorithm.cc` 57-59, `neal8_algorithm.cc` 85-87). -/
def attach [Add G] (E : Env G H Θ) (upd : Bool) (s : Alg G H Θ) (i c : Nat) :
    Except Fault (Alg G H Θ) := do
  let al ← vset s.alloc i c
  let o ← vget s.clus c
  let o' ← o.addDatum E s.hyp upd i
  .ok { s with alloc := al, clus := s.clus.set c o' }

/-- One pass of the loop of `Neal2Algorithm::sample_allocations`
(`neal2_algorithm.cc` 29-61), also used by Neal3, with `upd =
update_hierarchy_params()` (`false` for Neal2, `true` for Neal3,
`neal3_algorithm.h` 40). `rc` selects the category, `rd` is the randomness of the
new unique value. Line 105 (`unique_values[0]->prior_pred_lpdf`) needs a first
cluster. -/
def neal2Datum [AddGroup G] (E : Env G H Θ) (upd : Bool) (s : Alg G H Θ) (i rc rd : Nat) :
    Except Fault (Alg G H Θ) := do
  let (s1, _, _) ← detach E upd s i
  let k := s1.clus.length
  let first ← vget s1.clus 0
  let cNew ← categorical (k + 1) rc
  if cNew = k then
    let o ← first.clone.addDatum E s1.hyp upd i
    let o ← o.sampleFullCond E s1.hyp (!upd) rd
    let cl := s1.clus ++ [o]
    let al ← vset s1.alloc i (cl.length - 1)
    .ok { s1 with alloc := al, clus := cl }
  else
    attach E upd s1 i cNew

/-- `Neal2Algorithm::sample_allocations` (`neal2_algorithm.cc` 24-62); `ω i` is
the randomness consumed for observation `i`. -/
def neal2Allocations [AddGroup G] (E : Env G H Θ) (upd : Bool) (n : Nat) (ω : Nat → Nat × Nat)
    (s : Alg G H Θ) : Except Fault (Alg G H Θ) :=
  (List.range n).foldlM (fun s i => neal2Datum E upd s i (ω i).1 (ω i).2) s

/-- Draw each unique value from its full conditional
(`neal2_algorithm.cc` 64-68, `blocked_gibbs_algorithm.cc` 46-50); `j` is the
position of the first object of the list, used to index the randomness. -/
def drawAll (E : Env G H Θ) (h : H) (upd : Bool) (r : Nat → Nat) :
    Nat → List (Hier G H Θ) → Except Fault (List (Hier G H Θ))
  | _, [] => .ok []
  | j, o :: os => do
    let o' ← o.sampleFullCond E h upd (r j)
    let os' ← drawAll E h upd r (j + 1) os
    .ok (o' :: os')

/-- `sample_unique_values` (`neal2_algorithm.cc` 64-68). -/
def sampleUniqueValues (E : Env G H Θ) (upd : Bool) (r : Nat → Nat) (s : Alg G H Θ) :
    Except Fault (Alg G H Θ) := do
  let cl ← drawAll E s.hyp (!upd) r 0 s.clus
  .ok { s with clus := cl }

/-- `update_hierarchy_hypers` (`base_algorithm.cc` 157-168): states of the
clusters with positive cardinality are given to the prior of the first object;
the hypers are shared by all objects. -/
def updateHypers (E : Env G H Θ) (r : Nat) (s : Alg G H Θ) : Except Fault (Alg G H Θ) := do
  let _ ← vget s.clus 0
  let states := (s.clus.filter fun o => o.card > 0).map fun o => (o.state, o.card)
  .ok { s with hyp := E.hyperUpdate s.hyp states r }

/-- Randomness of one iteration. -/
structure Noise where
  cat : Nat → Nat × Nat
  uv : Nat → Nat
  hyp : Nat
  aux : Nat → Nat → Nat

/-- `BaseAlgorithm::step` (`base_algorithm.h` 179-184) for Neal2 (`upd = false`)
and Neal3 (`upd = true`).  `mixing->update_state` does not touch these fields. -/
def neal2Step [AddGroup G] (E : Env G H Θ) (upd : Bool) (n : Nat) (s : Alg G H Θ) (z : Noise) :
    Except Fault (Alg G H Θ) := do
  let s ← neal2Allocations E upd n z.cat s
  let s ← sampleUniqueValues E upd z.uv s
  updateHypers E z.hyp s

/-- Neal8 state: the algorithm state and the auxiliary blocks. -/
structure Alg8 (G H Θ : Type) where
  base : Alg G H Θ
  aux : List (Hier G H Θ)

/-- `aux_unique_values[j]->sample_prior()` for `j` from `lo` on
(`neal8_algorithm.cc` 65-67). -/
def resampleAux (E : Env G H Θ) (h : H) (r : Nat → Nat) (lo : Nat) (aux : List (Hier G H Θ)) :
    List (Hier G H Θ) :=
  aux.mapIdx fun j o => if lo ≤ j then o.samplePrior E h (r j) else o

/-- `aux_unique_values[0]->set_state_from_proto(curr_val)` for a singleton
(`neal8_algorithm.cc` 51-55; `base_likelihood.h` 104-116 also copies the
cardinality). -/
def storeSingleton (aux : List (Hier G H Θ)) (old : Hier G H Θ) (singleton : Bool) :
    Except Fault (List (Hier G H Θ)) :=
  if singleton then do
    let a0 ← vget aux 0
    .ok (aux.set 0 { a0 with state := old.state, card := old.card })
  else .ok aux

/-- One pass of the loop of `Neal8Algorithm::sample_allocations`
(`neal8_algorithm.cc` 47-89). -/
def neal8Datum [AddGroup G] (E : Env G H Θ) (s : Alg8 G H Θ) (i rc : Nat) (ra : Nat → Nat) :
    Except Fault (Alg8 G H Θ) := do
  let (s1, old, singleton) ← detach E false s.base i
  let aux ← storeSingleton s.aux old singleton
  let aux := resampleAux E s1.hyp ra (if singleton then 1 else 0) aux
  let k := s1.clus.length
  let cNew ← categorical (k + aux.length) rc
  if cNew ≥ k then
    let a ← vget aux (cNew - k)
    let o ← a.clone.addDatum E s1.hyp false i
    let al ← vset s1.alloc i k
    .ok { base := { s1 with alloc := al, clus := s1.clus ++ [o] }, aux := aux }
  else
    let s2 ← attach E false s1 i cNew
    .ok { base := s2, aux := aux }

/-- `Neal8Algorithm::sample_allocations` (`neal8_algorithm.cc` 41-90). -/
def neal8Allocations [AddGroup G] (E : Env G H Θ) (n : Nat) (ω : Nat → Nat × Nat)
    (ra : Nat → Nat → Nat) (s : Alg8 G H Θ) : Except Fault (Alg8 G H Θ) :=
  (List.range n).foldlM (fun s i => neal8Datum E s i (ω i).1 (ra i)) s

/-- One iteration of Neal8 (`base_algorithm.h` 179-184). -/
def neal8Step [AddGroup G] (E : Env G H Θ) (n : Nat) (s : Alg8 G H Θ) (z : Noise) :
    Except Fault (Alg8 G H Θ) := do
  let s ← neal8Allocations E n z.cat z.aux s
  let b ← sampleUniqueValues E false z.uv s.base
  let b ← updateHypers E z.hyp b
  .ok { s with base := b }

/-- One pass of the loop of `BlockedGibbsAlgorithm::sample_allocations`
(`blocked_gibbs_algorithm.cc` 23-43), `K` being the number of components of the
mixing: evaluate the likelihood of components `0..K-1` (lines 27-30), draw a
component and move the datum if it differs from the old one. -/
def blockedDatum [AddGroup G] (E : Env G H Θ) (K : Nat) (s : Alg G H Θ) (i rc : Nat) :
    Except Fault (Alg G H Θ) := do
  if s.clus.length < K then .error .ub
  else
    let cNew ← categorical K rc
    let cOld ← vget s.alloc i
    if cNew ≠ cOld then
      let al ← vset s.alloc i cNew
      let o ← vget s.clus cOld
      let o' ← o.removeDatum E s.hyp false i
      let cl := s.clus.set cOld o'
      let p ← vget cl cNew
      let p' ← p.addDatum E s.hyp false i
      .ok { s with alloc := al, clus := cl.set cNew p' }
    else .ok s

/-- `BlockedGibbsAlgorithm::sample_allocations` (`blocked_gibbs_algorithm.cc`
20-44). -/
def blockedAllocations [AddGroup G] (E : Env G H Θ) (K n : Nat) (ω : Nat → Nat × Nat)
    (s : Alg G H Θ) : Except Fault (Alg G H Θ) :=
  (List.range n).foldlM (fun s i => blockedDatum E K s i (ω i).1) s

/-- `ConditionalAlgorithm::step` (`conditional_algorithm.h` 54-59) for blocked
Gibbs; `sample_weights` only changes the mixing. -/
def blockedStep [AddGroup G] (E : Env G H Θ) (K n : Nat) (s : Alg G H Θ) (z : Noise) :
    Except Fault (Alg G H Θ) := do
  let s ← blockedAllocations E K n z.cat s
  let s ← sampleUniqueValues E false z.uv s
  updateHypers E z.hyp s

/-- A run: iterate a step function over the noise of the iterations, collecting
nothing; any fault stops it. -/
def iterate {S : Type} (step : S → Noise → Except Fault S) (s : S) (zs : List Noise) :
    Except Fault S :=
  zs.foldlM step s

end Bayesmix
