import Verif.Alloc.Model
import Mathlib.Data.Finset.Sort
import Mathlib.Logic.Function.Basic
import Mathlib.Analysis.SpecialFunctions.Log.Basic

/-!
# The split-merge sampler (`src/algorithms/split_and_merge_algorithm.cc`)

`update_hierarchy_params()` is `true` (`split_and_merge_algorithm.h` 51), and is written so.

Simplifications: `restricted_gs_unique_values` always holds two objects and
`allocations_restricted_gs` is a `vector<bool>`, so the two temporary clusters are indexed by
`Bool` (`false` is 0, `true` is 1). The sampler passes no covariates (none of its calls has that
argument), so `Env.contrib` and `Scores.pred` are those of a hierarchy without covariates.
-/

namespace Bayesmix.SplitMerge

variable {G H Θ : Type}

/-- The numbers the sampler gets from the hierarchy and from the mixing.
* `pred h i`: `get_marg_lpdf(h, data.row(i))`, used by `prior_pred_lpdf` and
  `conditional_pred_lpdf` (`src/hierarchies/base_hierarchy.h` 149-153, 190-195);
* `exist n k card`: `get_mass_existing_cluster(n, k, true, true, hier)`, which looks at the
  cardinality of the hierarchy;
* `fresh n k`: `get_mass_new_cluster(n, k, true, true)`. -/
structure Scores (H : Type) where
  pred : H → ℕ → ℝ
  exist : ℕ → ℕ → ℤ → ℝ
  fresh : ℕ → ℕ → ℝ

/-- `restricted_gs_data_idx`, `allocations_restricted_gs`, `restricted_gs_unique_values`
(`split_and_merge_algorithm.h` 106-127). -/
structure Launch (G H Θ : Type) where
  rows : List ℕ
  lab : List Bool
  vals : Bool → Hier G H Θ

/-- The two observations, `split_and_merge_algorithm.cc` 31-40. -/
def pickPair (n r1 r2 : ℕ) : Except Fault (ℕ × ℕ) := do
  let i ← categorical n r1
  let j ← categorical (n - 1) r2
  .ok (i, if j ≥ i then j + 1 else j)

/-- `compute_restricted_gs_data_idx`, lines 71-94; a `std::set` is iterated in increasing
order. -/
def launchRows (s : Alg G H Θ) (i j : ℕ) : Except Fault (List ℕ) := do
  let a ← vget s.alloc i
  let b ← vget s.alloc j
  let oa ← vget s.clus a
  if a = b then .ok (((oa.idx.erase i).erase j).sort (· ≤ ·))
  else
    let ob ← vget s.clus b
    .ok ((((oa.idx ∪ ob.idx).erase i).erase j).sort (· ≤ ·))

/-- Body of the loop of `compute_restricted_gs_unique_values`, lines 110-122: the row is put into
one of the two temporary clusters. -/
def launchAdd [Add G] (E : Env G H Θ) (h : H) (r : ℕ → ℕ) (L : Launch G H Θ) (k : ℕ) :
    Except Fault (Launch G H Θ) := do
  let x ← vget L.rows k
  let c := decide (r k % 2 = 1)
  let o ← (L.vals c).addDatum E h false x
  let lab ← vset L.lab k c
  .ok { L with lab := lab, vals := Function.update L.vals c o }

/-- `compute_restricted_gs_unique_values`, lines 96-130. -/
def launchValues [AddZeroClass G] (E : Env G H Θ) (s : Alg G H Θ) (i j : ℕ) (rows : List ℕ)
    (r : ℕ → ℕ) : Except Fault (Launch G H Θ) := do
  let o ← vget s.clus 0
  let L ← (List.range rows.length).foldlM (launchAdd E s.hyp r)
    ⟨rows, List.replicate rows.length false, fun _ => o.clone⟩
  let o0 ← (L.vals false).addDatum E s.hyp true i
  let L := { L with vals := Function.update L.vals false o0 }
  let o1 ← (L.vals true).addDatum E s.hyp true j
  .ok { L with vals := Function.update L.vals true o1 }

/-- `log(softmax(logprobas)(c))` for two log probabilities, lines 321, 333. -/
noncomputable def logProba (l : Bool → ℝ) (c : Bool) : ℝ :=
  Real.log (Real.exp (l c) / (Real.exp (l false) + Real.exp (l true)))

/-- `conditional_pred_lpdf(data.row(x))`, `base_hierarchy.h` 190-195. -/
noncomputable def condPred (E : Env G H Θ) (S : Scores H) (h : H) (o : Hier G H Θ) (x : ℕ) :
    Except Fault ℝ := do
  let p ← o.getPosterior E h false
  .ok (S.pred p.1 x)

/-- Body of the loop of `restricted_gs`, lines 305-341, with the running `log_res_prod`.
`first` is `first_random_idx`, `toOrig` is `step_to_original_clust`. -/
noncomputable def restrictedStep [AddGroup G] (E : Env G H Θ) (S : Scores H) (s : Alg G H Θ)
    (first : ℕ) (ret toOrig : Bool) (r : ℕ → ℕ) (La : Launch G H Θ × ℝ) (k : ℕ) :
    Except Fault (Launch G H Θ × ℝ) := do
  let L := La.1
  let c ← vget L.lab k
  let x ← vget L.rows k
  let o ← (L.vals c).removeDatum E s.hyp true x
  let vals := Function.update L.vals c o
  let p0 ← condPred E S s.hyp (vals false) x
  let p1 ← condPred E S s.hyp (vals true) x
  let l : Bool → ℝ := fun b =>
    S.exist (L.rows.length + 2 - 1) 2 (vals b).card + (if b then p1 else p0)
  let cNew ← if toOrig then (do
      let a ← vget s.alloc x
      let b ← vget s.alloc first
      .ok (decide (a ≠ b)))
    else .ok (decide (r k % 2 = 1))
  let acc := if ret then La.2 + logProba l cNew else La.2
  let lab ← vset L.lab k cNew
  let o' ← (vals cNew).addDatum E s.hyp true x
  .ok ({ L with lab := lab, vals := Function.update vals cNew o' }, acc)

/-- `restricted_gs`, lines 298-344. -/
noncomputable def restrictedGs [AddGroup G] (E : Env G H Θ) (S : Scores H) (s : Alg G H Θ)
    (first : ℕ) (ret toOrig : Bool) (r : ℕ → ℕ) (L : Launch G H Θ) :
    Except Fault (Launch G H Θ × ℝ) :=
  (List.range L.rows.length).foldlM (restrictedStep E S s first ret toOrig r) (L, 0)

/-- Local variables of `compute_log_ratios`. -/
structure Ratios (G H Θ : Type) where
  div : Bool → Hier G H Θ
  uni : Hier G H Θ
  predDiv : Bool → ℝ
  predUni : ℝ
  prior : ℝ

/-- Body of the inner loop of `compute_log_ratios`, lines 193-212. -/
noncomputable def ratioAdd [Add G] (E : Env G H Θ) (S : Scores H) (h : H) (n : ℕ) (c : Bool)
    (R : Ratios G H Θ) (x : ℕ) : Except Fault (Ratios G H Θ) := do
  let pd ← condPred E S h (R.div c) x
  let prior := R.prior + S.exist n 2 (R.div c).card
  let od ← (R.div c).addDatum E h true x
  let pu ← condPred E S h R.uni x
  let prior := prior - S.exist n 2 R.uni.card
  let ou ← R.uni.addDatum E h true x
  .ok ⟨Function.update R.div c od, ou, Function.update R.predDiv c (R.predDiv c + pd),
    R.predUni + pu, prior⟩

/-- Body of the outer loop of `compute_log_ratios`, lines 159-213; `row` is
`random_idxs[clust_idx]`. -/
noncomputable def ratioCluster [Add G] (E : Env G H Θ) (S : Scores H) (s : Alg G H Θ)
    (L : Launch G H Θ) (split : Bool) (R : Ratios G H Θ) (c : Bool) (row : ℕ) :
    Except Fault (Ratios G H Θ) := do
  let n := s.alloc.length
  let predDiv := Function.update R.predDiv c (R.predDiv c + S.pred s.hyp row)
  let od ← (R.div c).addDatum E s.hyp true row
  let pp ← if R.uni.card = 0 then .ok (R.predUni + S.pred s.hyp row, R.prior)
    else (do
      let p ← condPred E S s.hyp R.uni row
      .ok (R.predUni + p, R.prior - S.exist n 2 R.uni.card))
  let ou ← R.uni.addDatum E s.hyp true row
  let cyc ← if split then .ok ((L.vals c).idx.erase row)
    else (do
      let a ← vget s.alloc row
      let o ← vget s.clus a
      .ok o.idx)
  ((cyc.erase row).sort (· ≤ ·)).foldlM (ratioAdd E S s.hyp n c)
    ⟨Function.update R.div c od, ou, predDiv, pp.1, pp.2⟩

/-- `compute_log_ratios`, lines 132-223: log likelihood ratio and log prior ratio. -/
noncomputable def logRatios [AddZeroClass G] (E : Env G H Θ) (S : Scores H) (s : Alg G H Θ)
    (L : Launch G H Θ) (i j : ℕ) (split : Bool) : Except Fault (ℝ × ℝ) := do
  let o ← vget s.clus 0
  let R ← ratioCluster E S s L split
    ⟨fun _ => o.clone, o.clone, fun _ => 0, 0, S.fresh s.alloc.length 2⟩ false i
  let R ← ratioCluster E S s L split R true j
  let lik := R.predDiv false + R.predDiv true - R.predUni
  .ok (if split then (lik, R.prior) else (-lik, -R.prior))

/-- Loop of `proposal_update_allocations`, lines 273-295, over the rows to move, with
`label_old_cluster` and `label_new_cluster`. The last row is treated differently. -/
def moveRows [AddGroup G] (E : Env G H Θ) (split : Bool) (second old new : ℕ) :
    List ℕ → Alg G H Θ → Except Fault (Alg G H Θ)
  | [], s => .ok s
  | [x], s => do
    let (s, new) ← if split then (do
        let o ← vget s.clus old
        let o ← o.removeDatum E s.hyp true x
        .ok ({ s with clus := s.clus.set old o }, new))
      else (do
        let s ← removeSingleton s old
        let new ← vget s.alloc second
        .ok (s, new))
    let o ← vget s.clus new
    let o ← o.addDatum E s.hyp true x
    let al ← vset s.alloc x new
    .ok { s with alloc := al, clus := s.clus.set new o }
  | x :: y :: l, s => do
    let o ← vget s.clus old
    let o ← o.removeDatum E s.hyp false x
    let s : Alg G H Θ := { s with clus := s.clus.set old o }
    let o ← vget s.clus new
    let o ← o.addDatum E s.hyp false x
    let al ← vset s.alloc x new
    moveRows E split second old new (y :: l) { s with alloc := al, clus := s.clus.set new o }

/-- `proposal_update_allocations`, lines 250-296. -/
def proposalUpdate [AddGroup G] (E : Env G H Θ) (s : Alg G H Θ) (L : Launch G H Θ) (i j : ℕ)
    (split : Bool) : Except Fault (Alg G H Θ) := do
  let old ← vget s.alloc i
  if split then
    let o ← vget s.clus 0
    moveRows E true j old s.clus.length ((L.vals false).idx.sort (· ≤ ·))
      { s with clus := s.clus ++ [o.clone] }
  else
    let new ← vget s.alloc j
    let o ← vget s.clus old
    moveRows E false j old new (o.idx.sort (· ≤ ·)) s

/-- `split_or_merge` without the decision, lines 228-243: the final scan's launch state and
`log_arate`. -/
noncomputable def logArate [AddGroup G] (E : Env G H Θ) (S : Scores H) (s : Alg G H Θ)
    (L : Launch G H Θ) (i j : ℕ) (r : ℕ → ℕ) : Except Fault (Bool × Launch G H Θ × ℝ) := do
  let a ← vget s.alloc i
  let b ← vget s.alloc j
  let split := decide (a = b)
  let La ← restrictedGs E S s i true (!split) r L
  let trans := if split then La.2 * -1 else La.2
  let ratio ← logRatios E S s La.1 i j split
  .ok (split, La.1, trans + ratio.2 + ratio.1)

open Classical in
/-- `split_or_merge`, lines 225-248; `u` is the uniform draw (its logarithm is `-inf` at 0). -/
noncomputable def splitOrMerge [AddGroup G] (E : Env G H Θ) (S : Scores H) (s : Alg G H Θ)
    (L : Launch G H Θ) (i j : ℕ) (r : ℕ → ℕ) (u : ℝ) : Except Fault (Alg G H Θ) := do
  let A ← logArate E S s L i j r
  if u = 0 ∨ Real.log u < A.2.2 then proposalUpdate E s A.2.1 i j A.1 else .ok s

/-- Randomness of one Metropolis-Hastings update. -/
structure MHNoise where
  first : ℕ
  second : ℕ
  launch : ℕ → ℕ
  scan : ℕ → ℕ → ℕ
  last : ℕ → ℕ
  u : ℝ

/-- The launch state after the restricted scans, lines 42-48. -/
noncomputable def launch [AddGroup G] (E : Env G H Θ) (S : Scores H) (nRestr : ℕ)
    (s : Alg G H Θ) (i j : ℕ) (z : MHNoise) : Except Fault (Launch G H Θ) := do
  let rows ← launchRows s i j
  let L ← launchValues E s i j rows z.launch
  (List.range nRestr).foldlM (fun L t => do
    let La ← restrictedGs E S s i false false (z.scan t) L
    .ok La.1) L

/-- One pass of the first loop of `sample_allocations`, lines 30-51. -/
noncomputable def mhUpdate [AddGroup G] (E : Env G H Θ) (S : Scores H) (nRestr n : ℕ)
    (s : Alg G H Θ) (z : MHNoise) : Except Fault (Alg G H Θ) := do
  let ij ← pickPair n z.first z.second
  let L ← launch E S nRestr s ij.1 ij.2 z
  splitOrMerge E S s L ij.1 ij.2 z.last z.u

/-- Randomness of one iteration; the numbers of updates are those of the two lists
(`n_mh_updates`, `n_full_gs_updates`). -/
structure SMNoise where
  mh : List MHNoise
  full : List (ℕ → ℕ × ℕ)
  uv : ℕ → ℕ
  hyp : ℕ

/-- `BaseAlgorithm::step` (`base_algorithm.h` 179-184) with `sample_allocations` (lines 26-57).
`full_gs` (lines 347-387) has the text of `Neal2Algorithm::sample_allocations` and is modelled by
`neal2Allocations`. -/
noncomputable def step [AddGroup G] (E : Env G H Θ) (S : Scores H) (nRestr n : ℕ)
    (s : Alg G H Θ) (z : SMNoise) : Except Fault (Alg G H Θ) := do
  let s ← z.mh.foldlM (mhUpdate E S nRestr n) s
  let s ← z.full.foldlM (fun s ω => neal2Allocations E true n ω s) s
  let s ← sampleUniqueValues E true z.uv s
  updateHypers E z.hyp s

end Bayesmix.SplitMerge
