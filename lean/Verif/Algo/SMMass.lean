import Verif.Algo.SplitMerge
import Verif.Algo.MassRun

/-!
# The split-merge sampler that asks the mixing for its masses

`Algo/SplitMerge.lean` takes the masses of the mixing from `Scores`, which cannot fail and do not change
the mixing. Here they come from `MixOps`: asking for a mass may fail and may change mutable members of the
mixing object, which is handed on from call to call. All else is as in `Algo/SplitMerge.lean`; the
definitions have the names used there with `M` added.
-/

namespace Bayesmix.SplitMerge
open Bayesmix.Density

noncomputable section

variable {G H Θ σ : Type}

/-- Scores without masses: only the predictive densities. -/
def predOnly (pred : H → ℕ → ℝ) : Scores H := ⟨pred, fun _ _ _ => 0, fun _ _ => 0⟩

/-- Body of the loop of `restricted_gs`, `split_and_merge_algorithm.cc` 305-341; the masses are those of
lines 311-313 and 316-318. -/
def restrictedStepM [AddGroup G] (E : Env G H Θ) (pred : H → ℕ → ℝ) (M : MixOps σ) (s : Alg G H Θ)
    (first : ℕ) (ret toOrig : Bool) (r : ℕ → ℕ) (x : σ × Launch G H Θ × ℝ) (k : ℕ) :
    Except Fault (σ × Launch G H Θ × ℝ) := do
  let L := x.2.1
  let c ← vget L.lab k
  let y ← vget L.rows k
  let o ← (L.vals c).removeDatum E s.hyp true y
  let vals := Function.update L.vals c o
  let m0 ← M.existing x.1 (L.rows.length + 2 - 1) 2 (vals false).card.toNat
  let p0 ← condPred E (predOnly pred) s.hyp (vals false) y
  let m1 ← M.existing m0.2 (L.rows.length + 2 - 1) 2 (vals true).card.toNat
  let p1 ← condPred E (predOnly pred) s.hyp (vals true) y
  let l : Bool → ℝ := fun b => (if b then m1.1 else m0.1).toReal + (if b then p1 else p0)
  let cNew ← if toOrig then (do
      let a ← vget s.alloc y
      let b ← vget s.alloc first
      .ok (decide (a ≠ b)))
    else .ok (decide (r k % 2 = 1))
  let acc := if ret then x.2.2 + logProba l cNew else x.2.2
  let lab ← vset L.lab k cNew
  let o' ← (vals cNew).addDatum E s.hyp true y
  .ok (m1.2, { L with lab := lab, vals := Function.update vals cNew o' }, acc)

/-- `restricted_gs`, lines 298-344. -/
def restrictedGsM [AddGroup G] (E : Env G H Θ) (pred : H → ℕ → ℝ) (M : MixOps σ) (s : Alg G H Θ)
    (first : ℕ) (ret toOrig : Bool) (r : ℕ → ℕ) (x : σ × Launch G H Θ) :
    Except Fault (σ × Launch G H Θ × ℝ) :=
  (List.range x.2.rows.length).foldlM (restrictedStepM E pred M s first ret toOrig r) (x.1, x.2, 0)

/-- Body of the inner loop of `compute_log_ratios`, lines 193-212. -/
def ratioAddM [Add G] (E : Env G H Θ) (pred : H → ℕ → ℝ) (M : MixOps σ) (h : H) (n : ℕ) (c : Bool)
    (x : σ × Ratios G H Θ) (y : ℕ) : Except Fault (σ × Ratios G H Θ) := do
  let R := x.2
  let pd ← condPred E (predOnly pred) h (R.div c) y
  let m0 ← M.existing x.1 n 2 (R.div c).card.toNat
  let od ← (R.div c).addDatum E h true y
  let pu ← condPred E (predOnly pred) h R.uni y
  let m1 ← M.existing m0.2 n 2 R.uni.card.toNat
  let ou ← R.uni.addDatum E h true y
  .ok (m1.2, ⟨Function.update R.div c od, ou, Function.update R.predDiv c (R.predDiv c + pd),
    R.predUni + pu, R.prior + m0.1.toReal - m1.1.toReal⟩)

/-- Body of the outer loop of `compute_log_ratios`, lines 159-213. -/
def ratioClusterM [Add G] (E : Env G H Θ) (pred : H → ℕ → ℝ) (M : MixOps σ) (s : Alg G H Θ)
    (L : Launch G H Θ) (split : Bool) (x : σ × Ratios G H Θ) (c : Bool) (row : ℕ) :
    Except Fault (σ × Ratios G H Θ) := do
  let R := x.2
  let n := s.alloc.length
  let predDiv := Function.update R.predDiv c (R.predDiv c + pred s.hyp row)
  let od ← (R.div c).addDatum E s.hyp true row
  let pp ← if R.uni.card = 0 then .ok (x.1, R.predUni + pred s.hyp row, R.prior)
    else (do
      let p ← condPred E (predOnly pred) s.hyp R.uni row
      let m ← M.existing x.1 n 2 R.uni.card.toNat
      .ok (m.2, R.predUni + p, R.prior - m.1.toReal))
  let ou ← R.uni.addDatum E s.hyp true row
  let cyc ← if split then .ok ((L.vals c).idx.erase row)
    else (do
      let a ← vget s.alloc row
      let o ← vget s.clus a
      .ok o.idx)
  ((cyc.erase row).sort (· ≤ ·)).foldlM (ratioAddM E pred M s.hyp n c)
    (pp.1, ⟨Function.update R.div c od, ou, predDiv, pp.2.1, pp.2.2⟩)

/-- `compute_log_ratios`, lines 132-223; the mass of a new cluster is that of line 153. -/
def logRatiosM [AddZeroClass G] (E : Env G H Θ) (pred : H → ℕ → ℝ) (M : MixOps σ) (s : Alg G H Θ)
    (L : Launch G H Θ) (i j : ℕ) (split : Bool) (mx : σ) : Except Fault (σ × ℝ × ℝ) := do
  let o ← vget s.clus 0
  let m ← M.new mx s.alloc.length 2
  let R ← ratioClusterM E pred M s L split
    (m.2, ⟨fun _ => o.clone, o.clone, fun _ => 0, 0, m.1.toReal⟩) false i
  let R ← ratioClusterM E pred M s L split R true j
  let lik := R.2.predDiv false + R.2.predDiv true - R.2.predUni
  .ok (R.1, if split then (lik, R.2.prior) else (-lik, -R.2.prior))

/-- `split_or_merge` without the decision, lines 228-243. -/
def logArateM [AddGroup G] (E : Env G H Θ) (pred : H → ℕ → ℝ) (M : MixOps σ) (s : Alg G H Θ)
    (x : σ × Launch G H Θ) (i j : ℕ) (r : ℕ → ℕ) : Except Fault (σ × Bool × Launch G H Θ × ℝ) := do
  let a ← vget s.alloc i
  let b ← vget s.alloc j
  let split := decide (a = b)
  let La ← restrictedGsM E pred M s i true (!split) r x
  let trans := if split then La.2.2 * -1 else La.2.2
  let ratio ← logRatiosM E pred M s La.2.1 i j split La.1
  .ok (ratio.1, split, La.2.1, trans + ratio.2.2 + ratio.2.1)

open Classical in
/-- `split_or_merge`, lines 225-248. -/
def splitOrMergeM [AddGroup G] (E : Env G H Θ) (pred : H → ℕ → ℝ) (M : MixOps σ) (s : Alg G H Θ)
    (x : σ × Launch G H Θ) (i j : ℕ) (r : ℕ → ℕ) (u : ℝ) : Except Fault (σ × Alg G H Θ) := do
  let A ← logArateM E pred M s x i j r
  let s' ← if u = 0 ∨ Real.log u < A.2.2.2 then proposalUpdate E s A.2.2.1 i j A.2.1 else .ok s
  .ok (A.1, s')

/-- The launch state after the restricted scans, lines 42-48. -/
def launchM [AddGroup G] (E : Env G H Θ) (pred : H → ℕ → ℝ) (M : MixOps σ) (nRestr : ℕ)
    (s : Alg G H Θ) (i j : ℕ) (z : MHNoise) (mx : σ) : Except Fault (σ × Launch G H Θ) := do
  let rows ← launchRows s i j
  let L ← launchValues E s i j rows z.launch
  (List.range nRestr).foldlM (fun x t => do
    let La ← restrictedGsM E pred M s i false false (z.scan t) x
    .ok (La.1, La.2.1)) (mx, L)

/-- One pass of the first loop of `sample_allocations`, lines 30-51. -/
def mhUpdateM [AddGroup G] (E : Env G H Θ) (pred : H → ℕ → ℝ) (M : MixOps σ) (nRestr n : ℕ)
    (x : σ × Alg G H Θ) (z : MHNoise) : Except Fault (σ × Alg G H Θ) := do
  let ij ← pickPair n z.first z.second
  let L ← launchM E pred M nRestr x.2 ij.1 ij.2 z x.1
  splitOrMergeM E pred M x.2 L ij.1 ij.2 z.last z.u

/-- `BaseAlgorithm::step` (`base_algorithm.h` 179-184) with `sample_allocations` (lines 26-57) and
`full_gs` (lines 347-387, the masses in 363-369). `U` is `mixing->update_state`. -/
def stepM [AddGroup G] (E : Env G H Θ) (pred : H → ℕ → ℝ) (M : MixOps σ)
    (U : σ → Alg G H Θ → SMNoise → σ) (nRestr n : ℕ) (x : σ × Alg G H Θ) (z : SMNoise) :
    Except Fault (σ × Alg G H Θ) := do
  let x ← z.mh.foldlM (mhUpdateM E pred M nRestr n) x
  let x ← z.full.foldlM (fun x ω => massAllocations E M true n ω x) x
  let s ← sampleUniqueValues E true z.uv x.2
  let s ← updateHypers E z.hyp s
  .ok (U x.1 s z, s)

end

end Bayesmix.SplitMerge
