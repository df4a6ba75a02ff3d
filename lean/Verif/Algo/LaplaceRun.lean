import Verif.Alloc.Run
import Verif.Algo.Slice
import Verif.Hier.MetropolisState

/-!
# Iterations with an updater that may throw

`Env.otherDraw` stands for updaters whose draws never throw. Here the draw may throw; the other
parts of the iterations are those of `Verif.Alloc.Model` and `Verif.Algo.Slice`, which read
`Env.otherDraw` nowhere else.
-/

namespace Bayesmix.Chain

open Bayesmix Hierarchies Mixing

variable {G H Θ : Type}

/-- `updater->draw(*like, *prior, update_params)`, `src/hierarchies/base_hierarchy.h` 219-221, for
an updater that is not semi-conjugate: from state, cardinality, indexes, statistics, prior hypers
and randomness to the new state. -/
abbrev Draw (G H Θ : Type) := Θ → Int → Finset Nat → G → H → Nat → Except Fault Θ

/-- `sample_unique_values`, `src/algorithms/neal2_algorithm.cc` 64-68 and
`src/algorithms/blocked_gibbs_algorithm.cc` 46-50; an exception ends the loop. -/
def drawAllE (D : Draw G H Θ) (h : H) (r : Nat → Nat) :
    Nat → List (Hier G H Θ) → Except Fault (List (Hier G H Θ))
  | _, [] => .ok []
  | j, o :: os => do
    let θ ← D o.state o.card o.idx o.ss h (r j)
    let os' ← drawAllE D h r (j + 1) os
    .ok ({ o with state := θ } :: os')

/-- One iteration of Neal8, `src/algorithms/base_algorithm.h` 179-184. -/
def neal8StepE [AddGroup G] (E : Env G H Θ) (D : Draw G H Θ) (n : Nat) (s : Alg8 G H Θ)
    (z : Bayesmix.Noise) : Except Fault (Alg8 G H Θ) := do
  let s ← neal8Allocations E n z.cat z.aux s
  let cl ← drawAllE D s.base.hyp z.uv 0 s.base.clus
  let b ← updateHypers E z.hyp { s.base with clus := cl }
  .ok { s with base := b }

/-- One iteration of blocked Gibbs, `src/algorithms/conditional_algorithm.h` 54-59. -/
def blockedStepE [AddGroup G] (E : Env G H Θ) (D : Draw G H Θ) (K n : Nat) (s : Alg G H Θ)
    (z : Bayesmix.Noise) : Except Fault (Alg G H Θ) := do
  let s ← blockedAllocations E K n z.cat s
  let cl ← drawAllE D s.hyp z.uv 0 s.clus
  updateHypers E z.hyp { s with clus := cl }

/-- One iteration of the slice sampler, `src/algorithms/slice_sampler.cc` 19-24. -/
noncomputable def sliceStepE [AddGroup G] (E : Env G H Θ) (D : Draw G H Θ) (prior : SBPrior)
    (inf : Bool) (n fuel : ℕ) (s : Slice.State G H Θ) (z : Slice.Noise) :
    Except Fault (Slice.State G H Θ) := do
  let cl ← drawAllE D s.alg.hyp z.uv 0 s.alg.clus
  let s ← Slice.sampleWeights E prior inf fuel z { s with alg := { s.alg with clus := cl } }
  let s ← Slice.sampleSlice n z.unif s
  Slice.sliceAllocations E n z.cat s

/-- The randomness of a Metropolis draw: normal draws, the uniform draw, and the first values of
the two accumulators. -/
structure MetNoise where
  z : Nat → Fin 2 → ℝ
  u : Nat → ℝ
  g1 : Nat → ℝ
  g2 : Nat → ℝ

/-- The cluster that the likelihood of a hierarchy object holds. -/
noncomputable def laplaceCluster (st : UniLS) (card : Int) (idx : Finset Nat) :
    Cluster Unit UniLS :=
  ⟨card, logCardOf card, idx.map Nat.castEmbedding, (), st⟩

/-- `MetropolisUpdater::draw`, `src/hierarchies/updaters/metropolis_updater.h` 31-50, in a
`LapNIGHierarchy`, with the proposal `q` of the updater. -/
noncomputable def laplaceDraw (data : ℤ → ℝ) (q : Cluster Unit UniLS → NxIG → Proposal 2)
    (w : MetNoise) : Draw Unit NxIG UniLS := fun st card idx _ h r =>
  uniDraw (fun x => laplaceClusterLpdf data (laplaceCluster st card idx) (x 0) (x 1))
    (q (laplaceCluster st card idx) h) (w.z r) (w.u r) (w.g1 r) (w.g2 r) st

/-! ### Lemmas -/

/-- The environment with the draw `d`. -/
def withDraw (E : Env G H Θ) (d : Θ → Int → Finset Nat → G → H → Nat → Θ) : Env G H Θ :=
  { E with otherDraw := d }

theorem drawAllE_total {E : Env G H Θ} (hE : E.kind = .other) {D : Draw G H Θ}
    (hD : ∀ θ c i g h r, D θ c i g h r = .ok (E.otherDraw θ c i g h r)) (h : H) (upd : Bool)
    (r : ℕ → ℕ) (l : List (Hier G H Θ)) : ∀ j, drawAllE D h r j l = drawAll E h upd r j l := by
  induction l with
  | nil => intro j; rfl
  | cons o os ih =>
    intro j
    simp only [drawAllE, drawAll, Hier.sampleFullCond, hE, if_true, hD, ok_bind, ih]

theorem neal8StepE_total [AddGroup G] {E : Env G H Θ} (hE : E.kind = .other) {D : Draw G H Θ}
    (hD : ∀ θ c i g h r, D θ c i g h r = .ok (E.otherDraw θ c i g h r)) (n : ℕ) (s : Alg8 G H Θ)
    (z : Bayesmix.Noise) : neal8StepE E D n s z = neal8Step E n s z := by
  unfold neal8StepE neal8Step
  refine bind_congr fun s1 => ?_
  rw [drawAllE_total hE hD _ (!false)]
  unfold sampleUniqueValues
  cases drawAll E s1.base.hyp (!false) z.uv 0 s1.base.clus <;> rfl

theorem blockedStepE_total [AddGroup G] {E : Env G H Θ} (hE : E.kind = .other) {D : Draw G H Θ}
    (hD : ∀ θ c i g h r, D θ c i g h r = .ok (E.otherDraw θ c i g h r)) (K n : ℕ)
    (s : Alg G H Θ) (z : Bayesmix.Noise) : blockedStepE E D K n s z = blockedStep E K n s z := by
  unfold blockedStepE blockedStep
  refine bind_congr fun s1 => ?_
  rw [drawAllE_total hE hD _ (!false)]
  unfold sampleUniqueValues
  cases drawAll E s1.hyp (!false) z.uv 0 s1.clus <;> rfl

theorem sliceStepE_total [AddGroup G] {E : Env G H Θ} (hE : E.kind = .other) {D : Draw G H Θ}
    (hD : ∀ θ c i g h r, D θ c i g h r = .ok (E.otherDraw θ c i g h r)) (prior : SBPrior)
    (inf : Bool) (n fuel : ℕ) (s : Slice.State G H Θ) (z : Slice.Noise) :
    sliceStepE E D prior inf n fuel s z = Slice.step E prior inf n fuel s z := by
  unfold sliceStepE Slice.step
  rw [drawAllE_total hE hD _ (!false)]
  unfold sampleUniqueValues
  cases drawAll E s.alg.hyp (!false) z.uv 0 s.alg.clus <;> rfl

/-- Iterations read the draw of the environment nowhere else. -/
theorem neal8StepE_withDraw [AddGroup G] (E : Env G H Θ) (D : Draw G H Θ)
    (d : Θ → Int → Finset Nat → G → H → Nat → Θ) (n : ℕ) (s : Alg8 G H Θ) (z : Bayesmix.Noise) :
    neal8StepE (withDraw E d) D n s z = neal8StepE E D n s z := rfl

theorem blockedStepE_withDraw [AddGroup G] (E : Env G H Θ) (D : Draw G H Θ)
    (d : Θ → Int → Finset Nat → G → H → Nat → Θ) (K n : ℕ) (s : Alg G H Θ) (z : Bayesmix.Noise) :
    blockedStepE (withDraw E d) D K n s z = blockedStepE E D K n s z := rfl

theorem pushNew_withDraw [Zero G] (E : Env G H Θ) (d : Θ → Int → Finset Nat → G → H → Nat → Θ)
    (h : H) (r : ℕ → ℕ) (k : ℕ) (cl : List (Hier G H Θ)) :
    Slice.pushNew (withDraw E d) h r k cl = Slice.pushNew E h r k cl := by
  induction k with
  | zero => rfl
  | succ k ih => simp only [Slice.pushNew, ih]; rfl

theorem sliceStepE_withDraw [AddGroup G] (E : Env G H Θ) (D : Draw G H Θ)
    (d : Θ → Int → Finset Nat → G → H → Nat → Θ) (prior : SBPrior) (inf : Bool) (n fuel : ℕ)
    (s : Slice.State G H Θ) (z : Slice.Noise) :
    sliceStepE (withDraw E d) D prior inf n fuel s z = sliceStepE E D prior inf n fuel s z := by
  simp only [sliceStepE, Slice.sampleWeights, pushNew_withDraw]
  rfl

theorem drawAllE_throw {D : Draw G H Θ} (hD : ∀ θ c i g h r, D θ c i g h r = .error .throw) (h : H)
    (r : ℕ → ℕ) {l : List (Hier G H Θ)} (hl : 0 < l.length) (j : ℕ) :
    drawAllE D h r j l = .error .throw := by
  cases l with
  | nil => simp at hl
  | cons o os => simp only [drawAllE, hD, error_bind]

theorem neal8StepE_throw [AddCommGroup G] {E : Env G H Θ} {D : Draw G H Θ}
    (hD : ∀ θ c i g h r, D θ c i g h r = .error .throw) {n : ℕ} {s : Alg8 G H Θ}
    (z : Bayesmix.Noise) (hn : 0 < n) (haux : 0 < s.aux.length)
    (hs : MarginalOk E.contrib n s.base) : neal8StepE E D n s z = .error .throw := by
  obtain ⟨s1, e1, h1, -⟩ := foldlM_range_inv
    (fun s i => neal8Datum E s i (z.cat i).1 (z.aux i))
    (fun _ s' => MarginalOk E.contrib n s'.base ∧ s'.aux.length = s.aux.length) n (by
      rintro i s' hi ⟨h1, h2⟩
      obtain ⟨s'', e, hr, hne, hl⟩ := neal8Datum_ok (z.cat i).1 (z.aux i) (by omega) h1 hi
      exact ⟨s'', e, ⟨hr.cons, hne, hr.caches⟩, by omega⟩) s ⟨hs, rfl⟩
  have e1' : neal8Allocations E n z.cat z.aux s = .ok s1 := e1
  rw [neal8StepE, e1', ok_bind, drawAllE_throw hD _ _ (clus_pos h1.cons hn), error_bind]

theorem blockedStepE_throw [AddCommGroup G] {E : Env G H Θ} {D : Draw G H Θ}
    (hD : ∀ θ c i g h r, D θ c i g h r = .error .throw) {K n : ℕ} {s : Alg G H Θ}
    (z : Bayesmix.Noise) (hn : 0 < n) (hK : s.clus.length = K) (hc : Consistent E.contrib n s)
    (hca : CachesOk s) : blockedStepE E D K n s z = .error .throw := by
  obtain ⟨s1, e1, h1, h2, h3⟩ := foldlM_range_inv
    (fun s i => blockedDatum E K s i (z.cat i).1)
    (fun _ s' => Consistent E.contrib n s' ∧ CachesOk s' ∧ s'.clus.length = K) n (by
      rintro i s' hi ⟨h1, h2, h3⟩
      obtain ⟨s'', e, a, b, c, -, -⟩ := blockedDatum_ok (z.cat i).1 h3 h1 h2 hi
      exact ⟨s'', e, a, b, c⟩) s ⟨hc, hca, hK⟩
  have e1' : blockedAllocations E K n z.cat s = .ok s1 := e1
  rw [blockedStepE, e1', ok_bind, drawAllE_throw hD _ _ (clus_pos h1 hn), error_bind]

theorem laplaceDraw_mala (data : ℤ → ℝ) (grad : (Fin 2 → ℝ) → Fin 2 → ℝ) (step : ℝ) (w : MetNoise)
    (θ : UniLS) (c : Int) (i : Finset ℕ) (g : Unit) (h : NxIG) (r : ℕ) :
    laplaceDraw data (fun cl h => lapNIGMala data cl h grad step) w θ c i g h r =
      .error .throw := by
  by_cases hs : 0 < step <;>
    simp [laplaceDraw, uniDraw, uniLSGetUnconstrained, lapNIGMala, malaOf, normalRngs, hs,
      error_bind, ok_bind, stanGradient, targetLpdf, nxigLpdfFromUnconstrained,
      show uniLsToUnconstrained [θ.mean, θ.var] = .ok [θ.mean, Real.log θ.var] from rfl]

theorem laplaceDraw_randomWalk (data : ℤ → ℝ) {step : ℝ} (hstep : 0 < step) (w : MetNoise)
    (θ : UniLS) (c : Int) (i : Finset ℕ) (g : Unit) (h : NxIG) (r : ℕ) :
    ∃ θ', laplaceDraw data (fun _ _ => randomWalk 2 step) w θ c i g h r = .ok θ' := by
  have e : uniLSGetUnconstrained θ = .ok [θ.mean, Real.log θ.var] := rfl
  simp only [laplaceDraw, uniDraw, e, randomWalk, normalRngs, normalLpdfs, hstep, or_true, if_true,
    ok_bind]
  split_ifs
  · exact ⟨_, rfl⟩
  · exact ⟨_, rfl⟩

end Bayesmix.Chain
