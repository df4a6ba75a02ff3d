import Verif.Alloc.Model

/-!
# `BaseAlgorithm::initialize`

Model of `src/algorithms/base_algorithm.cc` 56-155 and of `set_hierarchy`
(`base_algorithm.h` 119-122).  Printing is omitted.  `mixing->initialize()` and
the prior's `initialize()` are parameters: they may reject (throw) or accept.
-/

namespace Bayesmix

variable {G H Θ : Type}

/-- What initialization looks at: shapes and capabilities. -/
structure Setup (H Θ : Type) where
  /-- `is_conditional()` of the algorithm -/
  algConditional : Bool
  /-- `requires_conjugate_hierarchy()` -/
  algRequiresConjugate : Bool
  /-- `update_hierarchy_params()` -/
  algUpdatesParams : Bool
  /-- `data.rows()`, `data.cols()` -/
  rows : Nat
  cols : Nat
  hierMultivariate : Bool
  hierDependent : Bool
  /-- `hier_covariates.rows()`, `.cols()` -/
  hierCovRows : Nat
  hierCovCols : Nat
  /-- `mixing != nullptr` -/
  hasMixing : Bool
  mixConditional : Bool
  mixDependent : Bool
  /-- `mix_covariates.rows()`, `.cols()` -/
  mixCovRows : Nat
  mixCovCols : Nat
  /-- `init_num_clusters` -/
  initClusters : Nat
  /-- `mixing->initialize()` after `set_num_components(k)`: `none` if it throws,
  otherwise the number of components it leaves -/
  mixInit : Nat → Option Nat
  /-- `prior->initialize()`: `none` if it throws, otherwise the initial hypers and
  the initial state (`initialize_state`) -/
  hierInit : Option (H × Θ)

/-- Data and hierarchy checks, `base_algorithm.cc` 61-91: throws, or fills in the missing
hierarchy covariates (an `n × 0` matrix has `n` rows). -/
def checkHier (kind : UpdaterKind) (nObjects : Nat) (c : Setup H Θ) : Except Fault (Setup H Θ) :=
  if c.rows = 0 then .error .throw
  else if nObjects = 0 then .error .throw
  else if kind ≠ .conjugate ∧ c.algRequiresConjugate then .error .throw
  else if c.hierMultivariate = false ∧ c.cols > 1 then .error .throw
  else if c.hierCovRows ≠ 0 then
    if c.hierDependent = false then .error .throw
    else if c.rows ≠ c.hierCovRows then .error .throw
    else .ok c
  else .ok { c with hierCovRows := c.rows, hierCovCols := 0 }

/-- Mixing checks, `base_algorithm.cc` 92-113. -/
def checkMix (c : Setup H Θ) : Except Fault (Setup H Θ) :=
  if c.hasMixing = false then .error .throw
  else if c.algConditional ≠ c.mixConditional then .error .throw
  else if c.mixCovRows ≠ 0 then
    if c.mixDependent = false then .error .throw
    else if c.rows ≠ c.mixCovRows then .error .throw
    else .ok c
  else .ok { c with mixCovRows := c.rows, mixCovCols := 0 }

/-- All checks of `BaseAlgorithm::initialize`, `base_algorithm.cc` 61-113. -/
def checkSetup (kind : UpdaterKind) (nObjects : Nat) (c : Setup H Θ) :
    Except Fault (Setup H Θ) :=
  checkHier kind nObjects c >>= checkMix

/-- The number of components after lines 115-120. -/
def numComponents (c : Setup H Θ) : Except Fault Nat :=
  match c.mixInit c.initClusters with
  | none => .error .throw
  | some 0 => .ok c.rows
  | some k => .ok k

/-- `BaseHierarchy::initialize` (`base_hierarchy.h` 322-330) with the prior's
initial hypers `h0` and the initial state `θ0`. -/
def initObject [Zero G] (E : Env G H Θ) (h0 : H) (θ0 : Θ) (o : Hier G H Θ) : Hier G H Θ :=
  { state := θ0, card := 0, idx := ∅, ss := 0
    saved := if E.kind = .conjugate then true else o.saved
    ph := if E.kind = .conjugate then some h0 else o.ph }

/-- Body of the loop at `base_algorithm.cc` 125-128. -/
def growStep [Zero G] (E : Env G H Θ) (h : H) (r : Nat → Nat) (cl : List (Hier G H Θ)) (i : Nat) :
    Except Fault (List (Hier G H Θ)) := do
  let o0 ← vget cl 0
  let cl := cl ++ [o0.clone]
  let o ← vget cl i
  .ok (cl.set i (o.samplePrior E h (r i)))

/-- `allocations.push_back(c); unique_values[c]->add_datum(i, data.row(i), false, …)`
(`base_algorithm.cc` 135-136 and 141-143); `data.row(i)` needs `i < n`. -/
def seat [Add G] (E : Env G H Θ) (n : Nat) (s : Alg G H Θ) (i c : Nat) :
    Except Fault (Alg G H Θ) :=
  if i < n then do
    let o ← vget s.clus c
    let o' ← o.addDatum E s.hyp false i
    .ok { s with alloc := s.alloc ++ [c], clus := s.clus.set c o' }
  else .error .ub

/-- `unique_values[i]->save_posterior_hypers()` (`base_algorithm.cc` 146-150). -/
def saveStep (E : Env G H Θ) (s : Alg G H Θ) (i : Nat) : Except Fault (Alg G H Θ) := do
  let o ← vget s.clus i
  let o' ← o.savePosterior E s.hyp
  .ok { s with clus := s.clus.set i o' }

/-- Randomness of initialization: prior draws and the uniform allocations. -/
structure InitNoise where
  prior : Nat → Nat
  cat : Nat → Nat

/-- Lines 121-150 of `base_algorithm.cc`: allocate objects and data, with `K`
components and `n` rows. -/
def initAlloc [AddGroup G] (E : Env G H Θ) (upd : Bool) (K n : Nat) (h0 : H) (θ0 : Θ)
    (z : InitNoise) (objs : List (Hier G H Θ)) : Except Fault (Alg G H Θ) := do
  let first ← vget objs 0
  let objs := objs.set 0 (initObject E h0 θ0 first)
  let objs ← (List.range (K - 1)).foldlM (growStep E h0 z.prior) objs
  let s : Alg G H Θ := { alloc := [], clus := objs, hyp := h0 }
  let s ← (List.range K).foldlM (fun s i => seat E n s i i) s
  let s ← (List.range (n - K)).foldlM (fun s j => seat E n s (K + j) (z.cat j % K)) s
  if upd then (List.range K).foldlM (saveStep E) s else .ok s

/-- `BaseAlgorithm::initialize` (`base_algorithm.cc` 56-155): from the setup and
the current `unique_values`, the updated setup (covariates) and the allocation
state. -/
def initAlgorithm [AddGroup G] (E : Env G H Θ) (c : Setup H Θ) (z : InitNoise)
    (objs : List (Hier G H Θ)) : Except Fault (Setup H Θ × Alg G H Θ) := do
  let c' ← checkSetup E.kind objs.length c
  let K ← numComponents c'
  match c'.hierInit with
  | none => .error .throw
  | some (h0, θ0) => do
    let s ← initAlloc E c'.algUpdatesParams K c'.rows h0 θ0 z objs
    .ok (c', s)

/-- Neal8 additionally creates its auxiliary blocks
(`src/algorithms/neal8_algorithm.cc` 23-30). -/
def initAlgorithm8 [AddGroup G] (E : Env G H Θ) (c : Setup H Θ) (nAux : Nat) (z : InitNoise)
    (objs : List (Hier G H Θ)) : Except Fault (Setup H Θ × Alg8 G H Θ) := do
  let (c', s) ← initAlgorithm E c z objs
  let o ← vget s.clus 0
  .ok (c', { base := s, aux := List.replicate nAux o.clone })

end Bayesmix
