import Verif.Hier.Like

/-!
# Sharing of hyperparameters between clones

`BasePriorModel` holds `std::shared_ptr`s to its hyperparameters and to its prior message.
The heap of hyperparameters and the heap of prior messages are lists of cells that only grow;
a shared pointer is a position. `H` are the hyperparameters, `Q` the prior messages, `init` is
`initialize_hypers()` of the derived class as a function of the prior message.
Not modelled: pointers handed out by `get_likelihood`, `get_prior` and kept by the caller.
-/

namespace Bayesmix.Hierarchies

variable {H Q S P : Type}

/-- A hierarchy object, `src/hierarchies/base_hierarchy.h` 373-380, with the pointers of its prior
model, `src/hierarchies/priors/base_prior_model.h` 125-129, and its likelihood by value (each
hierarchy owns its own). -/
structure HObj (S P : Type) where
  hypers : ℕ
  prior : Option ℕ
  like : Cluster S P

/-- All hierarchy objects of a program, addressed by their position, and the two heaps. -/
structure World (H Q S P : Type) where
  hheap : List H
  pheap : List Q
  objs : List (HObj S P)

/-- The calls whose effect on sharing matters. -/
inductive HOp (H Q P : Type) where
  /-- `clone()` -/
  | clone (i : ℕ)
  /-- `deep_clone()` -/
  | deepClone (i : ℕ)
  /-- `update_hypers` or `set_hypers_from_proto`: assigns to `*hypers` -/
  | writeHypers (i : ℕ) (h : H)
  /-- assignment through `get_mutable_prior()` -/
  | writePrior (i : ℕ) (q : Q)
  /-- `initialize()`; the state it sets is not needed here -/
  | reinit (i : ℕ)
  /-- a draw or `set_state`: assigns to the likelihood's state -/
  | writeState (i : ℕ) (p : P)

/-- The object a call is made on. -/
def HOp.target : HOp H Q P → ℕ
  | .clone i => i
  | .deepClone i => i
  | .writeHypers i _ => i
  | .writePrior i _ => i
  | .reinit i => i
  | .writeState i _ => i

/-- `BasePriorModel::initialize`, `src/hierarchies/priors/base_prior_model.h` 182-187: a new cell
for the hyperparameters; returns the new heap and the pointer. -/
def initPrior (init : Q → Except Fault H) (w : World H Q S P) (prior : Option ℕ) :
    Except Fault (List H × ℕ) :=
  match prior with
  | none => .error .throw
  | some a => do
    let q ← vget w.pheap a
    let h ← init q
    .ok (w.hheap ++ [h], w.hheap.length)

/-- `BaseHierarchy::clone`, `src/hierarchies/base_hierarchy.h` 95-103, with
`BasePriorModel::clone`, `src/hierarchies/priors/base_prior_model.h` 138-142: the copy
constructor copies the shared pointers. -/
noncomputable def cloneObj (zero : S) (w : World H Q S P) (i : ℕ) :
    Except Fault (World H Q S P) := do
  let o ← vget w.objs i
  .ok { w with objs := w.objs ++ [⟨o.hypers, o.prior, cloneLike zero o.like⟩] }

/-- `BaseHierarchy::deep_clone`, `src/hierarchies/base_hierarchy.h` 106-115, with
`BasePriorModel::deep_clone`, `src/hierarchies/priors/base_prior_model.h` 145-164. The
dereferenced null pointer is a fault. The copied hyperparameters get a cell of their own, then
`initialize()` replaces that cell by another. -/
noncomputable def deepCloneObj (zero : S) (init : Q → Except Fault H) (w : World H Q S P) (i : ℕ) :
    Except Fault (World H Q S P) := do
  let o ← vget w.objs i
  match o.prior with
  | none => .error .ub
  | some a => do
    let q ← vget w.pheap a
    let newPrior := w.pheap.length
    let w1 : World H Q S P := { w with pheap := w.pheap ++ [q] }
    let h ← vget w1.hheap o.hypers
    let w2 : World H Q S P := { w1 with hheap := w1.hheap ++ [h] }
    let (hheap, ptr) ← initPrior init w2 (some newPrior)
    .ok { w2 with
      hheap := hheap
      objs := w.objs ++ [⟨ptr, some newPrior, cloneLike zero o.like⟩] }

/-- One call. `writePrior` on an object without a prior message creates one
(`get_mutable_prior`, `src/hierarchies/priors/base_prior_model.h` 166-173). -/
noncomputable def runHOp (zero : S) (init : Q → Except Fault H) (w : World H Q S P) :
    HOp H Q P → Except Fault (World H Q S P)
  | .clone i => cloneObj zero w i
  | .deepClone i => deepCloneObj zero init w i
  | .writeHypers i h => do
    let o ← vget w.objs i
    let hh ← vset w.hheap o.hypers h
    .ok { w with hheap := hh }
  | .writePrior i q => do
    let o ← vget w.objs i
    match o.prior with
    | some a => do
      let pp ← vset w.pheap a q
      .ok { w with pheap := pp }
    | none => do
      let objs ← vset w.objs i { o with prior := some w.pheap.length }
      .ok { w with pheap := w.pheap ++ [q], objs := objs }
  | .reinit i => do
    let o ← vget w.objs i
    let (hheap, ptr) ← initPrior init w o.prior
    let objs ← vset w.objs i { o with hypers := ptr, like := clearAll zero o.like }
    .ok { w with hheap := hheap, objs := objs }
  | .writeState i p => do
    let o ← vget w.objs i
    let objs ← vset w.objs i { o with like := { o.like with state := p } }
    .ok { w with objs := objs }

/-- A sequence of calls. -/
noncomputable def runHOps (zero : S) (init : Q → Except Fault H) (w : World H Q S P)
    (ops : List (HOp H Q P)) : Except Fault (World H Q S P) :=
  ops.foldlM (runHOp zero init) w

/-- `get_hypers()` of an object, `src/hierarchies/priors/base_prior_model.h` 87. -/
def hypersOf (w : World H Q S P) (i : ℕ) : Option H := do
  let o ← w.objs[i]?
  w.hheap[o.hypers]?

/-- The prior message of an object. -/
def priorOf (w : World H Q S P) (i : ℕ) : Option Q := do
  let o ← w.objs[i]?
  let a ← o.prior
  w.pheap[a]?

/-- The likelihood object of an object. -/
def likeOf (w : World H Q S P) (i : ℕ) : Option (Cluster S P) := do
  let o ← w.objs[i]?
  some o.like

/-- A freshly constructed object: default hyperparameters, no prior message. -/
def freshWorld (h : H) (like : Cluster S P) : World H Q S P :=
  ⟨[h], [], [⟨0, none, like⟩]⟩

end Bayesmix.Hierarchies
