import Verif.FaultLemmas
import Mathlib.Data.Fintype.Basic
import Mathlib.Data.List.FinRange
import Mathlib.Logic.Function.Basic

/-!
# The sampler for the semi-hierarchical Dirichlet process

`src/algorithms/semihdp_sampler.h` and `.cc`. The vectors with one entry per group (or restaurant;
there are `g` of each) are functions on `Fin g`: `initialize` resizes all of them to `ngroups`. Inner
vectors are lists, and indexing them out of range is undefined behaviour. Table objects (shared
pointers to hierarchies) are elements of an arbitrary type `T`: two tables are the same object when
they are equal. `table_allocs[i]` has length `n_by_group[i]`, so loops over `j < n_by_group[i]` are
loops over the list.
-/

namespace Bayesmix.SemiHdp

/-- `v[i]` with an index of type `int`. -/
def iget {α : Type} (v : List α) (i : ℤ) : Except Fault α :=
  if i < 0 then .error .ub else vget v i.toNat

/-- `v[i] = a` with an index of type `int`. -/
def iset {α : Type} (v : List α) (i : ℤ) (a : α) : Except Fault (List α) :=
  if i < 0 then .error .ub else vset v i.toNat a

/-- The members of `SemiHdpSampler` that describe the seating, `semihdp_sampler.h` 34-73. -/
structure State (g : ℕ) (T : Type) where
  /-- `rest_tables` -/
  rest : Fin g → List T
  /-- `private_tables` -/
  priv : Fin g → List T
  /-- `shared_tables` -/
  shared : List T
  /-- `n_by_table` -/
  nByTable : Fin g → List ℤ
  /-- `table_allocs` -/
  allocs : Fin g → List ℤ
  /-- `rest_allocs`: values are drawn below `ngroups` -/
  restAllocs : Fin g → Fin g
  /-- `is_used_rest` -/
  isUsedRest : Fin g → Bool
  /-- `table_to_shared` -/
  toShared : Fin g → List ℤ
  /-- `table_to_private` -/
  toPrivate : Fin g → List ℤ
  /-- `cnt_shared_tables` -/
  cntShared : List ℤ

variable {g : ℕ} {T V : Type}

/-- The groups that eat in restaurant `r`, `semihdp_sampler.cc` 390-392. -/
def groupsOf (s : State g T) (r : Fin g) : List (Fin g) :=
  (List.finRange g).filter fun i => s.restAllocs i = r

/-- Marking tables as used, `semihdp_sampler.cc` 394-398. -/
def markUsed (allocs : List ℤ) (u : List Bool) : Except Fault (List Bool) :=
  allocs.foldlM (fun u a => iset u a true) u

/-- `*std::max_element` of the allocations of a group and the check of it, `semihdp_sampler.cc`
429-434: an empty range has no maximum; a negative value becomes a large unsigned one in the
comparison with `size()`. -/
def checkMax (allocs : List ℤ) (size : ℕ) : Except Fault Unit :=
  match allocs with
  | [] => .error .ub
  | a :: as =>
    let m := as.foldl max a
    if m < 0 ∨ (size : ℤ) ≤ m then .error .throw else .ok ()

/-- Shifting the allocations of one group after table `l` was erased, and the check,
`semihdp_sampler.cc` 422-434. -/
def shiftGroup (l : ℕ) (size : ℕ) (al : Fin g → List ℤ) (i : Fin g) :
    Except Fault (Fin g → List ℤ) := do
  let al := Function.update al i ((al i).map fun a => if (l : ℤ) ≤ a then a - 1 else a)
  checkMax (al i) size
  .ok al

/-- The private part of erasing table `l`: indexes of later private tables go down by one and the
private table is erased, `semihdp_sampler.cc` 406-415. -/
def erasePrivate (tp : List ℤ) (priv : List T) (l : ℕ) : Except Fault (List ℤ × List T) := do
  let p ← vget tp l
  if 0 ≤ p then do
    let priv ← verase priv p.toNat
    .ok (tp.map (fun q => if p < q then q - 1 else q), priv)
  else .ok (tp, priv)

/-- Erasing the unused table `l` of restaurant `r`, `semihdp_sampler.cc` 402-435. -/
def eraseTable (r : Fin g) (groups : List (Fin g)) (s : State g T) (l : ℕ) :
    Except Fault (State g T) := do
  let rest ← verase (s.rest r) l
  let pp ← erasePrivate (s.toPrivate r) (s.priv r) l
  let tp ← verase pp.1 l
  let ts ← verase (s.toShared r) l
  let al ← groups.foldlM (shiftGroup l rest.length) s.allocs
  .ok { s with
        rest := Function.update s.rest r rest
        priv := Function.update s.priv r pp.2
        toPrivate := Function.update s.toPrivate r tp
        toShared := Function.update s.toShared r ts
        allocs := al }

/-- One restaurant of `relabel`, `semihdp_sampler.cc` 386-437. -/
def relabelRest (s : State g T) (r : Fin g) : Except Fault (State g T) := do
  let groups := groupsOf s r
  let used ← groups.foldlM (fun u i => markUsed (s.allocs i) u)
    (List.replicate (s.rest r).length false)
  (List.range used.length).reverse.foldlM (fun s l => do
    let b ← vget used l
    if b then .ok s else eraseTable r groups s l) s

/-- Marking shared tables as used, `semihdp_sampler.cc` 440-447. -/
def markShared (s : State g T) : Except Fault (List Bool) :=
  (List.finRange g).foldlM (fun u i =>
    (s.toShared i).foldlM (fun u t => if 0 ≤ t then iset u t true else .ok u) u)
    (List.replicate s.shared.length false)

/-- Erasing shared table `l`, `semihdp_sampler.cc` 451-458. -/
def eraseShared (s : State g T) (l : ℕ) : Except Fault (State g T) := do
  let sh ← verase s.shared l
  .ok { s with
        shared := sh
        toShared := fun i => (s.toShared i).map fun t => if (l : ℤ) ≤ t then t - 1 else t }

/-- `v[i] += 1`. -/
def incr (v : List ℤ) (i : ℤ) : Except Fault (List ℤ) := do
  let c ← iget v i
  iset v i (c + 1)

/-- `_count_m`, `semihdp_sampler.cc` 620-628. -/
def countM (s : State g T) : Except Fault (State g T) := do
  let c ← (List.finRange g).foldlM (fun u i =>
    (s.toShared i).foldlM (fun u t => if 0 ≤ t then incr u t else .ok u) u)
    (List.replicate s.shared.length 0)
  .ok { s with cntShared := c }

/-- The counts of one restaurant, `semihdp_sampler.cc` 630-639. -/
def countRest (s : State g T) (r : Fin g) : Except Fault (List ℤ) :=
  (groupsOf s r).foldlM (fun u i => (s.allocs i).foldlM incr u)
    (List.replicate (s.rest r).length 0)

/-- `_count_n_by_theta_star`, `semihdp_sampler.cc` 629-640. -/
def countN (s : State g T) : Except Fault (State g T) := do
  let n ← (List.finRange g).foldlM (fun (n : Fin g → List ℤ) r => do
    let c ← countRest s r
    .ok (Function.update n r c)) s.nByTable
  .ok { s with nByTable := n }

/-- `relabel`, `semihdp_sampler.cc` 385-464. -/
def relabel (s : State g T) : Except Fault (State g T) := do
  let s ← (List.finRange g).foldlM relabelRest s
  let used ← markShared s
  let s ← (List.range used.length).reverse.foldlM (fun s l => do
    let b ← vget used l
    if b then .ok s else eraseShared s l) s
  let s ← countN s
  countM s

/-- `SemiHdpState::RestaurantState`, `src/proto/semihdp.proto` 18-23. -/
structure RestMsg (V : Type) where
  thetaStars : List V
  nByClus : List ℤ
  toShared : List ℤ
  toIdio : List ℤ

/-- `SemiHdpState` without the weight, `src/proto/semihdp.proto`. -/
structure Msg (V : Type) where
  restaurants : List (RestMsg V)
  groups : List (List ℤ)
  taus : List V
  c : List ℕ

/-- One turn of the loop of `get_state_as_proto`, `semihdp_sampler.cc` 644-674; `val` is
`write_state_to_proto`. -/
def writeGroup (val : T → V) (s : State g T) (m : Msg V) (i : Fin g) : Msg V :=
  { restaurants := m.restaurants ++
      [⟨(s.rest i).map val, s.nByTable i, s.toShared i, s.toPrivate i⟩]
    groups := m.groups ++ [s.allocs i]
    taus := m.taus ++ s.shared.map val
    c := (List.finRange g).map fun i => (s.restAllocs i : ℕ) }

/-- `get_state_as_proto`, `semihdp_sampler.cc` 642-676. -/
def stateAsProto (val : T → V) (s : State g T) : Msg V :=
  (List.finRange g).foldl (writeGroup val s) ⟨[], [], [], []⟩

/-! ## The rest of a step

The values of random draws are arbitrary; the code checks nothing about them except through
`categorical_rng`. Likelihoods, the semi-HDP weight and the Dirichlet concentration only enter through
the draws and are left out here. Setting the value of a table object does not change which object it
is, so `sample_full_cond` and `sample_prior` leave no trace in the state; the data that they are given
are returned beside it. -/

/-- An observation: its group and its number there. -/
abbrev Obs (g : ℕ) := Fin g × ℕ

/-- `initialize` on a new object, `semihdp_sampler.cc` 23-86: `n i` is `n_by_group[i]`; `sh`, `pr` are
the new table objects; `draw` gives the allocations after the first five. The first five allocations
are written whatever the size of the group. (A second call would append to `shared_tables` and
`rest_tables`; it is not modelled.) -/
def initState (n : Fin g → ℕ) (sh : ℕ → T) (pr : Fin g → ℕ → T) (draw : Fin g → ℕ → ℕ) :
    Except Fault (State g T) :=
  if ∃ i, n i < 5 then .error .ub
  else
    let allocs : Fin g → List ℤ := fun i =>
      (List.range (n i)).map fun j : ℕ => if j < 5 then (j : ℤ) else ((draw i j % 5 : ℕ) : ℤ)
    .ok { rest := fun i => (List.range 5).map (pr i) ++ (List.range 5).map sh
          priv := fun i => (List.range 5).map (pr i)
          shared := (List.range 5).map sh
          nByTable := fun i => (List.range 10).map fun k : ℕ => ((allocs i).count (k : ℤ) : ℤ)
          allocs := allocs
          restAllocs := id
          isUsedRest := fun _ => true
          toShared := fun _ => [-1, -1, -1, -1, -1, 0, 1, 2, 3, 4]
          toPrivate := fun _ => [0, 1, 2, 3, 4, -1, -1, -1, -1, -1]
          cntShared := List.replicate 5 0 }

/-- `v[i]` gets another row. -/
def push {β : Type} (v : List (List β)) (i : ℤ) (d : List β) : Except Fault (List (List β)) := do
  let c ← iget v i
  iset v i (c ++ d)

/-- `data_by_theta_star`: the data of restaurant `r` by table, `semihdp_sampler.cc` 99-107 and
259-270. -/
def dataByTheta (s : State g T) (r : Fin g) : Except Fault (List (List (Obs g))) :=
  (groupsOf s r).foldlM (fun u i =>
    (s.allocs i).zipIdx.foldlM (fun u p => push u p.1 [(i, p.2)]) u)
    (List.replicate (s.rest r).length [])

/-- What the loops of `update_unique_vals` have done: the new `rest_tables`, the updates of private
values (restaurant, index and data), and `data_by_shared`. An update without data is a draw from the
prior. -/
structure Updates (g : ℕ) (T : Type) where
  rest : Fin g → List T
  priv : List (Fin g × ℤ × List (Obs g))
  shared : List (List (Obs g))

/-- Table `l` of restaurant `r` in the first loop of `update_unique_vals`, `semihdp_sampler.cc`
109-121. -/
def updateTable (s : State g T) (r : Fin g) (data : List (List (Obs g))) (u : Updates g T) (l : ℕ) :
    Except Fault (Updates g T) := do
  let p ← vget (s.toPrivate r) l
  if 0 ≤ p then do
    let d ← vget data l
    let o ← iget (s.priv r) p
    let ts ← vset (u.rest r) l o
    .ok { u with rest := Function.update u.rest r ts, priv := u.priv ++ [(r, p, d)] }
  else do
    let h ← vget (s.toShared r) l
    let d ← vget data l
    let sh ← push u.shared h d
    .ok { u with shared := sh }

/-- Table `l` of restaurant `r` in the last loop of `update_unique_vals`, `semihdp_sampler.cc`
133-137. -/
def refreshShared (s : State g T) (r : Fin g) (rest : Fin g → List T) (l : ℕ) :
    Except Fault (Fin g → List T) := do
  let h ← vget (s.toShared r) l
  if 0 ≤ h then do
    let o ← iget s.shared h
    let ts ← vset (rest r) l o
    .ok (Function.update rest r ts)
  else .ok rest

/-- `update_unique_vals`, `semihdp_sampler.cc` 88-139: the new state, and the updates that were made
(`shared_tables[h]` is updated with entry `h` of `Updates.shared`, lines 124-129). -/
def updateUniqueVals (s : State g T) : Except Fault (State g T × Updates g T) := do
  let u ← (List.finRange g).foldlM (fun u r => do
    let data ← dataByTheta s r
    (List.range (s.rest r).length).foldlM (updateTable s r data) u)
    ⟨s.rest, [], List.replicate s.shared.length []⟩
  let rest ← (List.finRange g).foldlM (fun rest r =>
    (List.range (s.rest r).length).foldlM (refreshShared s r) rest) u.rest
  .ok ({ s with rest := rest }, u)

/-- The tables that `sample_pseudo_prior` prepares for each restaurant, `semihdp_sampler.cc` 467-503:
`rest_tables_pseudo` and `n_by_table_pseudo`. -/
structure Pseudo (g : ℕ) (T : Type) where
  tables : Fin g → List T
  counts : Fin g → List ℤ

/-- `reassign_group`, `semihdp_sampler.cc` 555-587; `seat j` is the draw for observation `j`. -/
def reassignGroup (ps : Pseudo g T) (s : State g T) (i new : Fin g) (seat : ℕ → ℕ) :
    Except Fault (State g T) := do
  let old := s.restAllocs i
  let ra := Function.update s.restAllocs i new
  let s := { s with
    restAllocs := ra
    isUsedRest := Function.update s.isUsedRest old (decide (∃ k, ra k = old)) }
  let s := if s.isUsedRest new then s
    else { s with
      rest := Function.update s.rest new (ps.tables new)
      nByTable := Function.update s.nByTable new (ps.counts new)
      priv := Function.update s.priv new (ps.tables new)
      toShared := Function.update s.toShared new (List.replicate (ps.tables new).length (-1))
      toPrivate := Function.update s.toPrivate new
        ((List.range (ps.tables new).length).map fun l : ℕ => (l : ℤ))
      isUsedRest := Function.update s.isUsedRest new true }
  let al ← (List.range (s.allocs i).length).mapM fun j =>
    if (s.nByTable new).length < (s.rest new).length then .error .ub
    else do
      let a ← categorical (s.rest new).length (seat j)
      .ok (a : ℤ)
  .ok { s with allocs := Function.update s.allocs i al }

/-- The counts that `lpdf_for_group` and `_compute_mixture_distance` read, `semihdp_sampler.cc`
524-548, 589-618, are as many as there are tables. -/
def readCounts (ps : Pseudo g T) (s : State g T) (r : Fin g) : Except Fault Unit :=
  if (s.nByTable r).length < (s.rest r).length ∨ (ps.counts r).length < (ps.tables r).length then
    .error .ub
  else .ok ()

/-- Group `i` in `update_rest_allocs`, `semihdp_sampler.cc` 313-351: `choice i` is the new restaurant
of the group, whichever of the moves is configured. (More counts are checked here than the configured
move reads.) -/
def updateRest (ps : Pseudo g T) (choice : Fin g → Fin g) (seat : Fin g → ℕ → ℕ) (s : State g T)
    (i : Fin g) : Except Fault (State g T) := do
  (List.finRange g).forM (readCounts ps s)
  if choice i = s.restAllocs i then .ok s else reassignGroup ps s i (choice i) (seat i)

/-- `update_rest_allocs`, `semihdp_sampler.cc` 310-353. -/
def updateRestAllocs (ps : Pseudo g T) (choice : Fin g → Fin g) (seat : Fin g → ℕ → ℕ)
    (s : State g T) : Except Fault (State g T) :=
  (List.finRange g).foldlM (updateRest ps choice seat) s

/-- `v[i] -= 1`. -/
def decr (v : List ℤ) (i : ℤ) : Except Fault (List ℤ) := do
  let c ← iget v i
  iset v i (c - 1)

/-- Table `l` of restaurant `r` in `update_to_shared`, `semihdp_sampler.cc` 273-305: `draw` chooses
the shared value, `new` is the object if it is a new one. -/
def relinkTable (data : List (List (Obs g))) (draw : ℕ → ℕ) (new : ℕ → T) (r : Fin g)
    (s : State g T) (l : ℕ) : Except Fault (State g T) := do
  let h ← vget (s.toShared r) l
  let d ← vget data l
  if 0 ≤ h ∧ d ≠ [] then do
    let cnt ← decr s.cntShared h
    if cnt.length < s.shared.length then .error .ub
    else do
      let t ← categorical (s.shared.length + 1) (draw l)
      let ts ← vset (s.toShared r) l (t : ℤ)
      if t < s.shared.length then do
        let cnt ← incr cnt t
        .ok { s with cntShared := cnt, toShared := Function.update s.toShared r ts }
      else .ok { s with
        cntShared := cnt ++ [1]
        toShared := Function.update s.toShared r ts
        shared := s.shared ++ [new l] }
  else .ok s

/-- `update_to_shared`, `semihdp_sampler.cc` 254-308. -/
def updateToShared (draw : Fin g → ℕ → ℕ) (new : Fin g → ℕ → T) (s : State g T) :
    Except Fault (State g T) := do
  let s ← countM s
  (List.finRange g).foldlM (fun s r => do
    let data ← dataByTheta s r
    (List.range (s.rest r).length).foldlM (relinkTable data (draw r) (new r) r) s) s

/-- Draws for one observation in `update_table_allocs`: the table, whether a new table is private,
the shared value of a new table, and the object of a new value. -/
structure SeatDraw (T : Type) where
  table : ℕ
  isPrivate : Bool
  shared : ℕ
  obj : T

/-- A new table for an observation of restaurant `r`, `semihdp_sampler.cc` 215-248. A new private table
appends twice to `n_by_table` (215, 227). -/
def newTable (d : SeatDraw T) (s : State g T) (r : Fin g) : Except Fault (State g T) :=
  if d.isPrivate then
    .ok { s with
      priv := Function.update s.priv r (s.priv r ++ [d.obj])
      rest := Function.update s.rest r (s.rest r ++ [d.obj])
      toShared := Function.update s.toShared r (s.toShared r ++ [-1])
      toPrivate := Function.update s.toPrivate r (s.toPrivate r ++ [((s.priv r).length : ℤ)])
      nByTable := Function.update s.nByTable r (s.nByTable r ++ [1] ++ [1]) }
  else do
    let t ← categorical (s.shared.length + 1) d.shared
    if t < s.shared.length then do
      let o ← vget s.shared t
      let cnt ← incr s.cntShared t
      .ok { s with
        rest := Function.update s.rest r (s.rest r ++ [o])
        toShared := Function.update s.toShared r (s.toShared r ++ [(t : ℤ)])
        toPrivate := Function.update s.toPrivate r (s.toPrivate r ++ [-1])
        nByTable := Function.update s.nByTable r (s.nByTable r ++ [1])
        cntShared := cnt }
    else
      .ok { s with
        rest := Function.update s.rest r (s.rest r ++ [d.obj])
        toShared := Function.update s.toShared r (s.toShared r ++ [(t : ℤ)])
        toPrivate := Function.update s.toPrivate r (s.toPrivate r ++ [-1])
        nByTable := Function.update s.nByTable r (s.nByTable r ++ [1])
        shared := s.shared ++ [d.obj]
        cntShared := s.cntShared ++ [1] }

/-- A shared value loses an observation, `semihdp_sampler.cc` 177-178. -/
def decrShared (v : List ℤ) (h : ℤ) : Except Fault (List ℤ) :=
  if 0 ≤ h then decr v h else .ok v

/-- One observation of `update_table_allocs`, `semihdp_sampler.cc` 170-249. The local vectors
`log_n_by_table` and `log_m` always have the lengths of `n_by_table` and `cnt_shared_tables`; their
entries are only used in the probabilities of the draw and are left out here. -/
def seatDatum (d : SeatDraw T) (i : Fin g) (s : State g T) (j : ℕ) : Except Fault (State g T) := do
  let r := s.restAllocs i
  let a ← vget (s.allocs i) j
  let n ← decr (s.nByTable r) a
  let h ← iget (s.toShared r) a
  let cnt ← decrShared s.cntShared h
  if n.length < (s.rest r).length ∨ cnt.length < s.shared.length then .error .ub
  else do
    let t ← categorical ((s.rest r).length + 1) d.table
    let al ← vset (s.allocs i) j (t : ℤ)
    let s := { s with
      nByTable := Function.update s.nByTable r n
      cntShared := cnt
      allocs := Function.update s.allocs i al }
    if t < (s.rest r).length then do
      let n ← incr (s.nByTable r) t
      .ok { s with nByTable := Function.update s.nByTable r n }
    else newTable d s r

/-- `update_table_allocs`, `semihdp_sampler.cc` 141-252. -/
def updateTableAllocs (d : Fin g → ℕ → SeatDraw T) (s : State g T) : Except Fault (State g T) := do
  let s ← countM s
  let s ← countN s
  (List.finRange g).foldlM (fun s i =>
    (List.range (s.allocs i).length).foldlM (fun s j => seatDatum (d i j) i s j) s) s

/-- All draws of one `step`. -/
structure StepDraws (g : ℕ) (T : Type) where
  pseudo : Pseudo g T
  choice : Fin g → Fin g
  seat : Fin g → ℕ → ℕ
  link : Fin g → ℕ → ℕ
  linkNew : Fin g → ℕ → T
  table : Fin g → ℕ → SeatDraw T

/-- `step`, `semihdp_sampler.h` 88-99. -/
def step (adapt : Bool) (d : StepDraws g T) (s : State g T) : Except Fault (State g T) := do
  let p ← updateUniqueVals s
  let s ← if adapt then .ok p.1 else updateRestAllocs d.pseudo d.choice d.seat p.1
  let s ← updateToShared d.link d.linkNew s
  let s ← updateTableAllocs d.table s
  relabel s

/-- The collection loop of `run`, `semihdp_sampler.h` 136-142: `step i` is what the `i`-th call of
`step()` does, with whatever it draws. The remainder by zero is undefined behaviour. Returns the final
state and the collected states. -/
def collectLoop {S : Type} (step : ℕ → S → Except Fault S) (iter thin : ℕ) (s : S) :
    Except Fault (S × List S) :=
  (List.range iter).foldlM (fun p i => do
    let s ← step i p.1
    if thin = 0 then .error .ub
    else if iter % thin = 0 then .ok (s, p.2 ++ [s]) else .ok (s, p.2)) (s, [])

/-- All rows of the data of a group are read, `semihdp_sampler.cc` 102-105: `n_by_group[i]` is
`data[i].size()`, line 16, the number of entries, not of rows. Eigen asserts that a row exists. -/
def readRows (rows cols : ℕ) : Except Fault Unit :=
  (List.range (rows * cols)).forM fun j => if j < rows then .ok () else .error .assertFail

/-- `run`, `semihdp_sampler.h` 101-143, on a new object: group `i` has a data matrix of shape
`rows i × cols i`; `draws k` are the draws of the `k`-th step. The rows are first read in the call of
`update_unique_vals` before the loops; later calls read the same rows. -/
def run (rows cols : Fin g → ℕ) (sh : ℕ → T) (pr : Fin g → ℕ → T) (draw : Fin g → ℕ → ℕ)
    (draws : ℕ → StepDraws g T) (adaptIter burnin iter thin : ℕ) :
    Except Fault (State g T × List (State g T)) := do
  let s ← initState (fun i => rows i * cols i) sh pr draw
  (List.finRange g).forM fun i => readRows (rows i) (cols i)
  let p ← updateUniqueVals s
  let s ← (List.range adaptIter).foldlM (fun s k => step true (draws k) s) p.1
  let s ← (List.range burnin).foldlM (fun s k => step false (draws (adaptIter + k)) s) s
  collectLoop (fun k s => step false (draws (adaptIter + burnin + k)) s) iter thin s

end Bayesmix.SemiHdp
