import Verif.Program.Argparse
import Verif.Utils.Model

/-!
# The program `run_mcmc`

`executables/run_mcmc.cc` as a function of its command line and of the file system. Parsing of
messages, sampler and density evaluation are arbitrary functions of what the program passes to them.
-/

namespace Bayesmix.Program
open Utils

/-- The files that exist, with their contents; bytes are characters. -/
abbrev FS := Str → Option (List Char)

/-- Creates or overwrites a file. -/
def FS.put (fs : FS) (n : Str) (c : List Char) : FS := fun q => if q = n then some c else fs q

/-- A computation on the file system that can be stopped by an exception that nobody catches. -/
abbrev Prog (β : Type) := FS → Except Fault β × FS

/-- Returns a value and leaves the files alone. -/
def Prog.pure {β : Type} (x : β) : Prog β := fun fs => (.ok x, fs)

/-- Sequencing; after an exception nothing more happens to the files. -/
def Prog.bind {β γ : Type} (x : Prog β) (f : β → Prog γ) : Prog γ := fun fs =>
  match x fs with
  | (.ok b, fs) => f b fs
  | (.error e, fs) => (.error e, fs)

instance : Monad Prog where
  pure := Prog.pure
  bind := Prog.bind

/-- A computation that neither reads nor writes files. -/
def liftE {β : Type} (x : Except Fault β) : Prog β := fun fs => (x, fs)

/-- `if (c) { x }`. -/
def whenP (c : Prop) [Decidable c] (x : Prog Unit) : Prog Unit := if c then x else pure ()

/-- A matrix that was read: numbers of rows and columns, and entries. -/
abbrev Mat (α : Type) := ℕ × ℕ × List (List (Option α))

/-- What `run_mcmc` uses.

* `parse`: `google::protobuf::TextFormat::Parse` on the contents of a file, or on nothing if the file
  cannot be opened: the message as it is afterwards, and whether the text was accepted;
* `newAlgo`, `newHier`, `newMix`: `create_object` of the factories; `hierInit`: `hier->initialize()`;
* `hierDep`, `mixDep`: `is_dependent()`;
* `run`: `algo->run(coll)` on messages, data and covariates: the states that were saved, and the
  exception if there was one;
* `dens`: `eval_lpdf_parallel` on the saved states, the grid and its covariates;
* `allocs`, `nClus`: `cluster_allocs` and `cluster_states_size()` of a state;
* `best`: `cluster_estimate`; `chain`: the bytes of the chain file (C18);
* `stof`, `fmt`, `fmtNat`: reading and printing numbers. -/
structure Lib (Msg St α : Type) where
  parse : Option (List Char) → Msg × Bool
  newAlgo : Msg → Except Fault Unit
  newHier : Str → Except Fault Unit
  newMix : Str → Except Fault Unit
  hierInit : Str → Msg → Except Fault Unit
  hierDep : Str → Bool
  mixDep : Str → Bool
  run : (algo : Msg) → (hierType : Str) → (hier : Msg) → (mixType : Str) → (mix : Msg) → Mat α →
    Option (Mat α) → Option (Mat α) → List St × Option Fault
  dens : (algo : Msg) → (hierType : Str) → (hier : Msg) → (mixType : Str) → (mix : Msg) → List St →
    Mat α → Option (Mat α) → Option (Mat α) → Except Fault (RowMat α)
  allocs : St → List ℕ
  nClus : St → ℕ
  best : List (List ℕ) → Except Fault (List ℕ)
  chain : List St → List Char
  stof : List Char → Option α
  fmt : α → List Char
  fmtNat : ℕ → List Char

section program

variable {Msg St α : Type} (W : Lib Msg St α) (writable : Str → Bool) (A : List Argument)

/-- `check_file_is_writeable`, `src/utils/io_utils.cc` 7-16: opening the file for writing creates it or
removes its contents. -/
def checkWriteable (n : Str) : Prog Unit := fun fs =>
  if writable n then (.ok (), fs.put n []) else (.error .throw, fs)

/-- One test of `check_args`. -/
def checkArg (opt none : Str) : Prog Unit := do
  let v ← liftE (getArg A opt)
  whenP (v ≠ none) (checkWriteable writable v)

/-- `check_args`, `executables/run_mcmc.cc` 11-29. -/
def checkArgs : Prog Unit := do
  checkArg writable A "--coll-name".toList "memory".toList
  checkArg writable A "--dens-file".toList emptyStr
  checkArg writable A "--n-cl-file".toList emptyStr
  checkArg writable A "--clus-file".toList emptyStr
  checkArg writable A "--best-clus-file".toList emptyStr

/-- `read_proto_from_file`, `src/utils/proto_utils.cc` 52-61: a failure is printed, nothing else. -/
def readProto (opt : Str) : Prog Msg := do
  let n ← liftE (getArg A opt)
  fun fs => (.ok (W.parse (fs n)).1, fs)

/-- `read_eigen_matrix`, `src/utils/io_utils.cc` 18-60: a missing file is an exception. -/
def readMat (n : Str) : Prog (Mat α) := fun fs =>
  match fs n with
  | none => (.error .throw, fs)
  | some c => (readEigenMatrix ',' W.stof c, fs)

/-- Reading the matrix that an option names. -/
def readOpt (opt : Str) : Prog (Mat α) := do
  let n ← liftE (getArg A opt)
  readMat W n

/-- `write_matrix_to_file`, `src/utils/io_utils.cc` 62-71: errors of the stream are not looked at. -/
def writeFile (n : Str) (c : List Char) : Prog Unit := fun fs =>
  (.ok (), if writable n then fs.put n c else fs)

/-- The text of a matrix of integers with the given number of columns. -/
def natText (cols : ℕ) (rows : List (List ℕ)) : List Char :=
  writeMatrixToFile ',' W.fmtNat ⟨cols, rows⟩

/-- The allocations of a state for the rows of the data, `run_mcmc.cc` 228-230; a message with fewer
allocations is read beyond its end. -/
def allocRow (rows : ℕ) (s : St) : Except Fault (List ℕ) :=
  if rows ≤ (W.allocs s).length then .ok ((W.allocs s).take rows) else .error .ub

/-- Reads covariates if they are used. -/
def readCov (dep : Bool) (opt : Str) : Prog (Option (Mat α)) :=
  if dep then do
    let m ← readOpt W A opt
    pure (some m)
  else pure none

/-- The states that `algo->run(coll)` saves, and the chain file if the collector writes to a file. An
exception leaves the program, with the states saved so far in the file. -/
def runInto (coll : Str) (r : List St × Option Fault) : Prog (List St) := do
  whenP (coll ≠ "memory".toList) (writeFile writable coll (W.chain r.1))
  liftE (match r.2 with
    | some e => .error e
    | none => .ok r.1)

/-- The density block, `executables/run_mcmc.cc` 199-219. -/
def densBlock (algo : Msg) (ht : Str) (hier : Msg) (mt : Str) (mix : Msg) (states : List St) : Prog Unit := do
  let grid ← liftE (getArg A "--grid-file".toList)
  let dens ← liftE (getArg A "--dens-file".toList)
  whenP (grid ≠ emptyStr ∧ dens ≠ emptyStr) do
    let g ← readMat W grid
    let hc ← readCov W A (W.hierDep ht) "--hier-grid-cov-file".toList
    let mc ← readCov W A (W.mixDep mt) "--mix-grid-cov-file".toList
    let d ← liftE (W.dens algo ht hier mt mix states g hc mc)
    writeFile writable dens (writeMatrixToFile ',' W.fmt d)

/-- The blocks for numbers of clusters, allocations and best clustering,
`executables/run_mcmc.cc` 221-256. -/
def clusBlock (rows : ℕ) (states : List St) : Prog Unit := do
  let ncl ← liftE (getArg A "--n-cl-file".toList)
  let clus ← liftE (getArg A "--clus-file".toList)
  let best ← liftE (getArg A "--best-clus-file".toList)
  whenP (ncl ≠ emptyStr ∨ clus ≠ emptyStr ∨ best ≠ emptyStr) do
    let al ← liftE (states.mapM (allocRow W rows))
    whenP (ncl ≠ emptyStr) (writeFile writable ncl (natText W 1 (states.map fun s => [W.nClus s])))
    whenP (clus ≠ emptyStr) (writeFile writable clus (natText W rows al))
    whenP (best ≠ emptyStr) do
      let b ← liftE (W.best al)
      writeFile writable best (natText W 1 (b.map fun x => [x]))

/-- `main` after the command line was parsed, `executables/run_mcmc.cc` 139-261. -/
def mainBody : Prog Unit := do
  checkArgs writable A
  let algo ← readProto W A "--algo-params-file".toList
  liftE (W.newAlgo algo)
  let ht ← liftE (getArg A "--hier-type".toList)
  liftE (W.newHier ht)
  let mt ← liftE (getArg A "--mix-type".toList)
  liftE (W.newMix mt)
  let coll ← liftE (getArg A "--coll-name".toList)
  let mix ← readProto W A "--mix-args".toList
  let hier ← readProto W A "--hier-args".toList
  liftE (W.hierInit ht hier)
  let data ← readOpt W A "--data-file".toList
  let hc ← readCov W A (W.hierDep ht) "--hier-cov-file".toList
  let mc ← readCov W A (W.mixDep mt) "--mix-cov-file".toList
  let states ← runInto W writable coll (W.run algo ht hier mt mix data hc mc)
  densBlock W writable A algo ht hier mt mix states
  clusBlock W writable A data.1 states

end program

/-- How a program ends: with an exit status, or because of an exception that nobody catches or
something worse. -/
inductive Ended where
  | status (n : ℕ)
  | died (f : Fault)
  deriving DecidableEq

/-- `main`, `executables/run_mcmc.cc` 31-261, on the words of the command line after the name of the
program. -/
def runMcmc {Msg St α : Type} (W : Lib Msg St α) (writable : Str → Bool) (cl : List Str) (fs : FS) :
    Ended × FS :=
  match parseArgs (parserOf runOpts) cl with
  | .error .exit0 => (.status 0, fs)
  | .error .fail => (.status 1, fs)
  | .ok A => match mainBody W writable A fs with
    | (.ok _, fs) => (.status 0, fs)
    | (.error e, fs) => (.died e, fs)

end Bayesmix.Program
