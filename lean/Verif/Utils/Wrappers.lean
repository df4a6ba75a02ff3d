import Verif.Fault
import Mathlib.Data.Real.Basic

/-!
# The Python and R wrappers

`python/bayesmixpy/run.py`, `python/bayesmixpy/shell_utils.py`,
`python/bayesmixpy/io_utils.py`, `R/bayesmixr/R/run_mcmc.R` and `R/bayesmixr/R/utils.R`: both
write the inputs of `run_mcmc` to files, run the program and read the files that it wrote.

The program is an arbitrary function of its file arguments and of the file system.  Contents of
files are strings; parsing the numbers is not modelled.
-/

namespace Bayesmix.Wrappers

/-- A file: its directory and its name. -/
structure Path where
  dir : String
  name : String
  deriving DecidableEq

/-- A file system: the contents of the files that exist. -/
abbrev FS := Path → Option String

/-- Creates or overwrites a file. -/
def FS.write (fs : FS) (p : Path) (c : String) : FS := fun q => if q = p then some c else fs q

/-- `shutil.rmtree(dir)`, `unlink(dir, recursive = TRUE)`. -/
def FS.rmdir (fs : FS) (d : String) : FS := fun q => if q.dir = d then none else fs q

/-- A text that is either the name of a file or a message in text format. -/
structure Param where
  asPath : Path
  text : String

/-- The arguments of the two wrappers.  `tmp` is the directory that is used if no directory is
given: `TemporaryDirectory().name` in Python, `temp` beside the program in R. -/
structure Opts where
  hier : Param
  mix : Param
  algo : Param
  data : String
  grid : Option String
  outDir : Option String
  tmp : String
  clusters : Bool
  bestClus : Bool
  numClusters : Bool
  chains : Bool

/-- The directory that the wrapper works in. -/
def Opts.dir (o : Opts) : String := o.outDir.getD o.tmp

/-- The file arguments of the command line that the wrappers build (`run.py` 113-118 and
158-170, `run_mcmc.R` 67-72 and 124-129); `none` is the empty name `""`, for the collector it is
`memory`. -/
structure Args where
  algoFile : Path
  hierFile : Path
  mixFile : Path
  collFile : Option Path
  dataFile : Path
  gridFile : Option Path
  densFile : Option Path
  nClFile : Option Path
  clusFile : Option Path
  bestFile : Option Path

/-- The files that the program is asked to write. -/
def Args.outputs (a : Args) : List Path :=
  (a.collFile.toList ++ a.densFile.toList) ++ a.nClFile.toList ++ a.clusFile.toList ++
    a.bestFile.toList

/-- The program `run_mcmc`: whether its exit status is zero, and the files afterwards. -/
abbrev Exe := Args → FS → Bool × FS

/-- What the wrappers return: the contents of the files of the densities, of the numbers of
clusters, of the clusterings, of the best clustering, and the chain. -/
structure Result where
  evalDens : Option String
  nClus : Option String
  clus : Option String
  bestClus : Option String
  chain : Option String
  deriving DecidableEq

/-- `maybe_print_proto_to_file`, `python/bayesmixpy/io_utils.py` 15-31 and
`R/bayesmixr/R/utils.R` 82-93. -/
def maybePrint (p : Param) (name dir : String) (fs : FS) : Path × FS :=
  if (fs p.asPath).isSome then (p.asPath, fs)
  else (⟨dir, name ++ ".asciipb"⟩, fs.write ⟨dir, name ++ ".asciipb"⟩ p.text)

/-- `Some` file name if it is wanted, the empty name otherwise. -/
def wanted (b : Bool) (p : Path) : Option Path := if b then some p else none

/-- The command line of both wrappers, given the files of the parameters. -/
def mkArgs (o : Opts) (hier mix algo : Path) : Args where
  algoFile := algo
  hierFile := hier
  mixFile := mix
  collFile := wanted o.chains ⟨o.dir, "chains.recordio"⟩
  dataFile := ⟨o.dir, "data.csv"⟩
  gridFile := wanted o.grid.isSome ⟨o.dir, "dens_grid.csv"⟩
  densFile := wanted o.grid.isSome ⟨o.dir, "eval_dens.csv"⟩
  nClFile := wanted o.numClusters ⟨o.dir, "n_clus.csv"⟩
  clusFile := wanted o.clusters ⟨o.dir, "clus.csv"⟩
  bestFile := wanted o.bestClus ⟨o.dir, "best_clus.csv"⟩

/-- Reading a result file if it was asked for: `np.loadtxt`, `read.table`; a missing file is an
error. -/
def readBack (fs : FS) : Option Path → Except Fault (Option String)
  | none => .ok none
  | some p => match fs p with
    | some c => .ok (some c)
    | none => .error .throw

/-- The end of both wrappers, `run.py` 178-201 and `run_mcmc.R` 143-167. -/
def readResults (a : Args) (fs : FS) : Except Fault Result := do
  let d ← readBack fs a.densFile
  let n ← readBack fs a.nClFile
  let c ← readBack fs a.clusFile
  let b ← readBack fs a.bestFile
  let m ← readBack fs a.collFile
  pure ⟨d, n, c, b, m⟩

/-- Writing the parameters (`run.py` 130-134; `run_mcmc.R` 95-97). -/
def writeParams (o : Opts) (fs : FS) : (Path × Path × Path) × FS :=
  let h := maybePrint o.hier "hier_params" o.dir fs
  let m := maybePrint o.mix "mix_params" o.dir h.2
  let a := maybePrint o.algo "algo_params" o.dir m.2
  ((h.1, m.1, a.1), a.2)

/-- Writing the data and, if there is one, the grid (`run.py` 137-142; `run_mcmc.R` 100-109). -/
def writeInputs (o : Opts) (fs : FS) : FS :=
  let fs := fs.write ⟨o.dir, "data.csv"⟩ o.data
  match o.grid with
  | none => fs
  | some g => fs.write ⟨o.dir, "dens_grid.csv"⟩ g

/-- `run_mcmc` of the Python package, `python/bayesmixpy/run.py` 23-201.  `run_shell`
(`shell_utils.py` 7-28) waits for the end of the program and looks neither at its exit status
nor at `proc.returncode`, so the status is dropped.  An error while a result is read leaves the
function before the directory is removed.  `np.loadtxt` of a file without data returns an empty
array with a warning. -/
def pyRun (o : Opts) (exe : Exe) (fs : FS) : Except Fault Result × FS :=
  let p := writeParams o fs
  let fs := writeInputs o p.2
  let a := mkArgs o p.1.1 p.1.2.1 p.1.2.2
  let (_, fs) := exe a fs
  match readResults a fs with
  | .error e => (.error e, fs)
  | .ok r => (.ok r, if o.outDir.isNone then fs.rmdir o.dir else fs)

/-- The files that `run_mcmc.R` 86-92 creates, or truncates, before anything else. -/
def rCreated : List String :=
  ["data.csv", "dens_grid.csv", "n_clus.csv", "clus.csv", "best_clus.csv", "eval_dens.csv",
    "chains.recordio"]

/-- `file.create` for each of these files. -/
def rCreate (d : String) (fs : FS) : FS :=
  rCreated.foldl (fun fs n => fs.write ⟨d, n⟩ "") fs

/-- `run_mcmc` of the R package, `R/bayesmixr/R/run_mcmc.R` 36-181.  On a non-zero exit status
the working directory is removed, whoever chose it (lines 136-140).  `read.table` of an empty
file is an error, which the model leaves out: it would only turn a result into an error. -/
def rRun (o : Opts) (exe : Exe) (fs : FS) : Except Fault Result × FS :=
  let fs := rCreate o.dir fs
  let p := writeParams o fs
  let fs := writeInputs o p.2
  let a := mkArgs o p.1.1 p.1.2.1 p.1.2.2
  let (ok, fs) := exe a fs
  if ok then
    match readResults a fs with
    | .error e => (.error e, fs)
    | .ok r => (.ok r, if o.outDir.isNone then fs.rmdir o.dir else fs)
  else (.error .throw, fs.rmdir o.dir)

/-! ### Numbers on their way to the sampler -/

/-- `np.savetxt(..., fmt='%1.5f')`, `run.py` 137 and 142, as the number that is printed: a
nearest multiple of `10⁻⁵`.  Which one is printed if two are equally near is left open. -/
def Prints5 (fmt : ℝ → ℝ) : Prop :=
  ∀ x, (∃ k : ℤ, fmt x = k / 100000) ∧ ∀ k : ℤ, |fmt x - x| ≤ |(k : ℝ) / 100000 - x|

/-- The numbers of type `float`. -/
def IsFloat (f : ℝ) : Prop :=
  ∃ m e : ℤ, |m| < 2 ^ 24 ∧ -149 ≤ e ∧ e ≤ 104 ∧ f = m * (2 : ℝ) ^ e

/-- `std::stof(entry)` in `read_eigen_matrix`, `src/utils/io_utils.cc` 52: every number in the
file is read as a `float`, the one nearest to it.  Which one is taken if two are equally near is
left open, as is what happens to numbers outside the range of `float`. -/
def ReadsFloat (stof : ℝ → ℝ) : Prop :=
  ∀ x, |x| ≤ 2 ^ 127 → IsFloat (stof x) ∧ ∀ f, IsFloat f → |stof x - x| ≤ |f - x|

/-- Shape of the array returned by `np.loadtxt` for a file of `r` rows and `c` columns: axes of
length one are dropped (`ndmin = 0`). -/
def loadtxtShape (r c : ℕ) : List ℕ := [r, c].filter (· ≠ 1)

end Bayesmix.Wrappers
