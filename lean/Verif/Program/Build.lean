import Verif.Program.Argparse
import Mathlib.Data.Rat.Defs

/-!
# Building the program from Python and R

`python/bayesmixpy/build_bayesmix.py`, `python/bayesmixpy/shell_utils.py`, the first lines of
`run_mcmc` in `python/bayesmixpy/run.py`, and their counterparts in `R/bayesmixr/R`.

Simplified: files of variables are lists of assignments, so names and values are assumed to need no
quotes or escapes, and writing them does not fail; numbers are finite; what `cmake` and `make` do is not modelled beyond how they end.
-/

namespace Bayesmix.Program
open Bayesmix

/-- Variables of the process. -/
abbrev Vars := Str → Option Str

/-- The variables of the process and the file of variables of the package. -/
structure Session where
  env : Vars
  file : List (Str × Str)

/-- `BAYESMIX_EXE`. -/
def exeKey : Str := "BAYESMIX_EXE".toList
/-- `BAYESMIXR_HOME`. -/
def homeKey : Str := "BAYESMIXR_HOME".toList
/-- `TBB_PATH`. -/
def tbbKey : Str := "TBB_PATH".toList

/-- The value of a variable in a file: that of the last assignment. -/
def fileValue (f : List (Str × Str)) (k : Str) : Option Str :=
  f.foldl (fun o p => if p.1 = k then some p.2 else o) none

/-- How a program that is called ends; `missing` if it cannot be started. -/
inductive Tool where
  | missing
  | exits (code : ℤ)

/-! ### Python -/

/-- `run_shell`, `python/bayesmixpy/shell_utils.py` 7-26, apart from what it prints. `Popen` raises
`FileNotFoundError` if the program does not exist; the exit status is never looked at. -/
def runShell : Tool → Except Fault Unit
  | .missing => .error .throw
  | .exits _ => .ok ()

/-- `os.path.join(a, b)` as used in `build_bayesmix.py` 41. -/
def joinPath (a b : Str) : Str :=
  if b.head? = some '/' then b
  else if a = [] ∨ a.getLast? = some '/' then a ++ b
  else a ++ '/' :: b

/-- `set_key` of the package `dotenv`: replaces the assignments to the name, or appends one. -/
def setKey (k v : Str) (f : List (Str × Str)) : List (Str × Str) :=
  if f.any (fun p => p.1 = k) then f.map (fun p => if p.1 = k then (k, v) else p) else f ++ [(k, v)]

/-- `"{0}/{1}".format(build_dir, "run_mcmc")`, `build_bayesmix.py` 62, and the value written in
`build_bayesmix.R` 57. -/
def exeIn (dir : Str) : Str := dir ++ "/run_mcmc".toList

/-- `build_bayesmix`, `python/bayesmixpy/build_bayesmix.py` 20-25 and 28-71. `home` is `BAYESMIX_HOME`, line
14; `dirOk` tells whether the directory exists or can be made (line 42). `run_shell` raises no
`CalledProcessError`, so the handlers in lines 47-51 and 56-60 are never entered, and an exception of
another kind leaves the function. `conv` is the call of `2to3` in lines 64-69: a missing program is
`None` in the list that line 67 joins, a `TypeError`; `sys.exit` is an exception as well. -/
def pyBuild (home dir : Str) (dirOk : Bool) (cmake make conv : Tool) (s : Session) :
    Except Fault Bool × Session :=
  if dirOk = false then (.error .throw, s)
  else match runShell cmake with
    | .error e => (.error e, s)
    | .ok _ => match runShell make with
      | .error e => (.error e, s)
      | .ok _ =>
        let s := { s with file := setKey exeKey (exeIn (joinPath home dir)) s.file }
        match conv with
        | .missing => (.error .throw, s)
        | .exits c => if c ≠ 0 then (.error .throw, s) else (.ok true, s)

/-- `load_dotenv(get_env_file())`, `run.py` 108: variables that the process already has are left as
they are, because `override` is `False` by default. -/
def loadDotenv (s : Session) : Session :=
  { s with env := fun k => match s.env k with
    | some v => some v
    | none => fileValue s.file k }

/-- The executable that `run_mcmc` calls, `run.py` 108-111. -/
def pyExe (s : Session) : Except Fault Str :=
  match (loadDotenv s).env exeKey with
  | some v => .ok v
  | none => .error .throw

/-- What a user does with the package. -/
inductive PyEvent where
  | build (dir : Str) (dirOk : Bool) (cmake make conv : Tool)
  | run
  /-- A new process with the given variables. -/
  | restart (env : Vars)

/-- The session after an event. Errors are shown to the user, who goes on. -/
def pyStep (home : Str) (s : Session) : PyEvent → Session
  | .build dir dirOk cmake make conv => (pyBuild home dir dirOk cmake make conv s).2
  | .run => loadDotenv s
  | .restart env => { s with env := env }

/-! ### R -/

/-- `readRenviron`: every variable in the file is set, also if the process has it. -/
def readRenviron (s : Session) : Session :=
  { s with env := fun k => match fileValue s.file k with
    | some v => some v
    | none => s.env k }

/-- `Sys.getenv`: empty if the variable is not set. -/
def getenv (s : Session) (k : Str) : Str := (s.env k).getD []

/-- `build_bayesmix`, `R/bayesmixr/R/build_bayesmix.R` 13-69. `nproc` is `none` if it is no number,
`subdir` if it is no string. `dirname` is R's function of this name. `dirOk` tells whether the
directory can be entered, `configure` and `build` are the exit statuses that `system` returns.
`sprintf('%d')` of a number that is not whole is an error (line 47). -/
def rBuild (dirname : Str → Str) (nproc : Option ℚ) (subdir : Option Str) (dirOk : Bool)
    (configure build : ℤ) (s : Session) : Except Fault Unit × Session :=
  match nproc, subdir with
  | some np, some sub =>
    let s := readRenviron s
    let home := getenv s homeKey
    if home = [] then (.error .throw, s)
    else
      let root := dirname (dirname home)
      let dir := root ++ '/' :: sub
      if dirOk = false then (.error .throw, s)
      else if configure ≠ 0 then (.error .throw, s)
      else if np.den ≠ 1 then (.error .throw, s)
      else if build ≠ 0 then (.error .throw, s)
      else (.ok (), readRenviron { s with file := s.file ++
        [(exeKey, exeIn dir), (tbbKey, root ++ "/lib/_deps/math-src/lib/tbb".toList)] })
  | _, _ => (.error .throw, s)

/-- The executable that `run_mcmc` calls, `R/bayesmixr/R/run_mcmc.R` 54-64. -/
def rExe (s : Session) : Except Fault Str :=
  let v := getenv (readRenviron s) exeKey
  if v = [] then .error .throw else .ok v

/-- What a user does with the package. -/
inductive REvent where
  | build (nproc : Option ℚ) (subdir : Option Str) (dirOk : Bool) (configure build : ℤ)
  | run
  /-- A new process with the given variables, and `.onAttach`, `R/bayesmixr/R/zzz.R` 2-4. -/
  | restart (env : Vars)
  /-- `.onDetach`, `R/bayesmixr/R/zzz.R` 7-11. -/
  | detach

/-- The session after an event. -/
def rStep (dirname : Str → Str) (s : Session) : REvent → Session
  | .build nproc subdir dirOk configure build =>
    (rBuild dirname nproc subdir dirOk configure build s).2
  | .run => readRenviron s
  | .restart env => readRenviron { s with env := env }
  | .detach => { s with env := fun k =>
      if k = homeKey ∨ k = exeKey ∨ k = tbbKey then none else s.env k }

/-- The session after the installation: `R/bayesmixr/configure` writes the first line of the file. -/
def rInstalled (home : Str) (env : Vars) : Session := ⟨env, [(homeKey, home)]⟩

end Bayesmix.Program
