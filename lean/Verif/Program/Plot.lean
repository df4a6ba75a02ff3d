import Verif.Program.Main
import Verif.Utils.Plots
import Mathlib.Analysis.SpecialFunctions.Log.Basic

/-!
# The program `plot_mcmc`

`executables/plot_mcmc.cc` and `src/plots/plot_utils.cc` as a function of the command line and of
the file system. The figures are drawn by Matplot++: what is saved is an arbitrary function of the
numbers handed to it. Numbers are exact and finite.
-/

namespace Bayesmix.Program
open Utils

/-- The numbers of a figure. -/
inductive Figure where
  | line (x y : List ℝ)
  | trace (x y : List ℝ)
  | bars (ticks : List ℤ) (heights : List ℝ)
  | contour (X Y Z : List (List ℝ))

/-- What `plot_mcmc` uses: reading a number, and the file that Matplot++ saves for a figure. -/
structure PlotLib where
  stof : List Char → Option ℝ
  render : Figure → List Char

section plot

variable (P : PlotLib) (writable : Str → Bool) (A : List Argument)

/-- An entry of a matrix that was read; `none` was never written. -/
def entry : Option ℝ → Except Fault ℝ
  | none => .error .ub
  | some x => .ok x

/-- `read_eigen_matrix`, `src/utils/io_utils.cc` 18-60: number of rows, number of columns, rows. -/
def readReal (n : Str) : Prog (ℕ × ℕ × List (List ℝ)) := fun fs =>
  match fs n with
  | none => (.error .throw, fs)
  | some c => ((do
      let m ← readEigenMatrix ',' P.stof c
      let rows ← m.2.2.mapM fun r => r.mapM entry
      pure (m.1, m.2.1, rows)), fs)

/-- `matplot::save`: errors are not looked at. -/
def save (n : Str) (f : Figure) : Prog Unit := writeFile writable n (P.render f)

/-- `data()` of a matrix: its columns one after the other. -/
def colMajor (cols : ℕ) (rows : List (List ℝ)) : List ℝ :=
  (List.range cols).flatMap fun j => rows.map fun r => r.getD j 0

/-- `num_clus_trace`, `src/plots/plot_utils.cc` 70-80: the iterations count from one. -/
def numClusTrace (cols : ℕ) (rows : List (List ℝ)) : Figure :=
  .trace ((List.range (rows.length * cols)).map fun i : ℕ => (i : ℝ) + 1) (colMajor cols rows)

/-- `cast<int>()`: rounds towards zero, undefined outside the range of `int`. -/
noncomputable def castInt (x : ℝ) : Except Fault ℤ :=
  let z := if 0 ≤ x then ⌊x⌋ else ⌈x⌉
  if -(2 ^ 31) ≤ z ∧ z < 2 ^ 31 then .ok z else .error .ub

/-- `num_clus_bar`, `src/plots/plot_utils.cc` 90-110. -/
noncomputable def numClusBars (cols : ℕ) (rows : List (List ℝ)) : Except Fault Figure := do
  let col ← rows.mapM fun r => castInt (r.getD 0 0)
  let b ← numClusBar col cols
  pure (.bars b.1 b.2)

/-- `dens.colwise().mean()`. -/
noncomputable def colMeans (cols : ℕ) (rows : List (List ℝ)) : List ℝ :=
  (List.range cols).map fun j => (rows.map fun r => r.getD j 0).sum / rows.length

/-- `density_plot_1d`, `src/plots/plot_utils.cc` 35-47; the caller has checked the sizes. -/
def densityPlot1d (rows : List (List ℝ)) (dens : List ℝ) : Figure :=
  .line (colMajor 1 rows) dens

/-- `density_plot_2d` with `log_scale` true, `src/plots/plot_utils.cc` 49-68. -/
noncomputable def densityPlot2d (rows : List (List ℝ)) (dens : List ℝ) : Except Fault Figure := do
  let m ← toMesh (rows.map fun r => r.getD 0 0) (rows.map fun r => r.getD 1 0) (dens.map Real.log)
  pure (.contour m.1 m.2.1 m.2.2)

/-- The block for the traceplot, `executables/plot_mcmc.cc` 60-64. -/
def traceBlock (ncl plot : Str) : Prog Unit :=
  whenP (ncl ≠ emptyStr ∧ plot ≠ emptyStr) do
    checkWriteable writable plot
    let m ← readReal P ncl
    save P writable plot (numClusTrace m.2.1 m.2.2)

/-- The block for the histogram, `executables/plot_mcmc.cc` 67-71. -/
noncomputable def barBlock (ncl plot : Str) : Prog Unit :=
  whenP (ncl ≠ emptyStr ∧ plot ≠ emptyStr) do
    checkWriteable writable plot
    let m ← readReal P ncl
    let f ← liftE (numClusBars m.2.1 m.2.2)
    save P writable plot f

/-- The block for the density, `executables/plot_mcmc.cc` 78-113. -/
noncomputable def densPlotBlock (grid dens plot : Str) : Prog Unit :=
  whenP (grid ≠ emptyStr ∧ dens ≠ emptyStr ∧ plot ≠ emptyStr) do
    checkWriteable writable plot
    let g ← readReal P grid
    let d ← readReal P dens
    if g.1 ≠ d.2.1 then liftE (.error .throw)
    else if g.2.1 = 1 then
      save P writable plot (densityPlot1d g.2.2 (colMeans d.2.1 (d.2.2.map fun r => r.map Real.exp)))
    else if g.2.1 = 2 then do
      let f ← liftE (densityPlot2d g.2.2 (colMeans d.2.1 (d.2.2.map fun r => r.map Real.exp)))
      save P writable plot f
    else pure ()

/-- `main` after the command line was parsed, `executables/plot_mcmc.cc` 54-116. -/
noncomputable def plotBody : Prog Unit := do
  let ncl ← liftE (getArg A "--n-cl-file".toList)
  let trace ← liftE (getArg A "--n-cl-trace-plot".toList)
  let bar ← liftE (getArg A "--n-cl-bar-plot".toList)
  traceBlock P writable ncl trace
  barBlock P writable ncl bar
  let grid ← liftE (getArg A "--grid-file".toList)
  let dens ← liftE (getArg A "--dens-file".toList)
  let plot ← liftE (getArg A "--dens-plot".toList)
  densPlotBlock P writable grid dens plot

end plot

/-- `main`, `executables/plot_mcmc.cc` 9-117, on the words of the command line after the name of the
program. -/
noncomputable def plotMcmc (P : PlotLib) (writable : Str → Bool) (cl : List Str) (fs : FS) :
    Ended × FS :=
  match parseArgs (parserOf plotOpts) cl with
  | .error .exit0 => (.status 0, fs)
  | .error .fail => (.status 1, fs)
  | .ok A => match plotBody P writable A fs with
    | (.ok _, fs) => (.status 0, fs)
    | (.error e, fs) => (.died e, fs)

end Bayesmix.Program
