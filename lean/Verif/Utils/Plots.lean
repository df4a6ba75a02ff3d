import Verif.Fault
import Mathlib.Data.Real.Basic

/-!
# The plots of `plot_mcmc`

`src/plots/plot_utils.cc` and `executables/plot_mcmc.cc`.  The figures are drawn by Matplot++;
modelled are the numbers handed to it.
-/

namespace Bayesmix.Utils

/-- A `vector<vector<double>>` with `r` rows of `c` entries. -/
def table {α : Type} (r c : ℕ) (f : ℕ → ℕ → α) : List (List α) :=
  (List.range r).map fun i => (List.range c).map (f i)

/-- `g[i][j] = v`: both subscripts are unchecked. -/
def set2 {α : Type} (g : List (List α)) (i j : ℕ) (v : α) : Except Fault (List (List α)) := do
  let row ← vget g i
  let row ← vset row j v
  vset g i row

open Classical in
/-- The loop of `to_mesh`, `src/plots/plot_utils.cc` 7-12, from the current value of `ny`:
`while (ny < grid.rows() && grid(ny + 1, 0) == first_x) ny += 1;`.  `xs` is the first column of
the grid.  Reading a row that the grid does not have is undefined behaviour (an assertion in
builds with assertions). -/
noncomputable def countY (xs : List ℝ) (first : ℝ) (ny : ℕ) : Except Fault ℕ :=
  if ny < xs.length then
    match vget xs (ny + 1) with
    | .error e => .error e
    | .ok x => if x = first then countY xs first (ny + 1) else .ok ny
  else .ok ny
termination_by xs.length - ny

/-- `to_mesh(grid, vals)`, `src/plots/plot_utils.cc` 3-33.  `xs` and `ys` are the two columns of
the grid.  `xgrid` and `zgrid` are made with `ny` rows of `nx` entries, `ygrid` with `nx` rows of
`ny` entries; all three are then filled at `[i][j]` for `i < nx` and `j < ny`. -/
noncomputable def toMesh (xs ys vals : List ℝ) :
    Except Fault (List (List ℝ) × List (List ℝ) × List (List ℝ)) := do
  let first ← vget xs 0
  let m ← countY xs first 0
  let ny := m + 1
  if xs.length % ny = 0 then
    let nx := xs.length / ny
    (List.range nx).foldlM (fun g i =>
      (List.range ny).foldlM (fun g j => do
        let x ← vget xs (i * ny + j)
        let X ← set2 g.1 i j x
        let y ← vget ys (i * ny + j)
        let Y ← set2 g.2.1 i j y
        let z ← vget vals (i * ny + j)
        let Z ← set2 g.2.2 i j z
        pure (X, Y, Z)) g)
      (table ny nx fun _ _ => (0 : ℝ), table nx ny fun _ _ => (0 : ℝ),
        table ny nx fun _ _ => (0 : ℝ))
  else .error .throw

/-- `minCoeff()` of a vector of integers: without entries it is an Eigen assertion. -/
def minCoeff : List ℤ → Except Fault ℤ
  | [] => .error .assertFail
  | a :: l => .ok (l.foldl min a)

/-- `maxCoeff()` of a vector of integers. -/
def maxCoeff : List ℤ → Except Fault ℤ
  | [] => .error .assertFail
  | a :: l => .ok (l.foldl max a)

/-- The ticks and the heights of `num_clus_bar`, `src/plots/plot_utils.cc` 90-108.  `col` is the
first column of the matrix that is read from the file of the numbers of clusters, whose entries
are integers, and `cols` its number of columns; `n_iters` is `num_clus_chain_.size()`, the number
of entries of the matrix. -/
noncomputable def numClusBar (col : List ℤ) (cols : ℕ) : Except Fault (List ℤ × List ℝ) := do
  let nIters := col.length * cols
  let xmin ← minCoeff col
  let xmax ← maxCoeff col
  let nticks := (xmax - xmin + 1).toNat
  let xticks := (List.range nticks).map fun k : ℕ => xmin + (k : ℤ)
  let heights ← (List.range nIters).foldlM (fun (h : List ℝ) i => do
    let c ← vget col i
    if c - xmin < 0 then .error .ub else
      let old ← vget h (c - xmin).toNat
      vset h (c - xmin).toNat (old + 1)) (List.replicate nticks 0)
  pure (xticks, heights.map fun h => h / nIters)

end Bayesmix.Utils
