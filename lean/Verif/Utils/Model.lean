import Verif.FaultLemmas
import Mathlib.Data.Real.Basic
import Mathlib.Algebra.BigOperators.Group.List.Basic

/-!
# Model of `src/utils` and `src/runtime/factory.h`

Messages of vectors and matrices, grids, stacking, text tables, posterior similarity,
cluster estimate, covariate lookup and the object factory.
-/

namespace Bayesmix.Utils

/-! ### `proto_utils.cc` -/

/-- An `Eigen::MatrixXd`: its shape and its storage, which is column-major.
The storage has `rows * cols` entries (`Mat.WF`). -/
structure Mat (α : Type) where
  rows : ℕ
  cols : ℕ
  store : List α
  deriving DecidableEq

/-- The storage of an Eigen matrix has the size of the matrix. -/
def Mat.WF {α : Type} (m : Mat α) : Prop := m.store.length = m.rows * m.cols

/-- `m(i, j)` of an Eigen matrix in range; column-major storage. -/
def Mat.at {α : Type} (m : Mat α) (i j : ℕ) : Option α :=
  if i < m.rows ∧ j < m.cols then m.store[j * m.rows + i]? else none

/-- `bayesmix::Vector` (`src/proto/matrix.proto`): `size` is an `int32`. -/
structure VecMsg (α : Type) where
  size : ℤ
  data : List α

/-- `bayesmix::Matrix` (`src/proto/matrix.proto`): `rows`, `cols` are `int32`. -/
structure MatMsg (α : Type) where
  rows : ℤ
  cols : ℤ
  rowmajor : Bool
  data : List α

/-- `to_proto(VectorXd, Vector*)`, `src/utils/proto_utils.cc` 11-15. -/
def vecToProto {α : Type} (v : List α) : VecMsg α := ⟨v.length, v⟩

/-- `to_proto(MatrixXd, Matrix*)`, `src/utils/proto_utils.cc` 17-23: the storage is copied. -/
def matToProto {α : Type} (m : Mat α) : MatMsg α := ⟨m.rows, m.cols, false, m.store⟩

/-- `to_eigen(Vector)`, `src/utils/proto_utils.cc` 25-33: `size` values are read from the
address of the first datum. -/
def vecToEigen {α : Type} (m : VecMsg α) : Except Fault (List α) :=
  if m.size > 0 then
    if m.data.length < m.size.toNat then .error .ub else .ok (m.data.take m.size.toNat)
  else .ok []

/-- Assignment of a row-major `Map` of `r * c` values to a column-major matrix
(`src/utils/proto_utils.cc` 42-45): the value of entry `(i, j)` is datum `i * c + j`. -/
def rowMajorStore {α : Type} (r c : ℕ) (data : List α) : List α :=
  (List.range (r * c)).filterMap (fun k => data[(k % r) * c + k / r]?)

/-- `to_eigen(Matrix)`, `src/utils/proto_utils.cc` 35-51. -/
def matToEigen {α : Type} (m : MatMsg α) : Except Fault (Mat α) :=
  if m.rows > 0 ∧ m.cols > 0 then
    let r := m.rows.toNat
    let c := m.cols.toNat
    if m.data.length < r * c then .error .ub
    else if m.rowmajor then .ok ⟨r, c, rowMajorStore r c m.data⟩
    else .ok ⟨r, c, m.data.take (r * c)⟩
  else .ok ⟨0, 0, []⟩

/-! ### `eigen_utils.cc` -/

/-- `out.row(k) = row` on a matrix under construction, given as its list of rows (`none`:
not yet written).  A row that does not exist is undefined behaviour. -/
def writeRow {α : Type} (out : List (Option α)) (k : ℕ) (row : α) :
    Except Fault (List (Option α)) :=
  vset out k (some row)

/-- `Eigen::ArrayXd::LinSpaced(n, lo, hi)`: `n` evenly spaced values from `lo` to `hi`;
only `hi` if `n = 1`. -/
noncomputable def linSpaced (n : ℕ) (lo hi : ℝ) : List ℝ :=
  (List.range n).map (fun i : ℕ => if n = 1 then hi else lo + (i : ℝ) * ((hi - lo) / ((n : ℝ) - 1)))

/-- `get_2d_grid`, `src/utils/eigen_utils.cc` 90-104. The rows of the result that were not
written are `none`. -/
def fillGrid (xgrid ygrid : List ℝ) : Except Fault (List (Option (ℝ × ℝ))) :=
  (List.range xgrid.length).foldlM (fun out i =>
    (List.range ygrid.length).foldlM (fun out j => do
      let x ← vget xgrid i
      let y ← vget ygrid j
      writeRow out (i * xgrid.length + j) (x, y)) out)
    (List.replicate (xgrid.length * ygrid.length) none)

/-- `get_2d_grid`, `src/utils/eigen_utils.cc` 90-104. -/
noncomputable def get2dGrid (x1 x2 : ℝ) (nx : ℕ) (y1 y2 : ℝ) (ny : ℕ) :
    Except Fault (List (Option (ℝ × ℝ))) :=
  fillGrid (linSpaced nx x1 x2) (linSpaced ny y1 y2)

/-- A matrix as its number of columns and its rows; used where the code handles whole
rows. Each row has `cols` entries (`RowMat.WF`). -/
structure RowMat (α : Type) where
  cols : ℕ
  rows : List (List α)
  deriving DecidableEq

/-- Every row has as many entries as the matrix has columns. -/
def RowMat.WF {α : Type} (m : RowMat α) : Prop := ∀ r ∈ m.rows, r.length = m.cols

/-- `out.block(begin, 0, m.rows(), ncols) = m`: the rows of `m` are written from row
`begin` on. -/
def writeBlock {α : Type} (out : List (Option (List α))) (b : ℕ) (m : RowMat α) :
    Except Fault (List (Option (List α))) :=
  (List.range m.rows.length).foldlM (fun out i => do
    let r ← vget m.rows i
    writeRow out (b + i) r) out

/-- Reads a matrix all of whose rows have been written; reading an unwritten row is
undefined behaviour. -/
def finishRows {α : Type} : List (Option α) → Except Fault (List α)
  | [] => .ok []
  | none :: _ => .error .ub
  | some a :: l => do
    let l' ← finishRows l
    .ok (a :: l')

/-- `vstack`, `src/utils/eigen_utils.cc` 9-36. -/
def vstack {α : Type} (mats : List (RowMat α)) : Except Fault (RowMat α) := do
  let m0 ← vget mats 0
  let ncols := m0.cols
  if mats.any (fun m => m.cols != ncols) then .error .throw
  else
    let nrows := mats.foldl (fun curr m => curr + m.rows.length) 0
    let res ← mats.foldlM (fun (p : List (Option (List α)) × ℕ) m => do
      let out ← writeBlock p.1 p.2 m
      pure (out, p.2 + m.rows.length)) (List.replicate nrows none, 0)
    let rows ← finishRows res.1
    .ok ⟨ncols, rows⟩

/-- In-place `append_by_row(MatrixXd*, MatrixXd)`, `src/utils/eigen_utils.cc` 38-57:
`conservativeResize` keeps the old rows and leaves the new ones unwritten. -/
def appendByRowInPlace {α : Type} (a b : RowMat α) : Except Fault (RowMat α) :=
  if a.rows.length = 0 then .ok b
  else if b.rows.length = 0 then .ok a
  else if a.cols ≠ b.cols then .error .throw
  else do
    let out ← writeBlock (a.rows.map some ++ List.replicate b.rows.length none) a.rows.length b
    let rows ← finishRows out
    .ok ⟨a.cols, rows⟩

/-- `append_by_row(MatrixXd, MatrixXd)`, `src/utils/eigen_utils.cc` 59-78: Eigen's comma
initialiser `out << a, b` writes the rows of `a`, then those of `b`. -/
def appendByRow {α : Type} (a b : RowMat α) : Except Fault (RowMat α) :=
  if a.rows.length = 0 then .ok b
  else if b.rows.length = 0 then .ok a
  else if a.cols ≠ b.cols then .error .throw
  else do
    let out ← writeBlock (List.replicate (a.rows.length + b.rows.length) none) 0 a
    let out ← writeBlock out a.rows.length b
    let rows ← finishRows out
    .ok ⟨a.cols, rows⟩

/-- `stack_vectors`, `src/utils/eigen_utils.h` 35-42. Assigning a vector of another size to
a row is an Eigen assertion, undefined behaviour without assertions. -/
def stackVectors {α : Type} (rows : List (List α)) : Except Fault (RowMat α) := do
  let r0 ← vget rows 0
  let ncols := r0.length
  let out ← (List.range rows.length).foldlM (fun out i => do
    let r ← vget rows i
    if r.length = ncols then writeRow out i r else .error .ub)
    (List.replicate rows.length none)
  let res ← finishRows out
  .ok ⟨ncols, res⟩

/-! ### `io_utils.cc` -/

/-- All the strings that successive calls of `std::getline(stream, s, d)` return until the
stream fails: pieces ended by `d` or by the end of the stream; a call that extracts no
character at the end of the stream fails. -/
def getlines (d : Char) : List Char → List (List Char)
  | [] => []
  | c :: cs =>
    if c = d then [] :: getlines d cs
    else
      match getlines d cs with
      | [] => [[c]]
      | l :: ls => (c :: l) :: ls

/-- One entry of the file is stored: `mat(i, j) = std::stof(entry)`,
`src/utils/io_utils.cc` 52: `std::stof` throws on a string that is no number; a place
outside the matrix is undefined behaviour. -/
def storeEntry {α : Type} (stof : List Char → Option α) (row : List (Option α)) (j : ℕ)
    (entry : List Char) : Except Fault (List (Option α)) :=
  match stof entry with
  | none => .error .throw
  | some x => vset row j (some x)

/-- The body of the loop over the lines of the file, `src/utils/io_utils.cc` 47-55: one row
of the matrix with `cols` columns, unwritten entries are `none`. -/
def readRow {α : Type} (delim : Char) (stof : List Char → Option α) (cols : ℕ)
    (line : List Char) : Except Fault (List (Option α)) := do
  let res ← (getlines delim line).foldlM (fun (p : List (Option α) × ℕ) entry => do
    let row ← storeEntry stof p.1 p.2 entry
    pure (row, p.2 + 1)) (List.replicate cols none, 0)
  .ok res.1

/-- The number of columns: entries of the first line, `src/utils/io_utils.cc` 31-37. -/
def countCols (delim : Char) : List (List Char) → ℕ
  | [] => 0
  | l :: _ => (getlines delim l).length

/-- `read_eigen_matrix`, `src/utils/io_utils.cc` 18-60, on the text of an existing file:
the number of rows is the number of lines, the number of columns that of the entries of the
first line. Returns the shape and the entries by row. -/
def readEigenMatrix {α : Type} (delim : Char) (stof : List Char → Option α)
    (file : List Char) : Except Fault (ℕ × ℕ × List (List (Option α))) := do
  let lines := getlines '\n' file
  let cols := countCols delim lines
  let rows ← lines.mapM (readRow delim stof cols)
  .ok (lines.length, cols, rows)

/-- Concatenation with a separator character. -/
def joinWith (sep : Char) : List (List Char) → List Char
  | [] => []
  | [a] => a
  | a :: b :: l => a ++ sep :: joinWith sep (b :: l)

/-- `write_matrix_to_file`, `src/utils/io_utils.cc` 62-71: Eigen's formatter prints nothing
for a matrix without entries, otherwise the coefficients printed by `fmt` separated by the
delimiter, and rows separated by line ends, without a final one. -/
def writeMatrixToFile {α : Type} (delim : Char) (fmt : α → List Char) (m : RowMat α) :
    List Char :=
  if m.rows.length = 0 ∨ m.cols = 0 then []
  else joinWith '\n' (m.rows.map (fun r => joinWith delim (r.map fmt)))

/-! ### `cluster_utils.cc` -/

/-- Matrix assignment `m(i, j) = x`. -/
def setEntry (m : ℕ → ℕ → ℝ) (i j : ℕ) (x : ℝ) : ℕ → ℕ → ℝ :=
  fun a b => if a = i ∧ b = j then x else m a b

/-- `posterior_similarity`, `src/utils/cluster_utils.cc` 9-21. The chain has `T` rows and
`n` columns; entries outside the matrix are not looked at. -/
noncomputable def posteriorSimilarity (T n : ℕ) (chain : ℕ → ℕ → ℝ) : ℕ → ℕ → ℝ :=
  let meanDiss := (List.range n).foldl (fun m i =>
    (List.range i).foldl (fun m j =>
      setEntry m i j ((List.range T).countP (fun t => chain t i - chain t j == 0) : ℕ)) m)
    (fun _ _ => (0 : ℝ))
  fun i j => meanDiss i j / T

/-- The error of iteration `k` as accumulated by `src/utils/cluster_utils.cc` 41-47,
starting from the value `start` the uninitialised `errors(k)` happens to have. -/
noncomputable def accumulateError (n : ℕ) (row : ℕ → ℤ) (sim : ℕ → ℕ → ℝ) (start : ℝ) : ℝ :=
  (List.range n).foldl (fun e i =>
    (List.range i).foldl (fun e j =>
      let x : ℝ := if row i = row j then 1 else 0
      e + (x - sim i j) * (x - sim i j)) e) start

/-- `errors.minCoeff(&ibest)` over `0..T-1`: Eigen's visitor starts at entry 0 and moves on
a strictly smaller entry. -/
noncomputable def minCoeffIdx (errors : ℕ → ℝ) (T : ℕ) : ℕ :=
  (List.range T).foldl (fun best k => if errors k < errors best then k else best) 0

/-- `cluster_estimate`, `src/utils/cluster_utils.cc` 23-58, on a chain of `T` rows and `n`
columns; `garbage` is the content of the uninitialised vector `errors`.  `minCoeff` of an
empty vector is an Eigen assertion. Returns the chosen row. -/
noncomputable def clusterEstimate (T n : ℕ) (chain : ℕ → ℕ → ℤ) (garbage : ℕ → ℝ) :
    Except Fault (ℕ → ℤ) :=
  let sim := posteriorSimilarity T n (fun t i => (chain t i : ℝ))
  let errors := fun k => accumulateError n (chain k) sim (garbage k)
  if T = 0 then .error .assertFail else .ok (chain (minCoeffIdx errors T))

/-! ### `covariates_getter.h`, grid evaluations -/

/-- `covariates_getter::operator()`, `src/utils/covariates_getter.h` 14-22. -/
def getCovariate {α : Type} (cov : RowMat α) (i : ℕ) : Except Fault (List α) :=
  if cov.cols = 0 then .ok []
  else if cov.rows.length = 1 then vget cov.rows 0
  else vget cov.rows i

/-- `BaseLikelihood::lpdf_grid`, `src/hierarchies/likelihoods/base_likelihood.h` 217-226;
also `conditional_pred_lpdf_grid`'s loop. `lpdf datum covariate` is the pointwise
evaluation. -/
def lpdfGrid {α β : Type} (lpdf : List α → List α → β) (data cov : RowMat α) :
    Except Fault (List β) :=
  (List.range data.rows.length).mapM (fun i => do
    let d ← vget data.rows i
    let c ← getCovariate cov i
    pure (lpdf d c))

/-- `BaseHierarchy::prior_pred_lpdf_grid`, `src/hierarchies/base_hierarchy.h` 159-184:
three loops. -/
def priorPredLpdfGrid {α β : Type} (lpdf : List α → List α → β) (data cov : RowMat α) :
    Except Fault (List β) :=
  if cov.cols = 0 then
    (List.range data.rows.length).mapM (fun i => do
      let d ← vget data.rows i
      pure (lpdf d []))
  else if cov.rows.length = 1 then
    (List.range data.rows.length).mapM (fun i => do
      let d ← vget data.rows i
      let c ← vget cov.rows 0
      pure (lpdf d c))
  else
    (List.range data.rows.length).mapM (fun i => do
      let d ← vget data.rows i
      let c ← vget cov.rows i
      pure (lpdf d c))

/-! ### `factory.h` -/

/-- `std::map<Identifier, Builder>` as the list of its entries in iteration order. -/
abbrev Storage (B : Type) := List (ℕ × B)

/-- `storage.insert(std::make_pair(id, builder))`, `src/runtime/factory.h` 81-83: no effect
if the key is present. -/
def addBuilder {B : Type} (id : ℕ) (b : B) : Storage B → Storage B
  | [] => [(id, b)]
  | (k, v) :: l =>
    if id < k then (id, b) :: (k, v) :: l
    else if id = k then (k, v) :: l
    else (k, v) :: addBuilder id b l

/-- `storage.find(id)`. -/
def findBuilder {B : Type} (id : ℕ) : Storage B → Option B
  | [] => none
  | (k, v) :: l => if k = id then some v else findBuilder id l

/-- `create_object(id)`, `src/runtime/factory.h` 52-62; the object is identified with the
builder that makes it. -/
def createById {B : Type} (s : Storage B) (id : ℕ) : Except Fault B :=
  match findBuilder id s with
  | none => .error .throw
  | some b => .ok b

/-- `name_to_id`, `src/runtime/factory.h` 112-117: `ParseNamedEnum` leaves the
uninitialised identifier alone when the name is unknown; `stack` is the value it happens
to have. -/
def nameToId (enumNames : String → Option ℕ) (stack : ℕ) (name : String) : ℕ :=
  match enumNames name with
  | some id => id
  | none => stack

/-- `create_object(name)`, `src/runtime/factory.h` 67-76. Formally reading the
uninitialised identifier is undefined behaviour; the model lets it be any value. -/
def createByName {B : Type} (s : Storage B) (enumNames : String → Option ℕ) (stack : ℕ)
    (name : String) : Except Fault B :=
  createById s (nameToId enumNames stack name)

/-- `list_of_known_builders`, `src/runtime/factory.h` 86-93. -/
def knownBuilders {B : Type} (s : Storage B) : List ℕ := s.map Prod.fst

/-- `check_existence`, `src/runtime/factory.h` 96-98. -/
def checkExistence {B : Type} (s : Storage B) (id : ℕ) : Bool := (findBuilder id s).isSome

/-- The storage after a sequence of registrations. -/
def registerAll {B : Type} (l : List (ℕ × B)) : Storage B :=
  l.foldl (fun s p => addBuilder p.1 p.2 s) []

end Bayesmix.Utils
