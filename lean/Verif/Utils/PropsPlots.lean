import Verif.Utils.PlotLemmas
import Mathlib.Data.Real.Archimedean

/-!
# C103, C104: the numbers behind the plots

* **C103** `to_mesh` turns the rows of a rectangular grid and the values at them into three
  tables in which entry `(i, j)` holds the first coordinate, the second coordinate and the value
  of the same row of the grid.
* **C104** The bars of the plot of the number of clusters are the relative frequencies of the
  numbers of clusters in the chain.
-/

namespace Bayesmix.Utils

/-! ### C103 -/

/-- First column of the rectangular grid with `nx` values on the first axis and `ny` on the
second one, the first coordinate moving slowest. -/
def gridX (x : ℕ → ℝ) (nx ny : ℕ) : List ℝ := (List.range (nx * ny)).map fun k => x (k / ny)

/-- Second column of the rectangular grid. -/
def gridY (y : ℕ → ℝ) (nx ny : ℕ) : List ℝ := (List.range (nx * ny)).map fun k => y (k % ny)

/-- Values at the rows of the rectangular grid. -/
def gridVals (z : ℕ → ℕ → ℝ) (nx ny : ℕ) : List ℝ :=
  (List.range (nx * ny)).map fun k => z (k / ny) (k % ny)

/-- What `to_mesh` is for: on every rectangular grid it returns, at `[i][j]`, the first
coordinate, the second coordinate and the value of grid point `(i, j)`. -/
def MeshFaithful (nx ny : ℕ) : Prop :=
  ∀ (x y : ℕ → ℝ) (z : ℕ → ℕ → ℝ), x 0 ≠ x 1 →
    toMesh (gridX x nx ny) (gridY y nx ny) (gridVals z nx ny) =
      .ok (table nx ny fun i _ => x i, table nx ny fun _ j => y j, table nx ny z)

theorem grid_entry {nx ny i j : ℕ} (hi : i < nx) (hj : j < ny) (f : ℕ → ℕ → ℝ) :
    ((List.range (nx * ny)).map fun k => f (k / ny) (k % ny))[i * ny + j]? = some (f i j) := by
  have hlt : i * ny + j < nx * ny := by
    have := Nat.mul_le_mul_right ny (Nat.succ_le_of_lt hi)
    rw [Nat.succ_mul] at this
    omega
  have hd : (i * ny + j) / ny = i := by
    rw [Nat.add_comm, Nat.add_mul_div_right _ _ (by omega), Nat.div_eq_of_lt hj, Nat.zero_add]
  have hm : (i * ny + j) % ny = j := by
    rw [Nat.add_comm, Nat.add_mul_mod_self_right, Nat.mod_eq_of_lt hj]
  simp only [List.getElem?_map, List.getElem?_range hlt, Option.map_some, hd, hm]

theorem gridX_first {x : ℕ → ℝ} {nx ny k : ℕ} (hx : 1 ≤ nx) (hk : k < ny) :
    (gridX x nx ny)[k]? = some (x 0) := by
  have := grid_entry (nx := nx) (ny := ny) (i := 0) (j := k) (by omega) hk fun i _ => x i
  simpa [gridX] using this

theorem gridX_count {x : ℕ → ℝ} {nx ny : ℕ} (hx : 2 ≤ nx) (hy : 1 ≤ ny) (hne : x 0 ≠ x 1) :
    countY (gridX x nx ny) (x 0) 0 = .ok (ny - 1) := by
  have h := countY_run (gridX x nx ny) (x 0) (ny - 1)
    (fun k _ hk => gridX_first (by omega) (by omega)) (x 1)
    (by
      have := grid_entry (nx := nx) (ny := ny) (i := 1) (j := 0) (by omega) (by omega)
        fun i _ => x i
      have e : ny - 1 + 1 = 1 * ny + 0 := by omega
      rw [e]
      simpa [gridX] using this) (fun h => hne h.symm) (ny - 1) (le_refl _)
  simpa using h

theorem toMesh_grid {x y : ℕ → ℝ} {z : ℕ → ℕ → ℝ} {nx ny : ℕ} (hx : 2 ≤ nx) (hy : 1 ≤ ny)
    (hne : x 0 ≠ x 1) :
    toMesh (gridX x nx ny) (gridY y nx ny) (gridVals z nx ny) =
      meshFill (gridX x nx ny) (gridY y nx ny) (gridVals z nx ny) nx ny := by
  have hlen : (gridX x nx ny).length = nx * ny := by simp [gridX]
  rw [toMesh_eq (gridX_first (by omega) (by omega)) (gridX_count hx hy hne), hlen]
  have e : ny - 1 + 1 = ny := by omega
  rw [e, if_pos (Nat.mul_mod_left _ _), Nat.mul_div_left _ (by omega)]

/-- **C103 (partial).** On a square grid with at least two points on each axis the three tables
are right.  Missing: grids with different numbers of points on the two axes, and grids with one
point on the first axis, see `c103_mesh_violated`. -/
theorem c103_mesh_partial (n : ℕ) (hn : 2 ≤ n) : MeshFaithful n n := by
  intro x y z hne
  rw [toMesh_grid hn (by omega) hne]
  refine meshFill_eq (fun i _ => x i) (fun _ j => y j) z ?_ ?_ ?_
  · intro i hi j hj
    exact grid_entry hi hj fun i _ => x i
  · intro i hi j hj
    exact grid_entry hi hj fun _ j => y j
  · intro i hi j hj
    exact grid_entry hi hj z

/-- A grid of 50 by 50 points. -/
example : MeshFaithful 50 50 := c103_mesh_partial 50 (by norm_num)

/-- **C103, failing cases.** On every rectangular grid with different numbers of points on the
two axes entries outside the tables are written; on every grid with a single value on the first
axis a row past the end of the grid is read. -/
theorem c103_mesh_violated (nx ny : ℕ) (hy : 1 ≤ ny) (x y : ℕ → ℝ) (z : ℕ → ℕ → ℝ) :
    (2 ≤ nx → nx ≠ ny → x 0 ≠ x 1 →
      toMesh (gridX x nx ny) (gridY y nx ny) (gridVals z nx ny) = .error .ub) ∧
    (nx = 1 → toMesh (gridX x nx ny) (gridY y nx ny) (gridVals z nx ny) = .error .ub) := by
  constructor
  · intro hx hnn hne
    rw [toMesh_grid hx hy hne]
    cases h : meshFill (gridX x nx ny) (gridY y nx ny) (gridVals z nx ny) nx ny with
    | error e => rw [meshFill_err _ _ _ _ _ e h]
    | ok g => exact absurd (meshFill_square (by omega) (by omega) h) hnn
  · rintro rfl
    have hlen : (gridX x 1 ny).length = ny := by simp [gridX]
    have h0 : (gridX x 1 ny)[0]? = some (x 0) := gridX_first (le_refl _) (by omega)
    unfold toMesh
    rw [vget_ok h0, ok_bind, countY_const _ (x 0)
      (fun k hk => gridX_first (le_refl _) (hlen ▸ hk)) ny 0 (by rw [hlen]; omega) (by omega)]
    rfl

/-- A grid of 30 by 20 points cannot be drawn. -/
example : ¬ MeshFaithful 30 20 := by
  intro h
  have h1 := h (fun k => (k : ℝ)) (fun k => (k : ℝ)) (fun _ _ => 1) (by norm_num)
  rw [(c103_mesh_violated 30 20 (by norm_num) (fun k => (k : ℝ)) (fun k => (k : ℝ))
    (fun _ _ => 1)).1 (by norm_num) (by norm_num) (by norm_num)] at h1
  cases h1

/-- **C103, all grids.** Whatever the grid, if tables are returned then the number of rows of the
grid is the square of the length of its first run of equal first coordinates, which is at least
two, and every entry of the tables comes from the row `i * n + j` of the grid. -/
theorem c103_only_square (xs ys vals : List ℝ)
    (X Y Z : List (List ℝ)) (h : toMesh xs ys vals = .ok (X, Y, Z))
    (hy : ys.length = xs.length) (hv : vals.length = xs.length) :
    ∃ n, 2 ≤ n ∧ xs.length = n * n ∧ (∀ k < n, xs[k]? = xs[0]?) ∧ xs[n]? ≠ xs[0]? ∧
      X.length = n ∧ Y.length = n ∧ Z.length = n ∧
      ∀ i < n, ∀ j < n,
        (X[i]?.bind fun r => r[j]?) = xs[i * n + j]? ∧
        (Y[i]?.bind fun r => r[j]?) = ys[i * n + j]? ∧
        (Z[i]?.bind fun r => r[j]?) = vals[i * n + j]? := by
  cases h0 : xs[0]? with
  | none =>
    unfold toMesh at h
    simp [vget, h0] at h
  | some first =>
  have hpos := (List.getElem?_eq_some_iff.mp h0).1
  cases hc : countY xs first 0 with
  | error e =>
    unfold toMesh at h
    rw [vget_ok h0, ok_bind, hc] at h
    cases h
  | ok m =>
  obtain ⟨-, hm1, hrun, x', hx', hne⟩ := countY_ok xs first _ 0 m rfl hpos hc
  rw [toMesh_eq h0 hc] at h
  by_cases hmod : xs.length % (m + 1) = 0
  · rw [if_pos hmod] at h
    have hdm := Nat.div_add_mod xs.length (m + 1)
    rw [hmod, Nat.add_zero] at hdm
    have hq : 0 < xs.length / (m + 1) := by
      rcases Nat.eq_zero_or_pos (xs.length / (m + 1)) with hz | hz
      · rw [hz] at hdm; omega
      · exact hz
    have hsq := meshFill_square hq (by omega) h
    rw [hsq] at h hdm
    have hlt : ∀ i < m + 1, ∀ j < m + 1, i * (m + 1) + j < xs.length := by
      intro i hi j hj
      have := Nat.mul_le_mul_right (m + 1) (Nat.succ_le_of_lt hi)
      rw [Nat.succ_mul] at this
      omega
    have hget : ∀ (l : List ℝ), l.length = xs.length → ∀ i < m + 1, ∀ j < m + 1,
        l[i * (m + 1) + j]? = some (l.getD (i * (m + 1) + j) 0) := by
      intro l hl i hi j hj
      have hk : i * (m + 1) + j < l.length := hl ▸ hlt i hi j hj
      rw [List.getElem?_eq_getElem hk, List.getD_eq_getElem?_getD, List.getElem?_eq_getElem hk]
      rfl
    rw [meshFill_eq (fun i j => xs.getD (i * (m + 1) + j) 0)
      (fun i j => ys.getD (i * (m + 1) + j) 0) (fun i j => vals.getD (i * (m + 1) + j) 0)
      (hget xs rfl) (hget ys hy) (hget vals hv)] at h
    obtain ⟨rfl, rfl, rfl⟩ := by simpa using Except.ok.inj h
    have htab : ∀ (f : ℕ → ℕ → ℝ), ∀ i < m + 1, ∀ j < m + 1,
        ((table (m + 1) (m + 1) f)[i]?.bind fun r => r[j]?) = some (f i j) := by
      intro f i hi j hj
      simp [table, hi, hj]
    refine ⟨m + 1, ?_, hdm.symm, ?_, ?_, by simp [table], by simp [table], by simp [table], ?_⟩
    · by_contra hlt2
      have : m = 0 := by omega
      subst this
      omega
    · intro k hk
      rcases Nat.eq_zero_or_pos k with rfl | hkp
      · exact h0
      · exact hrun k hkp (by omega)
    · rw [hx']
      exact fun h => hne (Option.some.inj h)
    · intro i hi j hj
      rw [htab _ i hi j hj, htab _ i hi j hj, htab _ i hi j hj, hget xs rfl i hi j hj,
        hget ys hy i hi j hj, hget vals hv i hi j hj]
      exact ⟨rfl, rfl, rfl⟩
  · rw [if_neg hmod] at h
    cases h

/-- A two by two grid meets the hypotheses. -/
example : ∃ X Y Z, toMesh [0, 0, 1, 1] [5, 6, 5, 6] [1, 2, 3, 4] = .ok (X, Y, Z) ∧
    ([5, 6, 5, 6] : List ℝ).length = ([0, 0, 1, 1] : List ℝ).length := by
  have h := c103_mesh_partial 2 (le_refl _) (fun k => (k : ℝ)) (fun k => 5 + (k : ℝ))
    (fun i j => 1 + 2 * (i : ℝ) + (j : ℝ)) (by norm_num)
  have e1 : gridX (fun k => (k : ℝ)) 2 2 = [0, 0, 1, 1] := by simp [gridX, List.range_succ]
  have e2 : gridY (fun k => 5 + (k : ℝ)) 2 2 = [5, 6, 5, 6] := by
    simp [gridY, List.range_succ]; norm_num
  have e3 : gridVals (fun i j => 1 + 2 * (i : ℝ) + (j : ℝ)) 2 2 = [1, 2, 3, 4] := by
    simp [gridVals, List.range_succ]; norm_num
  rw [e1, e2, e3] at h
  exact ⟨_, _, _, h, rfl⟩

/-! ### C104 -/

/-- **C104.** For every nonempty chain of numbers of clusters (one per line of the file) the plot
has one bar for every integer between the smallest and the largest number of clusters in the
chain, the height of the bar at `k` is the share of the iterations with `k` clusters, every
number of clusters in the chain has a bar, and the heights add up to one. -/
theorem c104_bars (col : List ℤ) (h : col ≠ []) :
    ∃ (lo hi : ℤ) (heights : List ℝ),
      lo ∈ col ∧ hi ∈ col ∧ (∀ a ∈ col, lo ≤ a ∧ a ≤ hi) ∧
      numClusBar col 1 =
        .ok ((List.range (hi - lo + 1).toNat).map (fun k : ℕ => lo + (k : ℤ)), heights) ∧
      heights.length = (hi - lo + 1).toNat ∧
      (∀ a, lo ≤ a → a ≤ hi →
        heights[(a - lo).toNat]? = some ((col.count a : ℝ) / col.length)) ∧
      heights.sum = 1 := by
  obtain ⟨lo, hlo, hlom, hlol⟩ := minCoeff_ok col h
  obtain ⟨hi, hhi, hhim, hhil⟩ := maxCoeff_ok col h
  have hr : ∀ a ∈ col, lo ≤ a ∧ a < lo + ((hi - lo + 1).toNat : ℤ) := by
    intro a ha
    have h1 := hlol a ha
    have h2 := hhil a ha
    omega
  have hn : (col.length : ℝ) ≠ 0 := by
    have : col.length ≠ 0 := fun h0 => h (List.length_eq_zero_iff.mp h0)
    exact_mod_cast this
  refine ⟨lo, hi, (List.range (hi - lo + 1).toNat).map fun k : ℕ =>
    ((col.count (lo + (k : ℤ)) : ℕ) : ℝ) / col.length, hlom, hhim,
    fun a ha => ⟨hlol a ha, hhil a ha⟩, ?_, by simp, ?_, ?_⟩
  · unfold numClusBar
    rw [hlo, ok_bind, hhi, ok_bind, mul_one]
    simp only
    rw [barLoop col lo _ hr, ok_bind, List.map_map]
    rfl
  · intro a ha1 ha2
    have hk : (a - lo).toNat < (hi - lo + 1).toNat := by omega
    have e : lo + ((a - lo).toNat : ℤ) = a := by omega
    simp only [List.getElem?_map, List.getElem?_range hk, Option.map_some, e]
  · have hs := sum_count col lo _ hr
    have : ((List.range (hi - lo + 1).toNat).map fun k : ℕ =>
        ((col.count (lo + (k : ℤ)) : ℕ) : ℝ) / col.length).sum =
        ((((List.range (hi - lo + 1).toNat).map fun k : ℕ =>
          col.count (lo + (k : ℤ))).sum : ℕ) : ℝ) / col.length := by
      rw [← Nat.coe_castAddMonoidHom, map_list_sum, List.map_map, div_eq_mul_inv, ← List.sum_map_mul_right]
      rfl
    rw [this, hs, div_self hn]

/-- A chain that visits two, three and five clusters. -/
example : ∃ hts : List ℝ, numClusBar [2, 3, 3, 5] 1 =
    .ok ((List.range (5 - 2 + 1 : ℤ).toNat).map (fun k : ℕ => (2 : ℤ) + (k : ℤ)), hts) ∧
    hts.sum = 1 := by
  obtain ⟨lo, hi, hts, h1, h2, h3, h4, -, -, h5⟩ := c104_bars [2, 3, 3, 5] (by simp)
  have e1 : lo = 2 := le_antisymm (h3 2 (by simp)).1 (by
    simp only [List.mem_cons, List.not_mem_nil, or_false] at h1; omega)
  have e2 : hi = 5 := le_antisymm (by
    simp only [List.mem_cons, List.not_mem_nil, or_false] at h2; omega) (h3 5 (by simp)).2
  subst e1 e2
  exact ⟨hts, h4, h5⟩

end Bayesmix.Utils
