import Verif.Utils.Lemmas
import Mathlib.Tactic.FieldSimp
import Mathlib.Tactic.NormNum
import Mathlib.Tactic.Positivity

/-!
# Properties C46-C53: messages, grids, stacking, similarity, tables, covariates, factory
-/

namespace Bayesmix.Utils

/-! ### C46 -/

/-- **C46, vectors.** Writing a vector to a message and reading it back is the identity. -/
theorem c46_vector_roundtrip {α : Type} (v : List α) : vecToEigen (vecToProto v) = .ok v := by
  unfold vecToEigen vecToProto
  by_cases h : v = []
  · subst h; rfl
  · have : 0 < v.length := List.length_pos_iff.2 h
    simp [this]

example : vecToEigen (vecToProto [1, 2, (3 : ℚ)]) = .ok [1, 2, 3] := c46_vector_roundtrip _

/-- **C46, matrices (partial).** Writing a matrix with at least one row and one column to a
message and reading it back is the identity.  Missing: matrices without rows or columns,
see `c46_empty_matrix_violated`. -/
theorem c46_matrix_roundtrip_partial {α : Type} (m : Mat α) (hm : m.WF) (hr : 0 < m.rows)
    (hc : 0 < m.cols) : matToEigen (matToProto m) = .ok m := by
  obtain ⟨r, c, st⟩ := m
  simp only [Mat.WF] at hm hr hc
  unfold matToEigen matToProto
  simp [hr, hc, hm]

example : matToEigen (matToProto (⟨2, 3, [1, 2, 3, 4, 5, 6]⟩ : Mat ℕ)) =
    .ok ⟨2, 3, [1, 2, 3, 4, 5, 6]⟩ :=
  c46_matrix_roundtrip_partial _ rfl (by decide) (by decide)

/-- **C46, failing case.** A matrix with no rows or no columns comes back as 0 x 0; so its
shape is lost unless it was 0 x 0. -/
theorem c46_empty_matrix_violated {α : Type} (m : Mat α) (hm : m.WF)
    (h0 : m.rows = 0 ∨ m.cols = 0) (hne : 0 < m.rows ∨ 0 < m.cols) :
    matToEigen (matToProto m) = .ok ⟨0, 0, []⟩ ∧ matToEigen (matToProto m) ≠ .ok m := by
  obtain ⟨r, c, st⟩ := m
  simp only [Mat.WF] at hm h0 hne
  have e : matToEigen (matToProto (⟨r, c, st⟩ : Mat α)) = .ok ⟨0, 0, []⟩ := by
    unfold matToEigen matToProto
    have : ¬ ((r : ℤ) > 0 ∧ (c : ℤ) > 0) := by omega
    simp only [if_neg this]
  refine ⟨e, ?_⟩
  rw [e]
  intro h
  injection h with h
  injection h with h1 h2
  omega

example : matToEigen (matToProto (⟨0, 3, []⟩ : Mat ℕ)) ≠ .ok ⟨0, 3, []⟩ :=
  (c46_empty_matrix_violated ⟨0, 3, []⟩ rfl (by decide) (by decide)).2

/-- **C46, both storage orders.** A message with `r` rows and `c` columns whose data list the
values `f i j` by rows (flag set) or by columns (flag not set) is read as the `r x c` matrix
with entries `f i j`. -/
theorem c46_storage_orders {α : Type} (f : ℕ → ℕ → α) (r c : ℕ) (hr : 0 < r) (hc : 0 < c)
    (rowmajor : Bool) (data : List α)
    (hdata : data.length = r * c)
    (hentries : ∀ i < r, ∀ j < c,
      data[if rowmajor then i * c + j else j * r + i]? = some (f i j)) :
    ∃ m : Mat α, matToEigen ⟨r, c, rowmajor, data⟩ = .ok m ∧ m.WF ∧ m.rows = r ∧ m.cols = c ∧
      ∀ i < r, ∀ j < c, m.at i j = some (f i j) := by
  unfold matToEigen
  have hpos : ((r : ℤ) > 0 ∧ (c : ℤ) > 0) := by omega
  simp only [if_pos hpos, Int.toNat_natCast, hdata, lt_irrefl, if_false]
  cases rowmajor with
  | false =>
    refine ⟨⟨r, c, data.take (r * c)⟩, rfl, ?_, rfl, rfl, ?_⟩
    · simp [Mat.WF, hdata]
    · intro i hi j hj
      have := hentries i hi j hj
      simp only [Bool.false_eq_true, if_false] at this
      rw [← hdata, List.take_length]
      simp only [Mat.at, if_pos (And.intro hi hj)]
      exact this
  | true =>
    have hval : ∀ k < r * c, data[(k % r) * c + k / r]? = some (f (k % r) (k / r)) := by
      intro k hk
      have h1 : k % r < r := Nat.mod_lt _ hr
      have h2 : k / r < c := Nat.div_lt_of_lt_mul hk
      have := hentries _ h1 _ h2
      simpa using this
    have hst : rowMajorStore r c data = (List.range (r * c)).map (fun k => f (k % r) (k / r)) := by
      unfold rowMajorStore
      rw [← List.filterMap_eq_map]
      apply List.filterMap_congr
      intro k hk
      rw [hval k (List.mem_range.1 hk)]
      rfl
    refine ⟨⟨r, c, rowMajorStore r c data⟩, rfl, ?_, rfl, rfl, ?_⟩
    · simp [Mat.WF, hst]
    · intro i hi j hj
      simp only [Mat.at, if_pos (And.intro hi hj), hst]
      have hlt : j * r + i < r * c := by
        have : (j + 1) * r ≤ c * r := Nat.mul_le_mul_right _ hj
        have e : (j + 1) * r = j * r + r := by ring
        have e' : c * r = r * c := by ring
        omega
      rw [List.getElem?_map, List.getElem?_range hlt]
      have h1 : (j * r + i) % r = i := by
        rw [Nat.add_comm, Nat.add_mul_mod_self_right, Nat.mod_eq_of_lt hi]
      have h2 : (j * r + i) / r = j := by
        rw [Nat.add_comm, Nat.add_mul_div_right _ _ hr, Nat.div_eq_of_lt hi, Nat.zero_add]
      simp [h1, h2]

/-- The hypotheses of `c46_storage_orders` are met by a 2 x 3 row-major message. -/
example : ∃ m : Mat ℕ, matToEigen ⟨2, 3, true, [0, 1, 2, 10, 11, 12]⟩ = .ok m ∧ m.WF ∧
    m.rows = 2 ∧ m.cols = 3 ∧ ∀ i < 2, ∀ j < 3, m.at i j = some (10 * i + j) :=
  c46_storage_orders (fun i j => 10 * i + j) 2 3 (by decide) (by decide) true _ (by decide)
    (by decide)

/-- **C46, malformed messages.** A message whose data are shorter than its declared size is
read out of bounds. -/
theorem c46_short_data_is_ub {α : Type} (r c : ℕ) (hr : 0 < r) (hc : 0 < c) (rowmajor : Bool)
    (data : List α) (h : data.length < r * c) :
    matToEigen ⟨r, c, rowmajor, data⟩ = .error .ub := by
  unfold matToEigen
  have hpos : ((r : ℤ) > 0 ∧ (c : ℤ) > 0) := by omega
  simp only [if_pos hpos, Int.toNat_natCast, if_pos h]

example : matToEigen (⟨2, 2, false, [1]⟩ : MatMsg ℕ) = .error .ub :=
  c46_short_data_is_ub 2 2 (by decide) (by decide) _ _ (by decide)

/-! ### C47 -/

/-- The points of an axis: `n` values, the first `lo` (for `n ≥ 2`), the last `hi`, with
equal steps. -/
theorem c47_axis (n : ℕ) (lo hi : ℝ) :
    (linSpaced n lo hi).length = n ∧
    (2 ≤ n → (linSpaced n lo hi)[0]? = some lo) ∧
    (1 ≤ n → (linSpaced n lo hi)[n - 1]? = some hi) ∧
    ∀ i < n - 1, ∃ a b, (linSpaced n lo hi)[i]? = some a ∧ (linSpaced n lo hi)[i + 1]? = some b ∧
      (b - a) * ((n : ℝ) - 1) = hi - lo := by
  refine ⟨by simp [linSpaced], ?_, ?_, ?_⟩
  · intro h
    have h1 : n ≠ 1 := by omega
    have h0 : 0 < n := by omega
    simp [linSpaced, h1, h0]
  · intro h
    have hlt : n - 1 < n := by omega
    simp only [linSpaced, List.getElem?_map, List.getElem?_range hlt, Option.map_some]
    by_cases h1 : n = 1
    · simp [h1]
    · rw [if_neg h1]
      have hn : ((n : ℝ) - 1) ≠ 0 := by
        have : (n : ℝ) ≠ 1 := by exact_mod_cast h1
        intro h0
        exact this (by linarith)
      rw [Nat.cast_sub h, Nat.cast_one]
      congr 1
      field_simp
      ring
  · intro i hi'
    have h1 : n ≠ 1 := by omega
    have hn : ((n : ℝ) - 1) ≠ 0 := by
      have : (n : ℝ) ≠ 1 := by exact_mod_cast h1
      intro h0
      exact this (by linarith)
    refine ⟨lo + i * ((hi - lo) / ((n : ℝ) - 1)),
      lo + ((i + 1 : ℕ) : ℝ) * ((hi - lo) / ((n : ℝ) - 1)), ?_, ?_, ?_⟩
    · simp only [linSpaced, List.getElem?_map, List.getElem?_range (show i < n by omega),
        Option.map_some, if_neg h1]
    · simp only [linSpaced, List.getElem?_map, List.getElem?_range (show i + 1 < n by omega),
        Option.map_some, if_neg h1]
    · push_cast
      field_simp
      ring

/-- **C47 (partial).** If the two axes have the same number of points (or there is at most
one point on the first axis, or none on the second) the grid lists all pairs of coordinates,
the first coordinate moving slowest.  Missing: the other shapes, see `c47_grid_violated`. -/
theorem c47_grid_partial (x1 x2 y1 y2 : ℝ) (nx ny : ℕ) (h : nx = ny ∨ nx ≤ 1 ∨ ny = 0) :
    get2dGrid x1 x2 nx y1 y2 ny =
      .ok ((linSpaced nx x1 x2).flatMap
        (fun x => (linSpaced ny y1 y2).map (fun y => some (x, y)))) := by
  unfold get2dGrid
  have hl : ∀ n (a b : ℝ), (linSpaced n a b).length = n := by simp [linSpaced]
  rw [fillGrid_good _ _ (by simpa only [hl] using h)]
  congr 1
  simp [allPairs, List.map_flatMap, Function.comp_def]

example : ∃ g, get2dGrid 0 1 100 0 2 100 = .ok g := ⟨_, c47_grid_partial 0 1 0 2 100 100 (by simp)⟩

/-- **C47, failing cases.** With at least two points on the first axis, at least one on the
second and different numbers of points the grid is wrong: with more points on the first
axis rows outside the matrix are written, with more points on the second one the last row is
never written. -/
theorem c47_grid_violated (x1 x2 y1 y2 : ℝ) (nx ny : ℕ) (hx : 2 ≤ nx) (hy : 1 ≤ ny) :
    (ny < nx → get2dGrid x1 x2 nx y1 y2 ny = .error .ub) ∧
    (nx < ny → ∃ g, get2dGrid x1 x2 nx y1 y2 ny = .ok g ∧ g.length = nx * ny ∧
      g[nx * ny - 1]? = some none) := by
  have hl : ∀ n (a b : ℝ), (linSpaced n a b).length = n := by simp [linSpaced]
  unfold get2dGrid
  constructor
  · intro h
    exact fillGrid_wide _ _ (by rw [hl]; omega) (by rw [hl, hl]; exact h)
  · intro h
    have := fillGrid_tall (linSpaced nx x1 x2) (linSpaced ny y1 y2) (by rw [hl]; exact hx)
      (by rw [hl, hl]; exact h)
    rw [hl, hl] at this
    exact this

example : get2dGrid 0 1 20 0 1 10 = .error .ub :=
  (c47_grid_violated 0 1 0 1 20 10 (by decide) (by decide)).1 (by decide)

/-! ### C48 -/

/-- **C48, stacking.** Stacking a non-empty list of matrices with equal numbers of columns
gives the concatenation of their rows; if some number of columns differs from the first, it
throws. -/
theorem c48_vstack {α : Type} (m0 : RowMat α) (mats : List (RowMat α)) :
    ((∀ m ∈ mats, m.cols = m0.cols) →
      vstack (m0 :: mats) = .ok ⟨m0.cols, (m0 :: mats).flatMap RowMat.rows⟩) ∧
    ((∃ m ∈ mats, m.cols ≠ m0.cols) → vstack (m0 :: mats) = .error .throw) := by
  constructor
  · intro h
    unfold vstack
    have hv : vget (m0 :: mats) 0 = .ok m0 := rfl
    have hany : (m0 :: mats).any (fun m => m.cols != m0.cols) = false := by
      simp only [List.any_cons, bne_self_eq_false, Bool.false_or, List.any_eq_false]
      intro m hm
      simp [h m hm]
    simp only [hv, ok_bind, hany, Bool.false_eq_true, if_false]
    have hsum : ∀ (l : List (RowMat α)) (a : ℕ),
        l.foldl (fun curr m => curr + m.rows.length) a = a + (l.flatMap RowMat.rows).length := by
      intro l
      induction l with
      | nil => simp
      | cons m l ih => intro a; rw [List.foldl_cons, ih]; simp [Nat.add_assoc]
    have hloop : ∀ (l : List (RowMat α)) (pre : List (Option (List α))),
        l.foldlM (fun (p : List (Option (List α)) × ℕ) m => do
          let out ← writeBlock p.1 p.2 m
          pure (out, p.2 + m.rows.length))
          (pre ++ List.replicate (l.flatMap RowMat.rows).length none, pre.length) =
        .ok (pre ++ (l.flatMap RowMat.rows).map some,
          pre.length + (l.flatMap RowMat.rows).length) := by
      intro l
      induction l with
      | nil => intro pre; simp
      | cons m l ih =>
        intro pre
        rw [List.foldlM_cons]
        simp only [List.flatMap_cons, List.length_append]
        rw [writeBlock_eq pre _ _ m rfl]
        simp only [ok_bind, pure_eq_ok]
        have := ih (pre ++ m.rows.map some)
        simp only [List.length_append, List.length_map, pure_eq_ok] at this
        rw [this]
        simp [Nat.add_assoc]
    have := hloop (m0 :: mats) []
    simp only [List.nil_append, List.length_nil] at this
    rw [hsum (m0 :: mats) 0, Nat.zero_add, this]
    simp only [ok_bind, finishRows_map_some]
  · rintro ⟨m, hm, hne⟩
    unfold vstack
    have hv : vget (m0 :: mats) 0 = .ok m0 := rfl
    have hany : (m0 :: mats).any (fun m => m.cols != m0.cols) = true := by
      rw [List.any_eq_true]
      exact ⟨m, List.mem_cons_of_mem _ hm, by simpa using hne⟩
    simp only [hv, ok_bind, hany, if_true]

example : vstack [(⟨2, [[1, 2]]⟩ : RowMat ℕ), ⟨2, []⟩, ⟨2, [[3, 4], [5, 6]]⟩] =
    .ok ⟨2, [[1, 2], [3, 4], [5, 6]]⟩ :=
  (c48_vstack ⟨2, [[1, 2]]⟩ _).1 (by simp)

/-- **C48, failing case.** Stacking no matrix at all reads the first of none. -/
theorem c48_vstack_nothing_is_ub {α : Type} : vstack ([] : List (RowMat α)) = .error .ub := rfl

/-- **C48, appending.** Appending gives the rows of the first operand followed by those of
the second when the numbers of columns agree and both have rows; an operand without rows is
neutral, whatever its number of columns; otherwise it throws. The variant that modifies its
first operand does the same. -/
theorem c48_append {α : Type} (a b : RowMat α) :
    appendByRowInPlace a b = appendByRow a b ∧
    (a.rows = [] → appendByRow a b = .ok b) ∧
    (b.rows = [] → a.rows ≠ [] → appendByRow a b = .ok a) ∧
    (a.rows ≠ [] → b.rows ≠ [] → a.cols ≠ b.cols → appendByRow a b = .error .throw) ∧
    (a.rows ≠ [] → b.rows ≠ [] → a.cols = b.cols →
      appendByRow a b = .ok ⟨a.cols, a.rows ++ b.rows⟩) := by
  have hin : ∀ (a b : RowMat α), a.rows ≠ [] → b.rows ≠ [] → a.cols = b.cols →
      appendByRowInPlace a b = .ok ⟨a.cols, a.rows ++ b.rows⟩ := by
    intro a b ha hb hc
    unfold appendByRowInPlace
    have h1 : ¬ a.rows.length = 0 := by simpa using ha
    have h2 : ¬ b.rows.length = 0 := by simpa using hb
    rw [if_neg h1, if_neg h2, if_neg (not_not.2 hc)]
    have := writeBlock_eq (a.rows.map some) 0 a.rows.length b (by simp)
    simp only [Nat.add_zero, List.replicate_zero, List.append_nil] at this
    rw [this, ok_bind, ← List.map_append, finishRows_map_some, ok_bind]
  have hout : ∀ (a b : RowMat α), a.rows ≠ [] → b.rows ≠ [] → a.cols = b.cols →
      appendByRow a b = .ok ⟨a.cols, a.rows ++ b.rows⟩ := by
    intro a b ha hb hc
    unfold appendByRow
    have h1 : ¬ a.rows.length = 0 := by simpa using ha
    have h2 : ¬ b.rows.length = 0 := by simpa using hb
    rw [if_neg h1, if_neg h2, if_neg (not_not.2 hc)]
    have e1 := writeBlock_eq ([] : List (Option (List α))) b.rows.length 0 a rfl
    have e2 := writeBlock_eq (a.rows.map some) 0 a.rows.length b (by simp)
    simp only [Nat.add_zero, List.replicate_zero, List.append_nil, List.nil_append] at e1 e2
    rw [e1, ok_bind, e2, ok_bind, ← List.map_append, finishRows_map_some, ok_bind]
  refine ⟨?_, ?_, ?_, ?_, hout a b⟩
  · by_cases ha : a.rows = []
    · simp [appendByRowInPlace, appendByRow, ha]
    · by_cases hb : b.rows = []
      · simp [appendByRowInPlace, appendByRow, ha, hb]
      · by_cases hc : a.cols = b.cols
        · rw [hin a b ha hb hc, hout a b ha hb hc]
        · simp [appendByRowInPlace, appendByRow, ha, hb, hc]
  · intro ha; simp [appendByRow, ha]
  · intro hb ha; simp [appendByRow, ha, hb]
  · intro ha hb hc; simp [appendByRow, ha, hb, hc]

example : appendByRow (⟨2, [[1, 2]]⟩ : RowMat ℕ) ⟨2, [[3, 4]]⟩ = .ok ⟨2, [[1, 2], [3, 4]]⟩ :=
  (c48_append _ _).2.2.2.2 (by simp) (by simp) rfl

/-- **C48, associativity.** Appending is associative, exceptions included. -/
theorem c48_append_assoc {α : Type} (a b c : RowMat α) :
    (appendByRow a b >>= fun ab => appendByRow ab c) =
      (appendByRow b c >>= fun bc => appendByRow a bc) := by
  have ha := c48_append (α := α)
  by_cases h1 : a.rows = []
  · rw [(ha a b).2.1 h1, ok_bind]
    cases h : appendByRow b c with
    | error e => rfl
    | ok bc => rw [ok_bind, (ha a bc).2.1 h1]
  · by_cases h2 : b.rows = []
    · rw [(ha a b).2.2.1 h2 h1, (ha b c).2.1 h2]; rfl
    · by_cases h3 : c.rows = []
      · rw [(ha b c).2.2.1 h3 h2, ok_bind]
        cases h : appendByRow a b with
        | error e => rfl
        | ok ab =>
          rw [ok_bind]
          by_cases h4 : a.cols = b.cols
          · rw [(ha a b).2.2.2.2 h1 h2 h4] at h
            cases h
            rw [(ha _ c).2.2.1 h3 (by simp [h1])]
          · rw [(ha a b).2.2.2.1 h1 h2 h4] at h; cases h
      · by_cases h4 : a.cols = b.cols
        · rw [(ha a b).2.2.2.2 h1 h2 h4, ok_bind]
          by_cases h5 : b.cols = c.cols
          · rw [(ha b c).2.2.2.2 h2 h3 h5, ok_bind,
              (ha ⟨a.cols, a.rows ++ b.rows⟩ c).2.2.2.2 (by simp [h1]) h3 (h4.trans h5),
              (ha a ⟨b.cols, b.rows ++ c.rows⟩).2.2.2.2 h1 (by simp [h2]) h4]
            simp
          · rw [(ha b c).2.2.2.1 h2 h3 h5,
              (ha ⟨a.cols, a.rows ++ b.rows⟩ c).2.2.2.1 (by simp [h1]) h3
                (fun e => h5 (h4.symm.trans e))]
            rfl
        · rw [(ha a b).2.2.2.1 h1 h2 h4]
          by_cases h5 : b.cols = c.cols
          · rw [(ha b c).2.2.2.2 h2 h3 h5, ok_bind,
              (ha a ⟨b.cols, b.rows ++ c.rows⟩).2.2.2.1 h1 (by simp [h2]) h4]
            rfl
          · rw [(ha b c).2.2.2.1 h2 h3 h5]
            rfl

example : (appendByRow (⟨1, [[1]]⟩ : RowMat ℕ) ⟨1, [[2]]⟩ >>= fun ab => appendByRow ab ⟨1, [[3]]⟩) =
    (appendByRow (⟨1, [[2]]⟩ : RowMat ℕ) ⟨1, [[3]]⟩ >>= fun bc => appendByRow ⟨1, [[1]]⟩ bc) :=
  c48_append_assoc _ _ _

/-- **C48, rows.** A non-empty list of vectors of equal sizes becomes the matrix with these
rows. -/
theorem c48_stack_vectors {α : Type} (r0 : List α) (rows : List (List α))
    (h : ∀ r ∈ rows, r.length = r0.length) :
    stackVectors (r0 :: rows) = .ok ⟨r0.length, r0 :: rows⟩ := by
  unfold stackVectors
  have hv : vget (r0 :: rows) 0 = .ok r0 := rfl
  rw [hv, ok_bind]
  have := writeLoop (fun out i => do
      let r ← vget (r0 :: rows) i
      if r.length = r0.length then writeRow out i r else .error .ub)
    (fun i => (r0 :: rows).getD i []) (r0 :: rows).length 0 0 [] rfl (by
      intro out i hi
      rw [vget_ok (List.getElem?_eq_getElem hi), ok_bind]
      have hl : ((r0 :: rows)[i]).length = r0.length := by
        have hm := List.getElem_mem hi
        rcases List.mem_cons.1 hm with h' | h'
        · rw [h']
        · exact h _ h'
      rw [if_pos hl]
      simp [List.getD, List.getElem?_eq_getElem hi])
  simp only [List.nil_append, Nat.add_zero, List.replicate_zero, List.append_nil] at this
  dsimp only
  rw [this, ok_bind, map_range_getElem (r0 :: rows) some [], finishRows_map_some]
  rfl

example : stackVectors [[1, 2], [3, (4 : ℕ)]] = .ok ⟨2, [[1, 2], [3, 4]]⟩ :=
  c48_stack_vectors [1, 2] [[3, 4]] (by simp)

/-! ### C49 -/

/-- **C49.** Entry `(i, j)` below the diagonal of the similarity matrix of a chain of `T`
iterations over `n` data is the fraction of iterations in which `i` and `j` have the same
label; it lies in `[0, 1]`. The other entries are zero. -/
theorem c49_fraction (T n : ℕ) (chain : ℕ → ℕ → ℝ) (i j : ℕ) :
    (i < n → j < i → posteriorSimilarity T n chain i j =
      (((Finset.range T).filter (fun t => chain t i = chain t j)).card : ℝ) / T) ∧
    (0 ≤ posteriorSimilarity T n chain i j ∧ posteriorSimilarity T n chain i j ≤ 1) ∧
    (i ≤ j → posteriorSimilarity T n chain i j = 0) := by
  rw [posteriorSimilarity_eq]
  refine ⟨fun h1 h2 => if_pos ⟨h1, h2⟩, ?_, fun h => if_neg (by omega)⟩
  split
  · refine ⟨by positivity, ?_⟩
    have h : (((Finset.range T).filter (fun t => chain t i = chain t j)).card : ℝ) ≤ T := by
      have := Finset.card_filter_le (Finset.range T) (fun t => chain t i = chain t j)
      rw [Finset.card_range] at this
      exact_mod_cast this
    exact div_le_one_of_le₀ h (Nat.cast_nonneg T)
  · exact ⟨le_refl _, zero_le_one⟩

/-- Two of three iterations put the data 0 and 1 together. -/
example : posteriorSimilarity 3 2 (fun t i => if t = 0 then i else 5) 1 0 = 2 / 3 := by
  rw [(c49_fraction 3 2 _ 1 0).1 (by decide) (by decide)]
  have : (Finset.range 3).filter (fun t => (if t = 0 then ((1 : ℕ) : ℝ) else 5) =
      (if t = 0 then ((0 : ℕ) : ℝ) else 5)) = {1, 2} := by
    ext t
    simp only [Finset.mem_filter, Finset.mem_range, Finset.mem_insert, Finset.mem_singleton]
    by_cases h : t = 0
    · simp [h]
    · simp [h]; omega
  rw [this]
  simp

/-- **C49, relabeling.** Renaming the labels in each iteration, by any injective renaming,
does not change the similarity matrix. -/
theorem c49_relabel (T n : ℕ) (chain : ℕ → ℕ → ℝ) (σ : ℕ → ℝ → ℝ)
    (hσ : ∀ t < T, Function.Injective (σ t)) :
    posteriorSimilarity T n (fun t i => σ t (chain t i)) = posteriorSimilarity T n chain := by
  funext i j
  rw [posteriorSimilarity_eq, posteriorSimilarity_eq]
  have : (Finset.range T).filter (fun t => σ t (chain t i) = σ t (chain t j)) =
      (Finset.range T).filter (fun t => chain t i = chain t j) := by
    apply Finset.filter_congr
    intro t ht
    exact (hσ t (Finset.mem_range.1 ht)).eq_iff
  simp only [this]

example (chain : ℕ → ℕ → ℝ) : posteriorSimilarity 4 3 (fun t i => 2 * chain t i + t) =
    posteriorSimilarity 4 3 chain :=
  c49_relabel 4 3 chain (fun t x => 2 * x + t) (fun t _ x y h => by simpa using h)

/-! ### C50 -/

/-- Squared distance between the co-clustering indicators of the partition `row` of `n` data
and the co-clustering frequencies of a chain of `T` partitions. -/
noncomputable def binderLoss (T n : ℕ) (chain : ℕ → ℕ → ℤ) (row : ℕ → ℤ) : ℝ :=
  ∑ i ∈ Finset.range n, ∑ j ∈ Finset.range i,
    ((if row i = row j then (1 : ℝ) else 0) -
      (((Finset.range T).filter (fun t => chain t i = chain t j)).card : ℝ) / T) ^ 2

theorem estimateError_eq (T n : ℕ) (chain : ℕ → ℕ → ℤ) (row : ℕ → ℤ) (g : ℝ) :
    accumulateError n row (posteriorSimilarity T n (fun t i => (chain t i : ℝ))) g =
      g + binderLoss T n chain row := by
  rw [accumulateError_eq, binderLoss]
  congr 1
  apply Finset.sum_congr rfl
  intro i hi
  apply Finset.sum_congr rfl
  intro j hj
  have hs := posteriorSimilarity_eq T n (fun t i => (chain t i : ℝ)) i j
  rw [if_pos (And.intro (Finset.mem_range.1 hi) (Finset.mem_range.1 hj))] at hs
  rw [hs]
  simp only [Int.cast_inj]

/-- **C50 (partial).** If the uninitialised accumulators happen to be zero, the estimate is
the first row of the chain that minimises the loss.  Missing: other contents of the
uninitialised memory, see `c50_uninitialised_violated`. -/
theorem c50_first_minimiser_partial (T n : ℕ) (hT : 0 < T) (chain : ℕ → ℕ → ℤ) :
    ∃ k < T, clusterEstimate T n chain (fun _ => 0) = .ok (chain k) ∧
      (∀ t < T, binderLoss T n chain (chain k) ≤ binderLoss T n chain (chain t)) ∧
      ∀ t < k, binderLoss T n chain (chain k) < binderLoss T n chain (chain t) := by
  have h := minCoeffIdx_spec (fun k => accumulateError n (chain k)
    (posteriorSimilarity T n (fun t i => (chain t i : ℝ))) 0) T hT
  simp only [estimateError_eq, zero_add] at h
  refine ⟨_, h.1, ?_, h.2.1, h.2.2⟩
  unfold clusterEstimate
  simp only [if_neg (show ¬ T = 0 by omega), estimateError_eq, zero_add]

example : ∃ k : ℕ, k < 5 ∧ clusterEstimate 5 3 (fun t i => t * i) (fun _ => 0) =
    .ok (fun i => (k : ℤ) * i) := by
  obtain ⟨k, hk, h, -⟩ := c50_first_minimiser_partial 5 3 (by decide) (fun t i => t * i)
  exact ⟨k, hk, h⟩

/-- **C50, failing case.** The error accumulators are never initialised: for every row of
the chain there are contents of that memory with which this row is returned, however large
its loss. -/
theorem c50_uninitialised_violated (T n : ℕ) (chain : ℕ → ℕ → ℤ) (k : ℕ) (hk : k < T) :
    ∃ garbage : ℕ → ℝ, clusterEstimate T n chain garbage = .ok (chain k) := by
  refine ⟨fun t => (if t = k then -1 else 0) - binderLoss T n chain (chain t), ?_⟩
  have h := minCoeffIdx_spec (fun t => accumulateError n (chain t)
    (posteriorSimilarity T n (fun t i => (chain t i : ℝ)))
    ((if t = k then -1 else 0) - binderLoss T n chain (chain t))) T (by omega)
  simp only [estimateError_eq, sub_add_cancel] at h
  have hk' := h.2.1 k hk
  unfold clusterEstimate
  simp only [if_neg (show ¬ T = 0 by omega), estimateError_eq, sub_add_cancel]
  congr 2
  by_contra hne
  rw [if_neg hne] at hk'
  norm_num at hk'

/-- In this chain the row 1 has a larger loss than row 0, yet it may be returned. -/
example : ∃ garbage : ℕ → ℝ,
    clusterEstimate 3 2 (fun t i => if t = 1 then i else 0) garbage =
      .ok (fun i => i) :=
  c50_uninitialised_violated 3 2 (fun t i => if t = 1 then (i : ℤ) else 0) 1 (by decide)

/-- **C50, empty chain.** There is no estimate for an empty chain. -/
theorem c50_empty_chain_fails (n : ℕ) (chain : ℕ → ℕ → ℤ) (garbage : ℕ → ℝ) :
    clusterEstimate 0 n chain garbage = .error .assertFail := rfl

/-! ### C51 -/

/-- **C51 (partial).** Let the printed form of an entry be non-empty and contain neither the
delimiter nor a line end, and let the delimiter not be a line end.  Then reading a written
matrix with at least one entry gives a matrix of the same shape, each entry being the
re-read printed entry.  Missing: matrices without entries, see `c51_empty_matrix_violated`. -/
theorem c51_roundtrip_partial {α : Type} (delim : Char) (fmt : α → List Char)
    (stof : List Char → Option α) (reread : α → α) (m : RowMat α) (hm : m.WF)
    (hrows : m.rows ≠ []) (hcols : 0 < m.cols) (hdelim : delim ≠ '\n')
    (hfmt : ∀ x, fmt x ≠ [] ∧ delim ∉ fmt x ∧ '\n' ∉ fmt x)
    (hread : ∀ r ∈ m.rows, ∀ x ∈ r, stof (fmt x) = some (reread x)) :
    readEigenMatrix delim stof (writeMatrixToFile delim fmt m) =
      .ok (m.rows.length, m.cols, m.rows.map (fun r => r.map (fun x => some (reread x)))) := by
  have hw : writeMatrixToFile delim fmt m =
      joinWith '\n' (m.rows.map (fun r => joinWith delim (r.map fmt))) := by
    unfold writeMatrixToFile
    rw [if_neg]
    rintro (h | h)
    · exact hrows (List.eq_nil_iff_length_eq_zero.2 h)
    · omega
  have hne : ∀ r ∈ m.rows, r ≠ [] := by
    intro r hr h
    have := hm r hr
    rw [h] at this
    simp at this
    omega
  have hl : getlines '\n' (writeMatrixToFile delim fmt m) =
      m.rows.map (fun r => joinWith delim (r.map fmt)) := by
    rw [hw, getlines_joinWith]
    · intro p hp
      obtain ⟨r, hr, rfl⟩ := List.mem_map.1 hp
      intro hc
      rcases mem_joinWith hc with h | ⟨q, hq, hc⟩
      · exact hdelim h.symm
      · obtain ⟨x, hx, rfl⟩ := List.mem_map.1 hq
        exact (hfmt x).2.2 hc
    · intro p hp
      obtain ⟨r, hr, rfl⟩ := List.mem_map.1 hp
      apply joinWith_ne_nil
      · simpa using hne r hr
      · intro q hq
        obtain ⟨x, hx, rfl⟩ := List.mem_map.1 hq
        exact (hfmt x).1
  have he : ∀ r : List α, getlines delim (joinWith delim (r.map fmt)) = r.map fmt := by
    intro r
    apply getlines_joinWith
    · intro q hq
      obtain ⟨x, hx, rfl⟩ := List.mem_map.1 hq
      exact (hfmt x).2.1
    · intro q hq
      obtain ⟨x, hx, rfl⟩ := List.mem_map.1 hq
      exact (hfmt x).1
  have hrow : ∀ r ∈ m.rows, readRow delim stof m.cols (joinWith delim (r.map fmt)) =
      .ok (r.map (fun x => some (reread x))) := by
    intro r hr
    have hlen : r.length = m.cols := hm r hr
    cases r with
    | nil => exact absurd rfl (hne _ hr)
    | cons x0 r' =>
    have := readRow_ok delim stof (fun e => (stof e).getD x0) m.cols
      (joinWith delim ((x0 :: r').map fmt)) (by
        rw [he]
        intro e hE
        obtain ⟨x, hx, rfl⟩ := List.mem_map.1 hE
        rw [hread _ hr x hx]
        rfl) (by rw [he]; simp at hlen ⊢; omega)
    rw [this, he]
    have h0 : m.cols - ((x0 :: r').map fmt).length = 0 := by rw [List.length_map, hlen]; omega
    rw [h0]
    simp only [List.replicate_zero, List.append_nil, List.map_map]
    congr 1
    apply List.map_congr_left
    intro x hx
    simp [hread _ hr x hx]
  unfold readEigenMatrix
  rw [hl]
  have hc : countCols delim (m.rows.map (fun r => joinWith delim (r.map fmt))) = m.cols := by
    cases hr : m.rows with
    | nil => exact absurd hr hrows
    | cons r rs =>
      simp only [List.map_cons, countCols]
      rw [he, List.length_map]
      exact hm r (by rw [hr]; simp)
  dsimp only
  rw [hc, List.mapM_map, mapM_ok_of _ (fun r => r.map (fun x => some (reread x))) _ hrow]
  simp

/-- A toy printed form of Booleans, for the examples. -/
def fmtBool (b : Bool) : List Char := if b then ['1'] else ['0']

/-- Reads the toy printed form. -/
def stofBool (s : List Char) : Option Bool :=
  if s = ['1'] then some true else if s = ['0'] then some false else none

example : readEigenMatrix ',' stofBool
    (writeMatrixToFile ',' fmtBool ⟨2, [[true, false], [false, false], [true, true]]⟩) =
    .ok (3, 2, [[some true, some false], [some false, some false], [some true, some true]]) :=
  c51_roundtrip_partial ',' fmtBool stofBool id _ (by simp [RowMat.WF]) (by simp) (by decide)
    (by decide) (by decide) (by decide)

/-- **C51, failing case.** A matrix without entries is written as an empty file and comes
back as 0 x 0: its shape is lost unless it was 0 x 0. -/
theorem c51_empty_matrix_violated {α : Type} (delim : Char) (fmt : α → List Char)
    (stof : List Char → Option α) (m : RowMat α) (h : m.rows = [] ∨ m.cols = 0) :
    readEigenMatrix delim stof (writeMatrixToFile delim fmt m) = .ok (0, 0, []) := by
  have hw : writeMatrixToFile delim fmt m = [] := by
    unfold writeMatrixToFile
    rw [if_pos]
    simpa using h
  rw [hw]
  rfl

example : readEigenMatrix ',' stofBool (writeMatrixToFile ',' fmtBool ⟨0, [[], []]⟩) =
    .ok (0, 0, []) := c51_empty_matrix_violated _ _ _ _ (by simp)

/-- **C51, ragged files.** Let all entries of a file be numbers. If some line has more
entries than the first, reading writes outside the matrix. If none has, the matrix has as
many rows as lines and as many columns as the first line has entries, and the entries
missing from shorter lines are never written. -/
theorem c51_ragged {α : Type} (delim : Char) (stof : List Char → Option α)
    (g : List Char → α) (l0 : List Char) (lines : List (List Char)) (file : List Char)
    (hfile : getlines '\n' file = l0 :: lines)
    (hnum : ∀ l ∈ l0 :: lines, ∀ e ∈ getlines delim l, stof e = some (g e)) :
    ((∃ l ∈ lines, (getlines delim l0).length < (getlines delim l).length) →
      readEigenMatrix delim stof file = .error .ub) ∧
    ((∀ l ∈ lines, (getlines delim l).length ≤ (getlines delim l0).length) →
      readEigenMatrix delim stof file = .ok (lines.length + 1, (getlines delim l0).length,
        (l0 :: lines).map (fun l => (getlines delim l).map (fun e => some (g e)) ++
          List.replicate ((getlines delim l0).length - (getlines delim l).length) none))) := by
  constructor
  · rintro ⟨l, hl, hlt⟩
    unfold readEigenMatrix
    rw [hfile]
    dsimp only [countCols]
    rw [mapM_error_of _ .ub _ ?_ l (List.mem_cons_of_mem _ hl)
      (readRow_overflow delim stof _ l (fun e he => by
        rw [hnum l (List.mem_cons_of_mem _ hl) e he]; rfl) hlt)]
    · rfl
    · intro a ha
      by_cases hla : (getlines delim l0).length < (getlines delim a).length
      · exact Or.inr (readRow_overflow delim stof _ a (fun e he => by
          rw [hnum a ha e he]; rfl) hla)
      · exact Or.inl ⟨_, readRow_ok delim stof g _ a (hnum a ha) (not_lt.1 hla)⟩
  · intro h
    unfold readEigenMatrix
    rw [hfile]
    dsimp only [countCols]
    rw [mapM_ok_of _ _ _ (fun a ha => readRow_ok delim stof g _ a (hnum a ha) ?_)]
    · rfl
    · rcases List.mem_cons.1 ha with rfl | ha
      · exact le_refl _
      · exact h a ha

example : readEigenMatrix ',' stofBool "1\n0,1\n".toList = .error .ub :=
  (c51_ragged ',' stofBool (fun e => e == ['1']) ['1'] [['0', ',', '1']] _ (by decide)
    (by decide)).1 (by decide)

/-- **C51, text.** If no line is longer than the first and some entry is not a number, reading
throws: no entry is skipped or made up. -/
theorem c51_bad_entry_throws {α : Type} (delim : Char) (stof : List Char → Option α)
    (l0 : List Char) (lines : List (List Char)) (file : List Char)
    (hfile : getlines '\n' file = l0 :: lines)
    (hlen : ∀ l ∈ lines, (getlines delim l).length ≤ (getlines delim l0).length)
    (hbad : ∃ l ∈ l0 :: lines, ∃ e ∈ getlines delim l, stof e = none) :
    readEigenMatrix delim stof file = .error .throw := by
  obtain ⟨l, hl, e, he, hn⟩ := hbad
  have hlen' : ∀ l ∈ l0 :: lines, (getlines delim l).length ≤ (getlines delim l0).length := by
    intro l hl
    rcases List.mem_cons.1 hl with rfl | hl
    · exact le_refl _
    · exact hlen l hl
  unfold readEigenMatrix
  rw [hfile]
  dsimp only [countCols]
  rw [mapM_error_of _ .throw _ ?_ l hl ((readRow_total delim stof _ l (hlen' l hl)).2 ⟨e, he, hn⟩)]
  · rfl
  · intro a ha
    by_cases h : ∀ e ∈ getlines delim a, (stof e).isSome
    · exact Or.inl ((readRow_total delim stof _ a (hlen' a ha)).1 h)
    · push Not at h
      obtain ⟨e, he, hn⟩ := h
      exact Or.inr ((readRow_total delim stof _ a (hlen' a ha)).2 ⟨e, he, by simpa using hn⟩)

example : readEigenMatrix ',' stofBool "1,0\n0,x\n".toList = .error .throw :=
  c51_bad_entry_throws ',' stofBool ['1', ',', '0'] [['0', ',', 'x']] _ (by decide) (by decide)
    ⟨['0', ',', 'x'], by simp, ['x'], by decide, by decide⟩

/-! ### C52 -/

/-- **C52, lookup.** Without columns the covariate of every datum is empty; with one row it
is that row; otherwise it is row `i`, and a datum without a row is read out of bounds. -/
theorem c52_lookup {α : Type} (cov : RowMat α) (i : ℕ) :
    (cov.cols = 0 → getCovariate cov i = .ok []) ∧
    (cov.cols ≠ 0 → ∀ r, cov.rows = [r] → getCovariate cov i = .ok r) ∧
    (cov.cols ≠ 0 → cov.rows.length ≠ 1 → ∀ h : i < cov.rows.length,
      getCovariate cov i = .ok cov.rows[i]) ∧
    (cov.cols ≠ 0 → cov.rows.length ≠ 1 → cov.rows.length ≤ i →
      getCovariate cov i = .error .ub) := by
  unfold getCovariate
  refine ⟨fun h => if_pos h, ?_, ?_, ?_⟩
  · intro h r hr
    rw [if_neg h, hr, if_pos (by simp)]
    rfl
  · intro h h1 hi
    rw [if_neg h, if_neg h1, vget_ok (List.getElem?_eq_getElem hi)]
  · intro h h1 hi
    rw [if_neg h, if_neg h1]
    simp [vget, hi]

example : getCovariate (⟨2, [[1, 2], [3, 4]]⟩ : RowMat ℕ) 1 = .ok [3, 4] :=
  (c52_lookup _ 1).2.2.1 (by simp) (by simp) (by simp)

/-- **C52, grids.** A grid evaluation is the list of the pointwise evaluations, each with the
covariate of its row. -/
theorem c52_grid_pointwise {α β : Type} (lpdf : List α → List α → β) (data cov : RowMat α) :
    (cov.cols = 0 → lpdfGrid lpdf data cov = .ok (data.rows.map (fun d => lpdf d []))) ∧
    (cov.cols ≠ 0 → ∀ r, cov.rows = [r] →
      lpdfGrid lpdf data cov = .ok (data.rows.map (fun d => lpdf d r))) ∧
    (cov.cols ≠ 0 → cov.rows.length ≠ 1 → data.rows.length = cov.rows.length →
      lpdfGrid lpdf data cov = .ok (List.zipWith lpdf data.rows cov.rows)) := by
  have key : ∀ c : ℕ → List α, (∀ i < data.rows.length, getCovariate cov i = .ok (c i)) →
      lpdfGrid lpdf data cov =
        .ok ((List.range data.rows.length).map (fun i => lpdf (data.rows.getD i []) (c i))) := by
    intro c hc
    unfold lpdfGrid
    apply mapM_ok_of
    intro i hi
    have hi := List.mem_range.1 hi
    rw [vget_ok (List.getElem?_eq_getElem hi), ok_bind, hc i hi, ok_bind]
    simp [hi]
  refine ⟨?_, ?_, ?_⟩
  · intro h
    rw [key (fun _ => []) (fun i _ => (c52_lookup cov i).1 h),
      map_range_getElem data.rows (fun d => lpdf d []) []]
  · intro h r hr
    rw [key (fun _ => r) (fun i _ => (c52_lookup cov i).2.1 h r hr),
      map_range_getElem data.rows (fun d => lpdf d r) []]
  · intro h h1 hlen
    rw [key (fun i => cov.rows.getD i []) (fun i hi => by
      rw [(c52_lookup cov i).2.2.1 h h1 (by omega)]
      have : i < cov.rows.length := by omega
      simp [this])]
    congr 1
    apply List.ext_getElem
    · simp [hlen]
    · intro i h1 h2
      have hi : i < data.rows.length := by simpa using h1
      have hi' : i < cov.rows.length := by omega
      simp [hi, hi']

example : lpdfGrid (fun d c => d ++ c) (⟨1, [[1], [2]]⟩ : RowMat ℕ) ⟨1, [[7], [8]]⟩ =
    .ok [[1, 7], [2, 8]] :=
  (c52_grid_pointwise _ _ _).2.2 (by simp) (by simp) (by simp)

/-- **C52, prior predictive grids.** The three loops of the prior predictive grid evaluation
do what the common covariate lookup does, faults included. -/
theorem c52_prior_grid_agrees {α β : Type} (lpdf : List α → List α → β) (data cov : RowMat α) :
    priorPredLpdfGrid lpdf data cov = lpdfGrid lpdf data cov := by
  unfold priorPredLpdfGrid lpdfGrid getCovariate
  split
  · simp
  · split <;> rfl

/-! ### C53 -/

/-- **C53, creation.** After any sequence of registrations, creating by an identifier gives
what was registered first under it, and throws exactly if nothing was. -/
theorem c53_first_registration_wins {B : Type} (regs : List (ℕ × B)) (id : ℕ) :
    (∀ pre b post, regs = pre ++ (id, b) :: post → (∀ p ∈ pre, p.1 ≠ id) →
      createById (registerAll regs) id = .ok b) ∧
    ((∀ p ∈ regs, p.1 ≠ id) → createById (registerAll regs) id = .error .throw) ∧
    (checkExistence (registerAll regs) id = true ↔ ∃ p ∈ regs, p.1 = id) := by
  unfold createById checkExistence
  rw [findBuilder_registerAll]
  refine ⟨?_, ?_, ?_⟩
  · rintro pre b post rfl hpre
    have : pre.find? (fun p => p.1 = id) = none := by
      rw [List.find?_eq_none]
      intro p hp
      simpa using hpre p hp
    rw [List.find?_append, this]
    simp
  · intro h
    have : regs.find? (fun p => p.1 = id) = none := by
      rw [List.find?_eq_none]
      intro p hp
      simpa using h p hp
    rw [this]
    rfl
  · simp

example : createById (registerAll [(3, "a"), (1, "b"), (3, "c")]) 3 = .ok "a" :=
  (c53_first_registration_wins _ 3).1 [] "a" [(1, "b"), (3, "c")] rfl (by simp)

/-- **C53, registration is idempotent.** Registering everything a second time changes
nothing. -/
theorem c53_registration_idempotent {B : Type} (regs again : List (ℕ × B))
    (h : ∀ p ∈ again, ∃ q ∈ regs, q.1 = p.1) (id : ℕ) :
    createById (registerAll (regs ++ again)) id = createById (registerAll regs) id := by
  unfold createById
  rw [findBuilder_registerAll, findBuilder_registerAll, List.find?_append]
  cases hf : regs.find? (fun p => p.1 = id) with
  | some q => rfl
  | none =>
    have : again.find? (fun p => p.1 = id) = none := by
      rw [List.find?_eq_none] at hf ⊢
      intro p hp hpe
      obtain ⟨q, hq, hqe⟩ := h p hp
      exact hf q hq (by simp at hpe ⊢; omega)
    rw [this]
    rfl

example (id : ℕ) : createById (registerAll ([(3, "a"), (1, "b")] ++ [(1, "x"), (3, "y")])) id =
    createById (registerAll [(3, "a"), (1, "b")]) id :=
  c53_registration_idempotent _ _ (by decide) id

/-- **C53, known builders.** The list of known builders is strictly increasing and contains
exactly the registered identifiers. -/
theorem c53_known_builders {B : Type} (regs : List (ℕ × B)) :
    (knownBuilders (registerAll regs)).Pairwise (· < ·) ∧
    ∀ id, id ∈ knownBuilders (registerAll regs) ↔ ∃ p ∈ regs, p.1 = id := by
  refine ⟨registerAll_sorted regs, fun id => ?_⟩
  have := (c53_first_registration_wins regs id).2.2
  rw [← this]
  unfold checkExistence knownBuilders
  rw [← not_iff_not, ← findBuilder_none]
  simp

example : 3 ∈ knownBuilders (registerAll [(3, "a"), (1, "b"), (3, "c")]) :=
  (c53_known_builders _).2 3 |>.2 (by decide)

/-- **C53, creation by name (partial).** A known name creates what its identifier creates.
Missing: unknown names, see `c53_unknown_name_violated`. -/
theorem c53_known_name_partial {B : Type} (regs : List (ℕ × B)) (names : String → Option ℕ)
    (stack : ℕ) (name : String) (id : ℕ) (h : names name = some id) :
    createByName (registerAll regs) names stack name = createById (registerAll regs) id := by
  unfold createByName nameToId
  rw [h]

example : createByName (registerAll [(1, "DP")]) (fun n => if n = "DP" then some 1 else none) 7
    "DP" = createById (registerAll [(1, "DP")]) 1 :=
  c53_known_name_partial _ _ _ _ 1 (by simp)

/-- **C53, failing case.** With an unknown name, whatever identifier is on the stack is used:
any registered object may be created instead of an exception. -/
theorem c53_unknown_name_violated {B : Type} (regs : List (ℕ × B)) (names : String → Option ℕ)
    (name : String) (h : names name = none) (p : ℕ × B) (hp : p ∈ regs) :
    ∃ stack b, createByName (registerAll regs) names stack name = .ok b := by
  obtain ⟨b, hb⟩ : ∃ b, findBuilder p.1 (registerAll regs) = some b := by
    have := (c53_first_registration_wins regs p.1).2.2.2 ⟨p, hp, rfl⟩
    exact Option.isSome_iff_exists.1 this
  refine ⟨p.1, b, ?_⟩
  unfold createByName nameToId createById
  rw [h]
  simp only [hb]

example : ∃ stack b, createByName (registerAll [(1, "DP")]) (fun _ => none) stack "nonsense" =
    .ok b := c53_unknown_name_violated _ _ _ rfl (1, "DP") (by simp)

end Bayesmix.Utils
