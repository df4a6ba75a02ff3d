import Verif.Utils.Plots
import Verif.FaultLemmas
import Mathlib.Tactic.Ring
import Mathlib.Tactic.Linarith
import Mathlib.Tactic.FieldSimp
import Mathlib.Tactic.NormNum
import Mathlib.Algebra.BigOperators.Group.List.Basic
import Mathlib.Algebra.BigOperators.Ring.List

/-! Helper lemmas for the plots. -/

namespace Bayesmix.Utils

/-- Every error of a loop comes from one of its steps. -/
theorem foldlM_err {S α : Type} (f : S → α → Except Fault S) (E : Fault → Prop)
    (hf : ∀ s a e, f s a = .error e → E e) :
    ∀ (l : List α) (s : S) (e : Fault), l.foldlM f s = .error e → E e := by
  intro l
  induction l with
  | nil => intro s e h; cases h
  | cons a l ih =>
    intro s e h
    rw [List.foldlM_cons] at h
    cases hs : f s a with
    | error e' =>
      rw [hs] at h
      cases h
      exact hf s a _ hs
    | ok s' =>
      rw [hs] at h
      exact ih s' e h

/-- Every step of a loop that ends was taken, from a state with the invariant. -/
theorem foldlM_range_steps {S : Type} (f : S → ℕ → Except Fault S) (P : S → Prop) (n : ℕ)
    (pres : ∀ i s s', P s → f s i = .ok s' → P s') (s s' : S) (h0 : P s)
    (h : (List.range n).foldlM f s = .ok s') :
    P s' ∧ ∀ i < n, ∃ t t', P t ∧ f t i = .ok t' := by
  induction n generalizing s' with
  | zero => cases h; exact ⟨h0, fun i hi => absurd hi (by omega)⟩
  | succ n ih =>
    rw [List.range_succ, List.foldlM_append] at h
    cases hs : (List.range n).foldlM f s with
    | error e => rw [hs] at h; cases h
    | ok t =>
      rw [hs] at h
      obtain ⟨hP, hst⟩ := ih t hs
      have h' : f t n = .ok s' := by
        cases hf : f t n with
        | error e => simp [hf] at h
        | ok u => simpa [hf] using h
      refine ⟨pres n t s' hP h', fun i hi => ?_⟩
      rcases Nat.lt_succ_iff_lt_or_eq.mp hi with hi | rfl
      · exact hst i hi
      · exact ⟨t, s', hP, h'⟩

/-! ### Tables -/

/-- A rectangular table: `r` rows of `c` entries. -/
def Rect {α : Type} (r c : ℕ) (g : List (List α)) : Prop :=
  g.length = r ∧ ∀ row ∈ g, row.length = c

theorem table_rect {α : Type} (r c : ℕ) (f : ℕ → ℕ → α) : Rect r c (table r c f) := by
  constructor
  · simp [table]
  · intro row hrow
    simp only [table, List.mem_map, List.mem_range] at hrow
    obtain ⟨i, _, rfl⟩ := hrow
    simp

theorem vget_lt {α : Type} {v : List α} {i : ℕ} {a : α} (h : vget v i = .ok a) :
    v[i]? = some a := by
  unfold vget at h
  cases hv : v[i]? with
  | none => rw [hv] at h; cases h
  | some b => rw [hv] at h; cases h; rfl

theorem vget_err {α : Type} {v : List α} {i : ℕ} {e : Fault} (h : vget v i = .error e) :
    e = .ub := by
  unfold vget at h
  cases hv : v[i]? with
  | none => rw [hv] at h; cases h; rfl
  | some b => rw [hv] at h; cases h

theorem vset_err {α : Type} {v : List α} {i : ℕ} {a : α} {e : Fault}
    (h : vset v i a = .error e) : e = .ub := by
  unfold vset at h
  split at h
  · cases h
  · cases h; rfl

theorem set2_ok {α : Type} {r c i j : ℕ} {v : α} {g g' : List (List α)} (hg : Rect r c g)
    (h : set2 g i j v = .ok g') : i < r ∧ j < c ∧ Rect r c g' := by
  unfold set2 at h
  cases h1 : vget g i with
  | error e => rw [h1] at h; cases h
  | ok row =>
    rw [h1, ok_bind] at h
    have hi := vget_lt h1
    obtain ⟨hi', hrow⟩ := List.getElem?_eq_some_iff.mp hi
    have hmem : row ∈ g := List.mem_of_getElem? hi
    have hc := hg.2 row hmem
    unfold vset at h
    by_cases hj : j < row.length
    · rw [if_pos hj, ok_bind, if_pos hi'] at h
      have := Except.ok.inj h
      subst this
      refine ⟨hg.1 ▸ hi', hc ▸ hj, by simp [hg.1], ?_⟩
      intro row' hrow'
      rcases List.mem_or_eq_of_mem_set hrow' with hm | rfl
      · exact hg.2 row' hm
      · simp [hc]
    · rw [if_neg hj] at h; cases h

theorem set2_err {α : Type} {i j : ℕ} {v : α} {g : List (List α)} {e : Fault}
    (h : set2 g i j v = .error e) : e = .ub := by
  unfold set2 at h
  cases h1 : vget g i with
  | error e' => rw [h1] at h; cases h; exact vget_err h1
  | ok row =>
    rw [h1, ok_bind] at h
    cases h2 : vset row j v with
    | error e' => rw [h2] at h; cases h; exact vset_err h2
    | ok row' => rw [h2, ok_bind] at h; exact vset_err h

theorem set2_table {α : Type} {r c i j : ℕ} (hi : i < r) (hj : j < c) (f : ℕ → ℕ → α) (v : α) :
    set2 (table r c f) i j v =
      .ok (table r c fun a b => if a = i ∧ b = j then v else f a b) := by
  unfold set2
  have h1 : (table r c f)[i]? = some ((List.range c).map (f i)) := by
    simp [table, hi]
  rw [vget_ok h1, ok_bind, vset_ok (by simpa using hj), ok_bind, vset_ok (by simpa [table] using hi)]
  congr 1
  apply List.ext_getElem?
  intro a
  rw [List.getElem?_set]
  by_cases ha : i = a
  · subst ha
    simp only [table, List.length_map, List.length_range, hi, if_true, List.getElem?_map,
      List.getElem?_range hi, Option.map_some, true_and]
    congr 1
    apply List.ext_getElem?
    intro b
    rw [List.getElem?_set]
    by_cases hb : j = b
    · subst hb
      simp [hj]
    · rw [if_neg hb]
      by_cases hbc : b < c
      · simp only [List.getElem?_map, List.getElem?_range hbc, Option.map_some]
        rw [if_neg fun h => hb h.symm]
      · simp [hbc]
  · rw [if_neg ha]
    by_cases har : a < r
    · simp only [table, List.getElem?_map, List.getElem?_range har, Option.map_some]
      congr 1
      apply List.map_congr_left
      intro b _
      rw [if_neg fun h => ha h.1.symm]
    · simp [table, har]

theorem table_congr {α : Type} {r c : ℕ} {f g : ℕ → ℕ → α}
    (h : ∀ i < r, ∀ j < c, f i j = g i j) : table r c f = table r c g := by
  unfold table
  apply List.map_congr_left
  intro i hi
  apply List.map_congr_left
  intro j hj
  exact h i (List.mem_range.mp hi) j (List.mem_range.mp hj)

/-! ### Counting the points on the second axis -/

theorem countY_run (xs : List ℝ) (first : ℝ) (m : ℕ) (hm : ∀ k, 0 < k → k ≤ m → xs[k]? = some first)
    (x : ℝ) (hx : xs[m + 1]? = some x) (hne : x ≠ first) :
    ∀ d, d ≤ m → countY xs first (m - d) = .ok m := by
  intro d
  induction d with
  | zero =>
    intro _
    have hl : m < xs.length := by
      have := (List.getElem?_eq_some_iff.mp hx).1
      omega
    rw [Nat.sub_zero, countY, if_pos hl, vget_ok hx]
    simp only
    rw [if_neg hne]
  | succ d ih =>
    intro hd
    have hx' := hm (m - d) (by omega) (by omega)
    have hl : m - (d + 1) < xs.length := by
      have := (List.getElem?_eq_some_iff.mp hx').1
      omega
    rw [countY, if_pos hl]
    have e : m - (d + 1) + 1 = m - d := by omega
    rw [e, vget_ok hx']
    simp only
    rw [if_true]
    exact ih (by omega)

theorem countY_const (xs : List ℝ) (first : ℝ) (hc : ∀ k < xs.length, xs[k]? = some first) :
    ∀ d ny, ny + d = xs.length → 0 < d → countY xs first ny = .error .ub := by
  intro d
  induction d with
  | zero => intro _ _ h; omega
  | succ d ih =>
    intro ny h _
    rw [countY, if_pos (by omega)]
    by_cases hd : d = 0
    · subst hd
      have : xs[ny + 1]? = none := List.getElem?_eq_none (by omega)
      simp [vget, this]
    · rw [vget_ok (hc (ny + 1) (by omega))]
      simp only
      rw [if_true]
      exact ih (ny + 1) (by omega) (by omega)

/-- Whatever the grid is, a count that is returned is the place of the first change. -/
theorem countY_ok (xs : List ℝ) (first : ℝ) : ∀ d ny m, xs.length - ny = d → ny < xs.length →
    countY xs first ny = .ok m →
    ny ≤ m ∧ m + 1 < xs.length ∧ (∀ k, ny < k → k ≤ m → xs[k]? = some first) ∧
      ∃ x, xs[m + 1]? = some x ∧ x ≠ first := by
  intro d
  induction d with
  | zero => intro ny m h h'; omega
  | succ d ih =>
    intro ny m hd hlt h
    rw [countY, if_pos hlt] at h
    cases hx : xs[ny + 1]? with
    | none => simp [vget, hx] at h
    | some x =>
      have hl := (List.getElem?_eq_some_iff.mp hx).1
      rw [vget_ok hx] at h
      simp only at h
      by_cases hxf : x = first
      · rw [if_pos hxf] at h
        obtain ⟨h1, h2, h3, h4⟩ := ih (ny + 1) m (by omega) hl h
        refine ⟨by omega, h2, fun k hk hkm => ?_, h4⟩
        by_cases hk' : k = ny + 1
        · subst hk'; rw [hx, hxf]
        · exact h3 k (by omega) hkm
      · rw [if_neg hxf] at h
        cases h
        exact ⟨le_refl _, hl, fun k hk hkm => by omega, x, hx, hxf⟩

/-! ### Filling the three tables -/

/-- One step of the two loops of `to_mesh`. -/
noncomputable def meshStep (xs ys vals : List ℝ) (ny i : ℕ)
    (g : List (List ℝ) × List (List ℝ) × List (List ℝ)) (j : ℕ) :
    Except Fault (List (List ℝ) × List (List ℝ) × List (List ℝ)) := do
  let x ← vget xs (i * ny + j)
  let X ← set2 g.1 i j x
  let y ← vget ys (i * ny + j)
  let Y ← set2 g.2.1 i j y
  let z ← vget vals (i * ny + j)
  let Z ← set2 g.2.2 i j z
  pure (X, Y, Z)

/-- The two loops of `to_mesh`. -/
noncomputable def meshFill (xs ys vals : List ℝ) (nx ny : ℕ) :
    Except Fault (List (List ℝ) × List (List ℝ) × List (List ℝ)) :=
  (List.range nx).foldlM (fun g i => (List.range ny).foldlM (meshStep xs ys vals ny i) g)
    (table ny nx fun _ _ => (0 : ℝ), table nx ny fun _ _ => (0 : ℝ),
      table ny nx fun _ _ => (0 : ℝ))

theorem toMesh_eq {xs ys vals : List ℝ} {first : ℝ} {m : ℕ} (h0 : xs[0]? = some first)
    (hm : countY xs first 0 = .ok m) :
    toMesh xs ys vals = if xs.length % (m + 1) = 0 then
      meshFill xs ys vals (xs.length / (m + 1)) (m + 1) else .error .throw := by
  unfold toMesh
  rw [vget_ok h0, ok_bind, hm, ok_bind]
  rfl

theorem meshStep_err {xs ys vals : List ℝ} {ny i : ℕ}
    {g : List (List ℝ) × List (List ℝ) × List (List ℝ)} {j : ℕ} {e : Fault}
    (h : meshStep xs ys vals ny i g j = .error e) : e = .ub := by
  unfold meshStep at h
  cases h1 : vget xs (i * ny + j) with
  | error e' => rw [h1] at h; cases h; exact vget_err h1
  | ok x =>
  rw [h1, ok_bind] at h
  cases h2 : set2 g.1 i j x with
  | error e' => rw [h2] at h; cases h; exact set2_err h2
  | ok X =>
  rw [h2, ok_bind] at h
  cases h3 : vget ys (i * ny + j) with
  | error e' => rw [h3] at h; cases h; exact vget_err h3
  | ok y =>
  rw [h3, ok_bind] at h
  cases h4 : set2 g.2.1 i j y with
  | error e' => rw [h4] at h; cases h; exact set2_err h4
  | ok Y =>
  rw [h4, ok_bind] at h
  cases h5 : vget vals (i * ny + j) with
  | error e' => rw [h5] at h; cases h; exact vget_err h5
  | ok z =>
  rw [h5, ok_bind] at h
  cases h6 : set2 g.2.2 i j z with
  | error e' => rw [h6] at h; cases h; exact set2_err h6
  | ok Z => rw [h6] at h; cases h

theorem meshStep_ok {xs ys vals : List ℝ} {ny nx i : ℕ}
    {g g' : List (List ℝ) × List (List ℝ) × List (List ℝ)} {j : ℕ}
    (hg : Rect ny nx g.1 ∧ Rect nx ny g.2.1 ∧ Rect ny nx g.2.2)
    (h : meshStep xs ys vals ny i g j = .ok g') :
    (i < ny ∧ j < nx) ∧ Rect ny nx g'.1 ∧ Rect nx ny g'.2.1 ∧ Rect ny nx g'.2.2 := by
  unfold meshStep at h
  cases h1 : vget xs (i * ny + j) with
  | error e' => rw [h1] at h; cases h
  | ok x =>
  rw [h1, ok_bind] at h
  cases h2 : set2 g.1 i j x with
  | error e' => rw [h2] at h; cases h
  | ok X =>
  rw [h2, ok_bind] at h
  cases h3 : vget ys (i * ny + j) with
  | error e' => rw [h3] at h; cases h
  | ok y =>
  rw [h3, ok_bind] at h
  cases h4 : set2 g.2.1 i j y with
  | error e' => rw [h4] at h; cases h
  | ok Y =>
  rw [h4, ok_bind] at h
  cases h5 : vget vals (i * ny + j) with
  | error e' => rw [h5] at h; cases h
  | ok z =>
  rw [h5, ok_bind] at h
  cases h6 : set2 g.2.2 i j z with
  | error e' => rw [h6] at h; cases h
  | ok Z =>
  rw [h6, ok_bind] at h
  cases h
  obtain ⟨a1, a2, a3⟩ := set2_ok hg.1 h2
  obtain ⟨-, -, a4⟩ := set2_ok hg.2.1 h4
  obtain ⟨-, -, a5⟩ := set2_ok hg.2.2 h6
  exact ⟨⟨a1, a2⟩, a3, a4, a5⟩

theorem meshFill_err (xs ys vals : List ℝ) (nx ny : ℕ) (e : Fault)
    (h : meshFill xs ys vals nx ny = .error e) : e = .ub :=
  foldlM_err _ (· = .ub)
    (fun _ _ e h => foldlM_err _ (· = .ub) (fun _ _ _ h => meshStep_err h) _ _ e h) _ _ e h

theorem meshFill_square {xs ys vals : List ℝ} {nx ny : ℕ} (hx : 0 < nx) (hy : 0 < ny)
    {g : List (List ℝ) × List (List ℝ) × List (List ℝ)}
    (h : meshFill xs ys vals nx ny = .ok g) : nx = ny := by
  let P := fun g : List (List ℝ) × List (List ℝ) × List (List ℝ) =>
    Rect ny nx g.1 ∧ Rect nx ny g.2.1 ∧ Rect ny nx g.2.2
  have hin : ∀ i s s', P s → (List.range ny).foldlM (meshStep xs ys vals ny i) s = .ok s' →
      P s' ∧ ∀ j < ny, ∃ t t', P t ∧ meshStep xs ys vals ny i t j = .ok t' := by
    intro i s s' hs hss
    exact foldlM_range_steps _ P ny (fun j s s' hs hst => (meshStep_ok hs hst).2) s s' hs hss
  obtain ⟨-, hst⟩ := foldlM_range_steps _ P nx (fun i s s' hs hss => (hin i s s' hs hss).1) _ g
    ⟨table_rect _ _ _, table_rect _ _ _, table_rect _ _ _⟩ h
  obtain ⟨t, t', ht, hstep⟩ := hst (nx - 1) (by omega)
  obtain ⟨u, u', hu, hustep⟩ := (hin _ t t' ht hstep).2 (ny - 1) (by omega)
  have := (meshStep_ok hu hustep).1
  omega

theorem meshFill_eq {n : ℕ} (x y z : ℕ → ℕ → ℝ) {xs ys vals : List ℝ}
    (hx : ∀ i < n, ∀ j < n, xs[i * n + j]? = some (x i j))
    (hy : ∀ i < n, ∀ j < n, ys[i * n + j]? = some (y i j))
    (hz : ∀ i < n, ∀ j < n, vals[i * n + j]? = some (z i j)) :
    meshFill xs ys vals n n = .ok (table n n x, table n n y, table n n z) := by
  let part := fun (f : ℕ → ℕ → ℝ) (i j : ℕ) =>
    table n n fun a b => if a < i ∨ (a = i ∧ b < j) then f a b else 0
  have hrow : ∀ i s, i < n → s = (part x i 0, part y i 0, part z i 0) →
      ∃ s', (List.range n).foldlM (meshStep xs ys vals n i) s = .ok s' ∧
        s' = (part x (i + 1) 0, part y (i + 1) 0, part z (i + 1) 0) := by
    rintro i s hi rfl
    obtain ⟨s', hs', hP⟩ := foldlM_range_inv (meshStep xs ys vals n i)
      (fun j s => s = (part x i j, part y i j, part z i j)) n
      (by
        rintro j s hj rfl
        refine ⟨_, ?_, rfl⟩
        unfold meshStep
        have hset : ∀ f : ℕ → ℕ → ℝ, set2 (part f i j) i j (f i j) = .ok (part f i (j + 1)) := by
          intro f
          rw [set2_table hi hj]
          congr 1
          apply table_congr
          intro a _ b _
          by_cases hab : a = i ∧ b = j
          · obtain ⟨rfl, rfl⟩ := hab
            rw [if_pos ⟨rfl, rfl⟩, if_pos (Or.inr ⟨rfl, by omega⟩)]
          · rw [if_neg hab]
            have : (a < i ∨ a = i ∧ b < j) ↔ (a < i ∨ a = i ∧ b < j + 1) := by omega
            simp only [this]
        rw [vget_ok (hx i hi j hj), ok_bind, hset, ok_bind, vget_ok (hy i hi j hj), ok_bind, hset,
          ok_bind, vget_ok (hz i hi j hj), ok_bind, hset, ok_bind]
        rfl) _ rfl
    refine ⟨s', hs', hP.trans ?_⟩
    have hp : ∀ f : ℕ → ℕ → ℝ, part f i n = part f (i + 1) 0 := by
      intro f
      apply table_congr
      intro a _ b hb
      have : (a < i ∨ a = i ∧ b < n) ↔ (a < i + 1 ∨ a = i + 1 ∧ b < 0) := by omega
      simp only [this]
    rw [hp, hp, hp]
  obtain ⟨s', hs', hP⟩ := foldlM_range_inv _
    (fun i s => s = (part x i 0, part y i 0, part z i 0)) n
    (fun i s hi hs => hrow i s hi hs)
    (table n n fun _ _ => (0 : ℝ), table n n fun _ _ => (0 : ℝ), table n n fun _ _ => (0 : ℝ))
    (by
      have hp : ∀ f : ℕ → ℕ → ℝ, (table n n fun _ _ => (0 : ℝ)) = part f 0 0 := by
        intro f
        apply table_congr
        intro a _ b _
        rw [if_neg (by omega)]
      rw [← hp x, ← hp y, ← hp z])
  unfold meshFill
  rw [hs', hP]
  have hp : ∀ f : ℕ → ℕ → ℝ, part f n 0 = table n n f := by
    intro f
    apply table_congr
    intro a ha b _
    rw [if_pos (Or.inl ha)]
  rw [hp, hp, hp]

/-! ### Bars -/

theorem minCoeff_ok (l : List ℤ) (h : l ≠ []) :
    ∃ m, minCoeff l = .ok m ∧ m ∈ l ∧ ∀ a ∈ l, m ≤ a := by
  obtain ⟨a, l, rfl⟩ := List.exists_cons_of_ne_nil h
  refine ⟨_, rfl, ?_⟩
  clear h
  induction l generalizing a with
  | nil => simp
  | cons b l ih =>
    obtain ⟨h1, h2⟩ := ih (min a b)
    have h3 := h2 (min a b) (by simp)
    rw [List.foldl_cons]
    constructor
    · rcases List.mem_cons.mp h1 with h | h
      · rw [h]
        rcases min_choice a b with h | h <;> simp [h]
      · simp [h]
    · intro c hc
      rcases List.mem_cons.mp hc with rfl | hc
      · exact h3.trans (min_le_left _ _)
      · rcases List.mem_cons.mp hc with rfl | hc
        · exact h3.trans (min_le_right _ _)
        · exact h2 c (by simp [hc])

theorem maxCoeff_ok (l : List ℤ) (h : l ≠ []) :
    ∃ m, maxCoeff l = .ok m ∧ m ∈ l ∧ ∀ a ∈ l, a ≤ m := by
  obtain ⟨a, l, rfl⟩ := List.exists_cons_of_ne_nil h
  refine ⟨_, rfl, ?_⟩
  clear h
  induction l generalizing a with
  | nil => simp
  | cons b l ih =>
    obtain ⟨h1, h2⟩ := ih (max a b)
    have h3 := h2 (max a b) (by simp)
    rw [List.foldl_cons]
    constructor
    · rcases List.mem_cons.mp h1 with h | h
      · rw [h]
        rcases max_choice a b with h | h <;> simp [h]
      · simp [h]
    · intro c hc
      rcases List.mem_cons.mp hc with rfl | hc
      · exact (le_max_left _ _).trans h3
      · rcases List.mem_cons.mp hc with rfl | hc
        · exact (le_max_right _ _).trans h3
        · exact h2 c (by simp [hc])

/-- The counting loop of `num_clus_bar`. -/
theorem barLoop (col : List ℤ) (xmin : ℤ) (nt : ℕ)
    (hr : ∀ a ∈ col, xmin ≤ a ∧ a < xmin + nt) :
    (List.range col.length).foldlM (fun (h : List ℝ) i => do
      let c ← vget col i
      if c - xmin < 0 then Except.error Fault.ub else
        let old ← vget h (c - xmin).toNat
        vset h (c - xmin).toNat (old + 1)) (List.replicate nt 0) =
    .ok ((List.range nt).map fun k : ℕ => ((col.count (xmin + (k : ℤ)) : ℕ) : ℝ)) := by
  obtain ⟨s, hs, hP⟩ := foldlM_range_inv (fun (h : List ℝ) i => do
      let c ← vget col i
      if c - xmin < 0 then Except.error Fault.ub else
        let old ← vget h (c - xmin).toNat
        vset h (c - xmin).toNat (old + 1))
    (fun i s => s = (List.range nt).map fun k : ℕ => (((col.take i).count (xmin + (k : ℤ)) : ℕ) : ℝ))
    col.length
    (by
      rintro i s hi rfl
      refine ⟨_, ?_, rfl⟩
      have hc : col[i]? = some col[i] := List.getElem?_eq_getElem hi
      obtain ⟨h1, h2⟩ := hr col[i] (List.getElem_mem hi)
      have hk : (col[i] - xmin).toNat < nt := by omega
      rw [vget_ok hc, ok_bind, if_neg (by omega)]
      have hg : ((List.range nt).map fun k : ℕ =>
          (((col.take i).count (xmin + (k : ℤ)) : ℕ) : ℝ))[(col[i] - xmin).toNat]? =
          some (((col.take i).count col[i] : ℕ) : ℝ) := by
        simp only [List.getElem?_map, List.getElem?_range hk, Option.map_some]
        have : xmin + ((col[i] - xmin).toNat : ℤ) = col[i] := by omega
        rw [this]
      rw [vget_ok hg, ok_bind, vset_ok (by simpa using hk)]
      congr 1
      apply List.ext_getElem?
      intro k
      have htake : col.take (i + 1) = col.take i ++ [col[i]] := by
        rw [List.take_add_one, hc]; rfl
      rw [List.getElem?_set]
      by_cases hkk : (col[i] - xmin).toNat = k
      · subst hkk
        have e : xmin + ((col[i] - xmin).toNat : ℤ) = col[i] := by omega
        simp only [List.length_map, List.length_range, hk, if_true, List.getElem?_map,
          List.getElem?_range hk, Option.map_some, e, htake, List.count_append,
          List.count_singleton_self]
        push_cast
        rfl
      · rw [if_neg hkk]
        by_cases hkn : k < nt
        · have e : ¬ (col[i] = xmin + (k : ℤ)) := by omega
          simp only [List.getElem?_map, List.getElem?_range hkn, Option.map_some, htake,
            List.count_append]
          rw [List.count_singleton]
          simp [e]
        · simp [hkn])
    (List.replicate nt 0)
    (by
      apply List.ext_getElem?
      intro k
      by_cases hk : k < nt
      · simp [hk]
      · simp [hk])
  rw [hs, hP, List.take_length]

/-- Counts over a range of values that covers the list add up to its length. -/
theorem sum_count (col : List ℤ) (xmin : ℤ) (nt : ℕ)
    (hr : ∀ a ∈ col, xmin ≤ a ∧ a < xmin + nt) :
    ((List.range nt).map fun k : ℕ => col.count (xmin + (k : ℤ))).sum = col.length := by
  induction col with
  | nil => simp
  | cons a col ih =>
    have h1 := ih fun b hb => hr b (by simp [hb])
    have ha := hr a (by simp)
    have h2 : ∀ m : ℕ, ((List.range m).map fun k : ℕ => (if a = xmin + (k : ℤ) then 1 else 0)).sum =
        if a < xmin + m then 1 else 0 := by
      intro m
      induction m with
      | zero => simp; omega
      | succ m ihm =>
        rw [List.range_succ, List.map_append, List.sum_append, ihm]
        simp only [List.map_cons, List.map_nil, List.sum_cons, List.sum_nil, add_zero]
        push_cast
        split_ifs <;> omega
    have h3 : ((List.range nt).map fun k : ℕ => (a :: col).count (xmin + (k : ℤ))) =
        (List.range nt).map fun k : ℕ => col.count (xmin + (k : ℤ)) +
          (if a = xmin + (k : ℤ) then 1 else 0) := by
      apply List.map_congr_left
      intro k _
      rw [List.count_cons]
      simp
    rw [h3, List.sum_map_add, h1, h2, if_pos ha.2, List.length_cons]

end Bayesmix.Utils
