import Verif.Utils.Model
import Mathlib.Tactic.Linarith
import Mathlib.Tactic.Ring
import Mathlib.Data.List.ProdSigma
import Mathlib.Algebra.Order.BigOperators.Group.Finset

/-! Helper lemmas for the utilities. -/

namespace Bayesmix.Utils

/-! ### Row writes -/

theorem writeRow_ok {α : Type} {out : List (Option α)} {k : ℕ} {r : α} (h : k < out.length) :
    writeRow out k r = .ok (out.set k (some r)) := vset_ok h

theorem writeRow_next {α : Type} (pre : List (Option α)) (k : ℕ) (r : α) :
    writeRow (pre ++ List.replicate (k + 1) none) pre.length r =
      .ok (pre ++ [some r] ++ List.replicate k none) := by
  rw [writeRow_ok (by simp)]
  congr 1
  rw [List.set_append_right _ _ (le_refl _)]
  simp [List.replicate_succ]

/-- A loop writing `m` consecutive rows. -/
theorem writeLoop {α : Type} (g : List (Option α) → ℕ → Except Fault (List (Option α)))
    (f : ℕ → α) (m k b : ℕ) (pre : List (Option α)) (hb : pre.length = b)
    (hg : ∀ out i, i < m → g out i = writeRow out (b + i) (f i)) :
    (List.range m).foldlM g (pre ++ List.replicate (m + k) none) =
      .ok (pre ++ (List.range m).map (fun i => some (f i)) ++ List.replicate k none) := by
  obtain ⟨s, hs, hP⟩ := foldlM_range_inv g
    (fun i s => s = pre ++ (List.range i).map (fun i => some (f i)) ++
      List.replicate (m + k - i) none) m
    (by
      rintro i s hi rfl
      refine ⟨_, ?_, rfl⟩
      rw [hg _ i hi]
      have e : m + k - i = (m + k - (i + 1)) + 1 := by omega
      have l : (pre ++ (List.range i).map (fun i => some (f i))).length = b + i := by
        simp [hb]
      rw [e, ← l, writeRow_next]
      simp [List.range_succ])
    (pre ++ List.replicate (m + k) none) (by simp)
  rw [hs, hP]
  simp

theorem finishRows_map_some {α : Type} (l : List α) : finishRows (l.map some) = .ok l := by
  induction l with
  | nil => rfl
  | cons a l ih => simp [finishRows, ih]

theorem map_range_getElem {α β : Type} (l : List α) (f : α → β) (d : α) :
    (List.range l.length).map (fun i => f (l.getD i d)) = l.map f := by
  apply List.ext_getElem
  · simp
  · intro i h1 h2
    have : i < l.length := by simpa using h2
    simp [this]

theorem writeBlock_eq {α : Type} (pre : List (Option (List α))) (k b : ℕ) (m : RowMat α)
    (hb : pre.length = b) :
    writeBlock (pre ++ List.replicate (m.rows.length + k) none) b m =
      .ok (pre ++ m.rows.map some ++ List.replicate k none) := by
  unfold writeBlock
  rw [writeLoop _ (fun i => m.rows.getD i []) m.rows.length k b pre hb]
  · rw [map_range_getElem m.rows some []]
  · intro out i hi
    rw [vget_ok (List.getElem?_eq_getElem hi), ok_bind]
    simp [hi]

/-! ### Loops that fail -/

/-- If a loop returned normally then each of its steps did. -/
theorem foldlM_steps_ok {S α : Type} (f : S → α → Except Fault S) (Inv : S → Prop)
    (hInv : ∀ s a s', Inv s → f s a = .ok s' → Inv s') (l : List α) (s s' : S) (h0 : Inv s)
    (h : l.foldlM f s = .ok s') : ∀ a ∈ l, ∃ s1 s2, Inv s1 ∧ f s1 a = .ok s2 := by
  induction l generalizing s with
  | nil => simp
  | cons b l ih =>
    rw [List.foldlM_cons] at h
    cases hb : f s b with
    | error e => rw [hb] at h; cases h
    | ok s1 =>
      rw [hb, ok_bind] at h
      intro a ha
      rcases List.mem_cons.1 ha with rfl | ha
      · exact ⟨s, s1, h0, hb⟩
      · exact ih s1 (hInv _ _ _ h0 hb) h a ha

/-- Invariants of a loop that returned normally. -/
theorem foldlM_ok_inv {S α : Type} (f : S → α → Except Fault S) (Inv : S → Prop)
    (hInv : ∀ s a s', Inv s → f s a = .ok s' → Inv s') (l : List α) (s s' : S) (h0 : Inv s)
    (h : l.foldlM f s = .ok s') : Inv s' := by
  induction l generalizing s with
  | nil => cases h; exact h0
  | cons b l ih =>
    rw [List.foldlM_cons] at h
    cases hb : f s b with
    | error e => rw [hb] at h; cases h
    | ok s1 =>
      rw [hb, ok_bind] at h
      exact ih s1 (hInv _ _ _ h0 hb) h

/-- If every step can only fail in one way, so can the loop. -/
theorem foldlM_error {S α : Type} (f : S → α → Except Fault S) (e : Fault)
    (hf : ∀ s a e', f s a = .error e' → e' = e) (l : List α) (s : S) (e' : Fault)
    (h : l.foldlM f s = .error e') : e' = e := by
  induction l generalizing s with
  | nil => cases h
  | cons b l ih =>
    rw [List.foldlM_cons] at h
    cases hb : f s b with
    | error e1 => rw [hb] at h; cases h; exact hf _ _ _ hb
    | ok s1 => rw [hb, ok_bind] at h; exact ih s1 h

theorem writeRow_length {α : Type} {out out' : List (Option α)} {k : ℕ} {r : α}
    (h : writeRow out k r = .ok out') : out'.length = out.length ∧ k < out.length := by
  unfold writeRow vset at h
  split at h
  · cases h; exact ⟨by simp, by assumption⟩
  · cases h

theorem vget_error {α : Type} {v : List α} {i : ℕ} {e : Fault} (h : vget v i = .error e) :
    e = .ub := by
  unfold vget at h
  split at h <;> cases h
  rfl

theorem vset_error {α : Type} {v : List α} {i : ℕ} {a : α} {e : Fault}
    (h : vset v i a = .error e) : e = .ub := by
  unfold vset at h
  split at h <;> cases h
  rfl

theorem vget_eq_ok {α : Type} {v : List α} {i : ℕ} {a : α} (h : vget v i = .ok a) :
    v[i]? = some a := by
  unfold vget at h
  split at h <;> cases h
  assumption

/-! ### Grids -/

/-- The body of the inner loop of `fillGrid`. -/
theorem gridCell_eq (xs ys : List ℝ) (i j : ℕ) (hi : i < xs.length) (hj : j < ys.length)
    (out : List (Option (ℝ × ℝ))) :
    (do
      let x ← vget xs i
      let y ← vget ys j
      writeRow out (i * xs.length + j) (x, y)) =
    writeRow out (i * xs.length + j) (xs.getD i 0, ys.getD j 0) := by
  rw [vget_ok (List.getElem?_eq_getElem hi), vget_ok (List.getElem?_eq_getElem hj)]
  simp [hi, hj]

/-- All pairs, the second coordinate running faster. -/
def allPairs (xs ys : List ℝ) : List (ℝ × ℝ) := xs.flatMap (fun x => ys.map (fun y => (x, y)))

theorem allPairs_length (xs ys : List ℝ) : (allPairs xs ys).length = xs.length * ys.length := by
  induction xs with
  | nil => simp [allPairs]
  | cons x xs ih =>
    have : allPairs (x :: xs) ys = ys.map (fun y => (x, y)) ++ allPairs xs ys := by
      simp [allPairs]
    rw [this, List.length_append, ih, List.length_map, List.length_cons]
    ring

theorem fillGrid_good (xs ys : List ℝ)
    (h : xs.length = ys.length ∨ xs.length ≤ 1 ∨ ys.length = 0) :
    fillGrid xs ys = .ok ((allPairs xs ys).map some) := by
  by_cases hy : ys.length = 0
  · have hy' : ys = [] := List.eq_nil_iff_length_eq_zero.2 hy
    subst hy'
    obtain ⟨s, hs, hP⟩ := foldlM_range_inv
      (fun out i => (List.range ([] : List ℝ).length).foldlM (fun out j => do
        let x ← vget xs i
        let y ← vget ([] : List ℝ) j
        writeRow out (i * xs.length + j) (x, y)) out)
      (fun _ s => s = ([] : List (Option (ℝ × ℝ)))) xs.length
      (by rintro i s hi rfl; exact ⟨[], rfl, rfl⟩) [] rfl
    unfold fillGrid
    simp only [List.length_nil, Nat.mul_zero, List.replicate_zero] at hs ⊢
    rw [hs, hP]
    simp [allPairs]
  · unfold fillGrid
    obtain ⟨s, hs, hP⟩ := foldlM_range_inv
      (fun out i => (List.range ys.length).foldlM (fun out j => do
        let x ← vget xs i
        let y ← vget ys j
        writeRow out (i * xs.length + j) (x, y)) out)
      (fun i s => s = (allPairs (xs.take i) ys).map some ++
        List.replicate ((xs.length - i) * ys.length) none) xs.length
      (by
        rintro i s hi rfl
        have e : (xs.length - i) * ys.length =
            ys.length + (xs.length - (i + 1)) * ys.length := by
          obtain ⟨d, hd⟩ : ∃ d, xs.length - i = d + 1 := ⟨xs.length - i - 1, by omega⟩
          have : xs.length - (i + 1) = d := by omega
          rw [hd, this]; ring
        refine ⟨_, ?_, rfl⟩
        rw [e, writeLoop _ (fun j => (xs.getD i 0, ys.getD j 0)) ys.length
          ((xs.length - (i + 1)) * ys.length) (i * xs.length)]
        · congr 2
          have ht : xs.take (i + 1) = xs.take i ++ [xs.getD i 0] := by
            rw [List.take_add_one, List.getElem?_eq_getElem hi]
            simp [hi]
          rw [map_range_getElem ys (fun y => some (xs.getD i 0, y)) 0, ht]
          simp [allPairs]
        · rw [List.length_map, allPairs_length, List.length_take, min_eq_left (le_of_lt hi)]
          rcases h with h | h | h
          · rw [h]
          · have : i = 0 := by omega
            simp [this]
          · exact absurd h hy
        · intro out j hj
          exact gridCell_eq xs ys i j hi hj out)
      (List.replicate (xs.length * ys.length) none) (by simp [allPairs])
    rw [hs, hP]
    simp

theorem gridCell_error {xs ys : List ℝ} {i j : ℕ} {out : List (Option (ℝ × ℝ))} {e : Fault}
    (h : (do
      let x ← vget xs i
      let y ← vget ys j
      writeRow out (i * xs.length + j) (x, y)) = .error e) : e = .ub := by
  cases hx : vget xs i with
  | error e1 => rw [hx] at h; cases h; exact vget_error hx
  | ok x =>
    rw [hx, ok_bind] at h
    cases hy : vget ys j with
    | error e1 => rw [hy] at h; cases h; exact vget_error hy
    | ok y => rw [hy, ok_bind] at h; exact vset_error h

theorem gridCell_ok {xs ys : List ℝ} {i j : ℕ} {out out' : List (Option (ℝ × ℝ))}
    (h : (do
      let x ← vget xs i
      let y ← vget ys j
      writeRow out (i * xs.length + j) (x, y)) = .ok out') :
    out'.length = out.length ∧ i * xs.length + j < out.length := by
  cases hx : vget xs i with
  | error e1 => rw [hx] at h; cases h
  | ok x =>
    rw [hx, ok_bind] at h
    cases hy : vget ys j with
    | error e1 => rw [hy] at h; cases h
    | ok y => rw [hy, ok_bind] at h; exact writeRow_length h

theorem fillGrid_wide (xs ys : List ℝ) (hy : 0 < ys.length) (h : ys.length < xs.length) :
    fillGrid xs ys = .error .ub := by
  cases hr : fillGrid xs ys with
  | error e =>
    have : e = .ub := foldlM_error _ .ub
      (fun s i e' h' => foldlM_error _ .ub (fun s j e' h' => gridCell_error h') _ _ _ h') _ _ _ hr
    rw [this]
  | ok out =>
    exfalso
    have hin : ∀ (s : List (Option (ℝ × ℝ))) (i : ℕ) (s' : List (Option (ℝ × ℝ))),
        s.length = xs.length * ys.length →
        (List.range ys.length).foldlM (fun out j => do
          let x ← vget xs i
          let y ← vget ys j
          writeRow out (i * xs.length + j) (x, y)) s = .ok s' →
        s'.length = xs.length * ys.length := fun s i s' h0 h1 =>
      foldlM_ok_inv _ (fun s => s.length = xs.length * ys.length)
        (fun s j s' h0 h1 => by rw [(gridCell_ok h1).1, h0]) _ _ _ h0 h1
    obtain ⟨s1, s2, hs1, hs2⟩ := foldlM_steps_ok _ (fun s => s.length = xs.length * ys.length)
      hin _ _ _ (by simp) hr (xs.length - 1) (by simp; omega)
    obtain ⟨s3, s4, hs3, hs4⟩ := foldlM_steps_ok _ (fun s => s.length = xs.length * ys.length)
      (fun s j s' h0 h1 => by rw [(gridCell_ok h1).1, h0]) _ _ _ hs1 hs2 (ys.length - 1)
      (by simp; omega)
    have hlt := (gridCell_ok hs4).2
    rw [hs3] at hlt
    obtain ⟨a, ha⟩ : ∃ a, ys.length = a + 1 := ⟨ys.length - 1, by omega⟩
    obtain ⟨b, hb⟩ : ∃ b, xs.length = a + b + 2 := ⟨xs.length - a - 2, by omega⟩
    rw [ha, hb] at hlt
    simp only [Nat.add_sub_cancel] at hlt
    have e : a + b + 2 - 1 = a + b + 1 := by omega
    rw [e] at hlt
    nlinarith

theorem fillGrid_tall (xs ys : List ℝ) (hx : 2 ≤ xs.length) (h : xs.length < ys.length) :
    ∃ out, fillGrid xs ys = .ok out ∧ out.length = xs.length * ys.length ∧
      out[xs.length * ys.length - 1]? = some none := by
  have hpos : 0 < xs.length * ys.length := Nat.mul_pos (by omega) (by omega)
  refine foldlM_range_inv _ (fun _ (s : List (Option (ℝ × ℝ))) =>
    s.length = xs.length * ys.length ∧ s[xs.length * ys.length - 1]? = some none) xs.length ?_ _ ?_
  · intro i s hi hs
    refine foldlM_range_inv _ (fun _ (s : List (Option (ℝ × ℝ))) =>
      s.length = xs.length * ys.length ∧ s[xs.length * ys.length - 1]? = some none)
      ys.length ?_ _ hs
    intro j s hj hs
    have hlt : i * xs.length + j < xs.length * ys.length - 1 := by
      have h1 : i ≤ xs.length - 1 := by omega
      obtain ⟨a, ha⟩ : ∃ a, xs.length = a + 2 := ⟨xs.length - 2, by omega⟩
      obtain ⟨b, hb⟩ : ∃ b, ys.length = a + b + 3 := ⟨ys.length - a - 3, by omega⟩
      rw [ha] at h1 ⊢
      rw [hb] at hj ⊢
      have h1' : i ≤ a + 1 := by omega
      have : i * (a + 2) ≤ (a + 1) * (a + 2) := Nat.mul_le_mul_right _ h1'
      have hmul : (a + 2) * (a + b + 3) = (a + 1) * (a + 2) + (a + 2 + (a + 2) * (b + 1)) := by
        ring
      have : (a + 2) * (b + 1) = (a + 1) * b + (a + 1) + (b + 1) := by ring
      have : 0 ≤ (a + 1) * b := Nat.zero_le _
      omega
    refine ⟨s.set (i * xs.length + j) (some (xs.getD i 0, ys.getD j 0)), ?_, ?_⟩
    · rw [gridCell_eq xs ys i j hi hj, writeRow_ok (by omega)]
    · refine ⟨by simp [hs.1], ?_⟩
      rw [List.getElem?_set_ne (by omega)]
      exact hs.2
  · refine ⟨by simp, ?_⟩
    rw [List.getElem?_replicate]
    simp [Nat.sub_lt hpos]

/-! ### Text -/

theorem getlines_eq_nil {d : Char} {l : List Char} : getlines d l = [] ↔ l = [] := by
  cases l with
  | nil => simp [getlines]
  | cons c cs =>
    simp only [getlines]
    split
    · simp
    · split <;> simp

theorem getlines_piece (d : Char) (p : List Char) (hp : d ∉ p) (hne : p ≠ []) :
    getlines d p = [p] := by
  induction p with
  | nil => exact absurd rfl hne
  | cons c cs ih =>
    have hc : c ≠ d := fun h => hp (by simp [h])
    simp only [getlines, if_neg hc]
    by_cases hcs : cs = []
    · subst hcs; simp [getlines]
    · rw [ih (fun h => hp (List.mem_cons_of_mem _ h)) hcs]

theorem getlines_piece_sep (d : Char) (p rest : List Char) (hp : d ∉ p) :
    getlines d (p ++ d :: rest) = p :: getlines d rest := by
  induction p with
  | nil => simp [getlines]
  | cons c cs ih =>
    have hc : c ≠ d := fun h => hp (by simp [h])
    simp only [List.cons_append, getlines, if_neg hc]
    rw [ih (fun h => hp (List.mem_cons_of_mem _ h))]

theorem getlines_joinWith (d : Char) (ps : List (List Char)) (hd : ∀ p ∈ ps, d ∉ p)
    (hne : ∀ p ∈ ps, p ≠ []) : getlines d (joinWith d ps) = ps := by
  induction ps with
  | nil => rfl
  | cons a l ih =>
    cases l with
    | nil => exact getlines_piece d a (hd a (by simp)) (hne a (by simp))
    | cons b l =>
      simp only [joinWith]
      rw [getlines_piece_sep d a _ (hd a (by simp)),
        ih (fun p hp => hd p (List.mem_cons_of_mem _ hp))
          (fun p hp => hne p (List.mem_cons_of_mem _ hp))]

theorem mem_joinWith {sep c : Char} {ps : List (List Char)} (h : c ∈ joinWith sep ps) :
    c = sep ∨ ∃ p ∈ ps, c ∈ p := by
  induction ps with
  | nil => simp [joinWith] at h
  | cons a l ih =>
    cases l with
    | nil => exact Or.inr ⟨a, by simp, h⟩
    | cons b l =>
      simp only [joinWith, List.mem_append, List.mem_cons] at h
      rcases h with h | h | h
      · exact Or.inr ⟨a, by simp, h⟩
      · exact Or.inl h
      · rcases ih h with h | ⟨p, hp, hc⟩
        · exact Or.inl h
        · exact Or.inr ⟨p, List.mem_cons_of_mem _ hp, hc⟩

theorem joinWith_ne_nil {sep : Char} {ps : List (List Char)} (h : ps ≠ [])
    (hne : ∀ p ∈ ps, p ≠ []) : joinWith sep ps ≠ [] := by
  cases ps with
  | nil => exact absurd rfl h
  | cons a l =>
    cases l with
    | nil => exact hne a (by simp)
    | cons b l => simp [joinWith]

/-- The loop over the entries of a line when there is room. -/
theorem readEntries_ok {α : Type} (stof : List Char → Option α) (g : List Char → α)
    (es : List (List Char)) (k : ℕ) (pre : List (Option α))
    (hg : ∀ e ∈ es, stof e = some (g e)) :
    es.foldlM (fun (p : List (Option α) × ℕ) entry => do
      let row ← storeEntry stof p.1 p.2 entry
      pure (row, p.2 + 1)) (pre ++ List.replicate (es.length + k) none, pre.length) =
    .ok (pre ++ es.map (fun e => some (g e)) ++ List.replicate k none,
      pre.length + es.length) := by
  induction es generalizing pre with
  | nil => simp
  | cons e es ih =>
    have hs : storeEntry stof (pre ++ List.replicate ((e :: es).length + k) none) pre.length e =
        .ok (pre ++ [some (g e)] ++ List.replicate (es.length + k) none) := by
      unfold storeEntry
      rw [hg e (by simp)]
      have : (e :: es).length + k = (es.length + k) + 1 := by simp; omega
      rw [this]
      exact writeRow_next pre (es.length + k) (g e)
    rw [List.foldlM_cons]
    simp only [hs, ok_bind, pure_eq_ok]
    have := ih (pre ++ [some (g e)]) (fun e' he' => hg e' (List.mem_cons_of_mem _ he'))
    simp only [pure_eq_ok, List.length_append, List.length_cons, List.length_nil,
      Nat.zero_add] at this
    rw [this]
    simp only [List.map_cons, List.append_assoc, List.cons_append, List.nil_append,
      List.length_cons]
    rw [show pre.length + 1 + es.length = pre.length + (es.length + 1) by omega]

/-- The loop over the entries of a line when there are too many. -/
theorem readEntries_overflow {α : Type} (stof : List Char → Option α) (es : List (List Char))
    (row : List (Option α)) (j : ℕ) (hg : ∀ e ∈ es, (stof e).isSome)
    (hlen : row.length < j + es.length) (hj : j ≤ row.length) :
    es.foldlM (fun (p : List (Option α) × ℕ) entry => do
      let row ← storeEntry stof p.1 p.2 entry
      pure (row, p.2 + 1)) (row, j) = .error .ub := by
  induction es generalizing row j with
  | nil => simp at hlen; omega
  | cons e es ih =>
    obtain ⟨x, hx⟩ := Option.isSome_iff_exists.1 (hg e (by simp))
    rw [List.foldlM_cons]
    by_cases hjr : j < row.length
    · have hs : storeEntry stof row j e = .ok (row.set j (some x)) := by
        simp [storeEntry, hx, vset, hjr]
      simp only [hs, ok_bind, pure_eq_ok]
      have := ih (row.set j (some x)) (j + 1) (fun e' he' => hg e' (List.mem_cons_of_mem _ he'))
        (by simp at hlen ⊢; omega) (by simp; omega)
      simp only [pure_eq_ok] at this
      exact this
    · have hs : storeEntry stof row j e = .error .ub := by
        simp [storeEntry, hx, vset, hjr]
      simp only [hs, error_bind]

theorem readRow_ok {α : Type} (delim : Char) (stof : List Char → Option α)
    (g : List Char → α) (cols : ℕ) (line : List Char)
    (hg : ∀ e ∈ getlines delim line, stof e = some (g e))
    (hlen : (getlines delim line).length ≤ cols) :
    readRow delim stof cols line = .ok ((getlines delim line).map (fun e => some (g e)) ++
      List.replicate (cols - (getlines delim line).length) none) := by
  have := readEntries_ok stof g (getlines delim line) (cols - (getlines delim line).length) [] hg
  unfold readRow
  rw [Nat.add_sub_cancel' hlen] at this
  simp only [List.nil_append, List.length_nil] at this
  rw [this]
  rfl

theorem readRow_overflow {α : Type} (delim : Char) (stof : List Char → Option α) (cols : ℕ)
    (line : List Char) (hg : ∀ e ∈ getlines delim line, (stof e).isSome)
    (hlen : cols < (getlines delim line).length) :
    readRow delim stof cols line = .error .ub := by
  have := readEntries_overflow stof (getlines delim line) (List.replicate cols none) 0 hg
    (by simpa using hlen) (by simp)
  unfold readRow
  rw [this]
  rfl

theorem readEntries_total {α : Type} (stof : List Char → Option α) (entries : List (List Char)) :
    ∀ (row : List (Option α)) (j : ℕ), j + entries.length ≤ row.length →
    ((∀ e ∈ entries, (stof e).isSome) →
      ∃ q, entries.foldlM (fun (p : List (Option α) × ℕ) entry => do
        let row ← storeEntry stof p.1 p.2 entry
        pure (row, p.2 + 1)) (row, j) = Except.ok q) ∧
    ((∃ e ∈ entries, stof e = none) →
      entries.foldlM (fun (p : List (Option α) × ℕ) entry => do
        let row ← storeEntry stof p.1 p.2 entry
        pure (row, p.2 + 1)) (row, j) = Except.error Fault.throw) := by
  induction entries with
  | nil => intro row j _; exact ⟨fun _ => ⟨_, rfl⟩, fun ⟨e, he, _⟩ => by simp at he⟩
  | cons a l ih =>
    intro row j hj
    simp only [List.length_cons] at hj
    cases hs : stof a with
    | none =>
      constructor
      · intro h
        have := h a (by simp)
        rw [hs] at this
        cases this
      · intro _
        rw [List.foldlM_cons]
        have : storeEntry stof row j a = .error .throw := by simp [storeEntry, hs]
        simp only [this, error_bind]
    | some x =>
      have hst : storeEntry stof row j a = .ok (row.set j (some x)) := by
        have : j < row.length := by omega
        simp [storeEntry, hs, vset, this]
      have := ih (row.set j (some x)) (j + 1) (by simp; omega)
      rw [List.foldlM_cons]
      simp only [hst, ok_bind]
      refine ⟨fun h => this.1 (fun e he => h e (List.mem_cons_of_mem _ he)), ?_⟩
      rintro ⟨e, he, hn⟩
      rcases List.mem_cons.1 he with rfl | he
      · rw [hs] at hn; cases hn
      · exact this.2 ⟨e, he, hn⟩

theorem readRow_total {α : Type} (delim : Char) (stof : List Char → Option α) (cols : ℕ)
    (line : List Char) (hlen : (getlines delim line).length ≤ cols) :
    ((∀ e ∈ getlines delim line, (stof e).isSome) →
      ∃ r, readRow delim stof cols line = .ok r) ∧
    ((∃ e ∈ getlines delim line, stof e = none) →
      readRow delim stof cols line = .error .throw) := by
  have := readEntries_total stof (getlines delim line) (List.replicate cols none) 0
    (by simpa using hlen)
  unfold readRow
  constructor
  · intro h
    obtain ⟨q, hq⟩ := this.1 h
    exact ⟨q.1, by rw [hq]; rfl⟩
  · intro h
    rw [this.2 h]
    rfl

theorem mapM_ok_of {α β : Type} (f : α → Except Fault β) (g : α → β) (l : List α)
    (h : ∀ a ∈ l, f a = .ok (g a)) : l.mapM f = .ok (l.map g) := by
  induction l with
  | nil => rfl
  | cons a l ih =>
    rw [List.mapM_cons, h a (by simp), ok_bind, ih (fun b hb => h b (List.mem_cons_of_mem _ hb))]
    rfl

theorem mapM_error_of {α β : Type} (f : α → Except Fault β) (e : Fault) (l : List α)
    (h : ∀ a ∈ l, (∃ b, f a = .ok b) ∨ f a = .error e) (a : α) (ha : a ∈ l)
    (hfa : f a = .error e) : l.mapM f = .error e := by
  induction l with
  | nil => simp at ha
  | cons b l ih =>
    rw [List.mapM_cons]
    rcases h b (by simp) with ⟨x, hx⟩ | hx
    · rw [hx, ok_bind]
      have hal : a ∈ l := by
        rcases List.mem_cons.1 ha with rfl | h'
        · rw [hx] at hfa; cases hfa
        · exact h'
      rw [ih (fun c hc => h c (List.mem_cons_of_mem _ hc)) hal]
      rfl
    · rw [hx]; rfl

/-! ### Similarity and estimate -/

theorem simInner (c : ℕ → ℕ → ℝ) (i k : ℕ) (m : ℕ → ℕ → ℝ) (a b : ℕ) :
    (List.range k).foldl (fun m j => setEntry m i j (c i j)) m a b =
      if a = i ∧ b < k then c a b else m a b := by
  induction k with
  | zero => simp
  | succ k ih =>
    rw [List.range_succ, List.foldl_append]
    simp only [List.foldl_cons, List.foldl_nil, setEntry]
    by_cases h : a = i ∧ b = k
    · rw [if_pos h, if_pos ⟨h.1, by omega⟩, h.1, h.2]
    · rw [if_neg h, ih]
      by_cases h2 : a = i ∧ b < k
      · rw [if_pos h2, if_pos ⟨h2.1, by omega⟩]
      · rw [if_neg h2, if_neg]
        rintro ⟨h3, h4⟩
        rcases Nat.lt_succ_iff_lt_or_eq.1 h4 with h5 | h5
        · exact h2 ⟨h3, h5⟩
        · exact h ⟨h3, h5⟩

theorem simOuter (c : ℕ → ℕ → ℝ) (n : ℕ) (m : ℕ → ℕ → ℝ) (a b : ℕ) :
    (List.range n).foldl (fun m i =>
      (List.range i).foldl (fun m j => setEntry m i j (c i j)) m) m a b =
      if a < n ∧ b < a then c a b else m a b := by
  induction n with
  | zero => simp
  | succ n ih =>
    rw [List.range_succ, List.foldl_append]
    simp only [List.foldl_cons, List.foldl_nil]
    rw [simInner, ih]
    by_cases h : a = n ∧ b < n
    · rw [if_pos h, if_pos ⟨by omega, by omega⟩]
    · rw [if_neg h]
      by_cases h2 : a < n ∧ b < a
      · rw [if_pos h2, if_pos ⟨by omega, h2.2⟩]
      · rw [if_neg h2, if_neg]
        rintro ⟨h3, h4⟩
        rcases Nat.lt_succ_iff_lt_or_eq.1 h3 with h5 | h5
        · exact h2 ⟨h5, h4⟩
        · exact h ⟨h5, by omega⟩

theorem countP_range_card (T : ℕ) (p : ℕ → Prop) [DecidablePred p] :
    (List.range T).countP (fun t => decide (p t)) =
      ((Finset.range T).filter p).card := by
  induction T with
  | zero => rfl
  | succ T ih =>
    rw [List.range_succ, List.countP_append, ih, Finset.range_add_one, Finset.filter_insert]
    by_cases h : p T
    · rw [if_pos h, Finset.card_insert_of_notMem (by simp)]
      simp [h]
    · rw [if_neg h]; simp [h]

theorem posteriorSimilarity_eq (T n : ℕ) (chain : ℕ → ℕ → ℝ) (i j : ℕ) :
    posteriorSimilarity T n chain i j =
      if i < n ∧ j < i then
        (((Finset.range T).filter (fun t => chain t i = chain t j)).card : ℝ) / T
      else 0 := by
  have e := simOuter (fun i j =>
    (((List.range T).countP (fun t => chain t i - chain t j == 0) : ℕ) : ℝ)) n (fun _ _ => 0) i j
  unfold posteriorSimilarity
  rw [e]
  split
  · congr 2
    rw [← countP_range_card]
    congr 1
    funext t
    rw [Bool.eq_iff_iff]
    simp [sub_eq_zero]
  · simp

theorem errInner (x : ℕ → ℝ) (k : ℕ) (e : ℝ) :
    (List.range k).foldl (fun e j => e + x j) e = e + ∑ j ∈ Finset.range k, x j := by
  induction k with
  | zero => simp
  | succ k ih =>
    rw [List.range_succ, List.foldl_append, ih]
    simp [Finset.sum_range_succ, add_assoc]

theorem accumulateError_eq (n : ℕ) (row : ℕ → ℤ) (sim : ℕ → ℕ → ℝ) (start : ℝ) :
    accumulateError n row sim start = start + ∑ i ∈ Finset.range n, ∑ j ∈ Finset.range i,
      ((if row i = row j then (1 : ℝ) else 0) - sim i j) ^ 2 := by
  unfold accumulateError
  have h : ∀ (i : ℕ) (e : ℝ), (List.range i).foldl (fun e j =>
      let x : ℝ := if row i = row j then 1 else 0
      e + (x - sim i j) * (x - sim i j)) e = e + ∑ j ∈ Finset.range i,
      ((if row i = row j then (1 : ℝ) else 0) - sim i j) ^ 2 := by
    intro i e
    rw [← errInner]
    congr 1
    funext e j
    simp only [pow_two]
  rw [← errInner]
  congr 1
  funext e i
  exact h i e

theorem minCoeffIdx_spec (errors : ℕ → ℝ) (T : ℕ) (hT : 0 < T) :
    minCoeffIdx errors T < T ∧ (∀ k < T, errors (minCoeffIdx errors T) ≤ errors k) ∧
      ∀ k < minCoeffIdx errors T, errors (minCoeffIdx errors T) < errors k := by
  induction T with
  | zero => omega
  | succ T ih =>
    by_cases h0 : T = 0
    · subst h0; simp [minCoeffIdx]
    obtain ⟨h1, h2, h3⟩ := ih (by omega)
    have e : minCoeffIdx errors (T + 1) =
        if errors T < errors (minCoeffIdx errors T) then T else minCoeffIdx errors T := by
      unfold minCoeffIdx
      rw [List.range_succ, List.foldl_append]
      rfl
    rw [e]
    split
    · rename_i hlt
      refine ⟨by omega, ?_, ?_⟩
      · intro k hk
        rcases Nat.lt_succ_iff_lt_or_eq.1 hk with hk | rfl
        · exact le_trans (le_of_lt hlt) (h2 k hk)
        · exact le_refl _
      · intro k hk
        exact lt_of_lt_of_le hlt (h2 k hk)
    · rename_i hge
      refine ⟨by omega, ?_, h3⟩
      intro k hk
      rcases Nat.lt_succ_iff_lt_or_eq.1 hk with hk | rfl
      · exact h2 k hk
      · exact not_lt.1 hge

/-! ### Factory -/

/-- The entries of a `std::map` are in increasing order of keys. -/
def SortedKeys {B : Type} (s : Storage B) : Prop := (s.map Prod.fst).Pairwise (· < ·)

theorem addBuilder_keys {B : Type} (id : ℕ) (b : B) (s : Storage B) (k : ℕ) :
    k ∈ (addBuilder id b s).map Prod.fst ↔ k = id ∨ k ∈ s.map Prod.fst := by
  induction s with
  | nil => simp [addBuilder]
  | cons p l ih =>
    obtain ⟨k', v⟩ := p
    simp only [addBuilder]
    split
    · simp
    · split
      · rename_i h; subst h; simp
      · simp only [List.map_cons, List.mem_cons, ih]
        tauto

theorem addBuilder_sorted {B : Type} (id : ℕ) (b : B) (s : Storage B) (h : SortedKeys s) :
    SortedKeys (addBuilder id b s) := by
  induction s with
  | nil => simp [addBuilder, SortedKeys]
  | cons p l ih =>
    obtain ⟨k', v⟩ := p
    simp only [SortedKeys, List.map_cons, List.pairwise_cons] at h
    simp only [addBuilder]
    split
    · rename_i hlt
      simp only [SortedKeys, List.map_cons, List.pairwise_cons]
      refine ⟨?_, h⟩
      intro a ha
      rcases List.mem_cons.1 ha with rfl | ha
      · exact hlt
      · exact lt_trans hlt (h.1 a ha)
    · split
      · simpa [SortedKeys] using h
      · simp only [SortedKeys, List.map_cons, List.pairwise_cons]
        refine ⟨?_, ih h.2⟩
        intro a ha
        rcases (addBuilder_keys id b l a).1 ha with rfl | ha
        · omega
        · exact h.1 a ha

theorem findBuilder_none {B : Type} {id : ℕ} {s : Storage B} :
    findBuilder id s = none ↔ id ∉ s.map Prod.fst := by
  induction s with
  | nil => simp [findBuilder]
  | cons p l ih =>
    obtain ⟨k', v⟩ := p
    simp only [findBuilder, List.map_cons, List.mem_cons, not_or]
    split
    · rename_i h; simp [h]
    · rename_i h
      rw [ih]
      constructor
      · intro h'; exact ⟨fun e => h e.symm, h'⟩
      · exact fun h' => h'.2

theorem findBuilder_add {B : Type} (id : ℕ) (b : B) (s : Storage B) (h : SortedKeys s) (k : ℕ) :
    findBuilder k (addBuilder id b s) =
      if k = id then some ((findBuilder id s).getD b) else findBuilder k s := by
  induction s with
  | nil =>
    simp only [addBuilder, findBuilder]
    by_cases hk : k = id
    · simp [hk]
    · rw [if_neg (fun h => hk h.symm), if_neg hk]
  | cons p l ih =>
    obtain ⟨k', v⟩ := p
    have h' := h
    simp only [SortedKeys, List.map_cons, List.pairwise_cons] at h'
    simp only [addBuilder]
    split
    · rename_i hlt
      by_cases hk : k = id
      · have hn : findBuilder id ((k', v) :: l) = none := by
          rw [findBuilder_none]
          simp only [List.map_cons, List.mem_cons, not_or]
          refine ⟨by omega, fun hm => ?_⟩
          have := h'.1 id hm
          omega
        rw [hn]
        simp [findBuilder, hk]
      · rw [if_neg hk]
        simp only [findBuilder]
        rw [if_neg (fun h => hk h.symm)]
    · split
      · rename_i heq
        by_cases hk : k = id
        · simp [findBuilder, hk, heq]
        · rw [if_neg hk]
      · rename_i hne
        simp only [findBuilder]
        rw [ih h'.2]
        by_cases hk' : k' = k
        · have : ¬ k = id := by omega
          rw [if_pos hk', if_neg this, if_pos hk']
        · rw [if_neg hk', if_neg hk']
          by_cases hk : k = id
          · rw [if_pos hk, if_pos hk, if_neg (fun h => hne h.symm)]
          · rw [if_neg hk, if_neg hk]

theorem registerAll_snoc {B : Type} (l : List (ℕ × B)) (p : ℕ × B) :
    registerAll (l ++ [p]) = addBuilder p.1 p.2 (registerAll l) := by
  simp [registerAll]

theorem registerAll_sorted {B : Type} (l : List (ℕ × B)) : SortedKeys (registerAll l) := by
  induction l using List.reverseRecOn with
  | nil => simp [registerAll, SortedKeys]
  | append_singleton l p ih => rw [registerAll_snoc]; exact addBuilder_sorted _ _ _ ih

theorem findBuilder_registerAll {B : Type} (l : List (ℕ × B)) (id : ℕ) :
    findBuilder id (registerAll l) = (l.find? (fun p => p.1 = id)).map Prod.snd := by
  induction l using List.reverseRecOn with
  | nil => simp [registerAll, findBuilder]
  | append_singleton l p ih =>
    rw [registerAll_snoc, findBuilder_add _ _ _ (registerAll_sorted l), List.find?_append]
    by_cases h : id = p.1
    · subst h
      rw [if_pos rfl, ih]
      cases hf : l.find? (fun q => q.1 = p.1) with
      | none => simp
      | some q => simp
    · rw [if_neg h, ih]
      have : ¬ p.1 = id := fun e => h e.symm
      simp [this]

end Bayesmix.Utils
