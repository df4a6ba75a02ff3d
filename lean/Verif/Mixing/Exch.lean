import Mathlib.Algebra.BigOperators.Group.List.Lemmas
import Mathlib.Algebra.BigOperators.Group.Finset.Basic
import Mathlib.Algebra.Order.BigOperators.Ring.Finset
import Verif.Mixing.Lemmas

/-! Exchangeability of sequential schemes -/

namespace Bayesmix.Mixing
open Bayesmix

/-- a sequential scheme with product-form closed expression:
    `E seen * factor = E (seen ++ [x])` -/
theorem schemeFrom_closed {ex : ℕ → ℕ → ℕ → ℝ} {nw : ℕ → ℕ → ℝ} {E : List ℕ → ℝ}
    (hstep : ∀ seen x, seen ≠ [] → E (seen ++ [x]) = E seen *
      (if x ∈ seen then ex seen.length seen.toFinset.card (seen.count x)
       else nw seen.length seen.toFinset.card))
    (xs seen : List ℕ) (hne : seen ≠ []) :
    E (seen ++ xs) = E seen * schemeFrom ex nw seen xs := by
  induction xs generalizing seen with
  | nil => simp [schemeFrom]
  | cons x xs ih =>
    have := ih (seen ++ [x]) (by simp)
    rw [List.append_assoc, List.singleton_append] at this
    rw [this, hstep seen x hne, schemeFrom]
    ring

theorem clusterSizes_length (l : List ℕ) : (clusterSizes l).length = l.toFinset.card := by
  simp [clusterSizes, List.card_toFinset]

theorem clusterSizes_sum (l : List ℕ) : (clusterSizes l).sum = l.length := by
  exact List.sum_map_count_dedup_eq_length l

theorem clusterSizes_prod (B : ℕ → ℝ) (l : List ℕ) :
    ((clusterSizes l).map B).prod = ∏ x ∈ l.toFinset, B (l.count x) := by
  rw [clusterSizes, List.map_map]
  have : l.toFinset = l.dedup.toFinset := by ext; simp
  rw [this, List.prod_toFinset _ (List.nodup_dedup l)]
  rfl

/-- product form: number of clusters, sizes, number of data -/
noncomputable def prodForm (A : ℕ → ℕ → ℝ) (B : ℕ → ℝ) (l : List ℕ) : ℝ :=
  A l.length l.toFinset.card * (∏ x ∈ l.toFinset, B (l.count x))

theorem prodForm_sizes (A : ℕ → ℕ → ℝ) (B : ℕ → ℝ) {l l' : List ℕ}
    (h : (clusterSizes l).Perm (clusterSizes l')) :
    prodForm A B l = prodForm A B l' := by
  unfold prodForm
  rw [← clusterSizes_length, ← clusterSizes_length, ← clusterSizes_prod, ← clusterSizes_prod,
    ← clusterSizes_sum l, ← clusterSizes_sum l', h.length_eq, (h.map B).prod_eq, h.sum_eq]

theorem prodB_old (B : ℕ → ℝ) (l : List ℕ) (x : ℕ) (hx : x ∈ l) (r : ℝ)
    (hr : B (l.count x + 1) = B (l.count x) * r) :
    ∏ y ∈ (l ++ [x]).toFinset, B ((l ++ [x]).count y) =
      (∏ y ∈ l.toFinset, B (l.count y)) * r := by
  have hf : (l ++ [x]).toFinset = l.toFinset := by
    ext y; simp only [List.mem_toFinset, List.mem_append, List.mem_singleton]
    constructor
    · rintro (h | rfl) <;> assumption
    · exact Or.inl
  rw [hf]
  have hxm : x ∈ l.toFinset := by simpa using hx
  rw [← Finset.mul_prod_erase _ _ hxm, ← Finset.mul_prod_erase _ _ hxm]
  have h1 : (l ++ [x]).count x = l.count x + 1 := by simp
  have h2 : ∏ y ∈ l.toFinset.erase x, B ((l ++ [x]).count y) =
      ∏ y ∈ l.toFinset.erase x, B (l.count y) := by
    apply Finset.prod_congr rfl
    intro y hy
    have : x ≠ y := (Finset.ne_of_mem_erase hy).symm
    simp [List.count_append, List.count_singleton, this]
  rw [h1, h2, hr]; ring

theorem prodB_new (B : ℕ → ℝ) (l : List ℕ) (x : ℕ) (hx : x ∉ l) :
    ∏ y ∈ (l ++ [x]).toFinset, B ((l ++ [x]).count y) =
      B 1 * (∏ y ∈ l.toFinset, B (l.count y)) := by
  have hf : (l ++ [x]).toFinset = insert x l.toFinset := by
    ext y; simp [or_comm]
  rw [hf, Finset.prod_insert (by simpa using hx)]
  have h1 : (l ++ [x]).count x = 1 := by
    simp [List.count_append, List.count_eq_zero_of_not_mem hx]
  rw [h1]
  congr 1
  apply Finset.prod_congr rfl
  intro y hy
  have : x ≠ y := by rintro rfl; exact hx (by simpa using hy)
  simp [List.count_append, List.count_singleton, this]

theorem card_old (l : List ℕ) (x : ℕ) (hx : x ∈ l) :
    (l ++ [x]).toFinset.card = l.toFinset.card := by
  congr 1
  ext y; simp only [List.mem_toFinset, List.mem_append, List.mem_singleton]
  constructor
  · rintro (h | rfl) <;> assumption
  · exact Or.inl

theorem card_new (l : List ℕ) (x : ℕ) (hx : x ∉ l) :
    (l ++ [x]).toFinset.card = l.toFinset.card + 1 := by
  have hf : (l ++ [x]).toFinset = insert x l.toFinset := by
    ext y; simp [or_comm]
  rw [hf, Finset.card_insert_of_notMem (by simpa using hx)]

/-- schemes whose masses are ratios of a product form only see the sizes -/
theorem scheme_exch {ex : ℕ → ℕ → ℕ → ℝ} {nw : ℕ → ℕ → ℝ} {E : List ℕ → ℝ}
    (hE : ∀ l l', (clusterSizes l).Perm (clusterSizes l') → E l = E l')
    (hstep : ∀ seen x, seen ≠ [] → E (seen ++ [x]) = E seen *
      (if x ∈ seen then ex seen.length seen.toFinset.card (seen.count x)
       else nw seen.length seen.toFinset.card))
    (h1 : ∀ x, E [x] ≠ 0) {l l' : List ℕ}
    (h : (clusterSizes l).Perm (clusterSizes l')) :
    schemeProb ex nw l = schemeProb ex nw l' := by
  have hlen : l.length = l'.length := by
    rw [← clusterSizes_sum, ← clusterSizes_sum, h.sum_eq]
  cases l with
  | nil =>
    have : l' = [] := List.eq_nil_of_length_eq_zero hlen.symm
    rw [this]
  | cons x xs =>
    cases l' with
    | nil => simp at hlen
    | cons y ys =>
      have e1 := schemeFrom_closed hstep xs [x] (by simp)
      have e2 := schemeFrom_closed hstep ys [y] (by simp)
      have e3 : E [x] = E [y] := hE _ _ (by simp [clusterSizes])
      simp only [List.singleton_append] at e1 e2
      simp only [schemeProb]
      have e4 := hE _ _ h
      rw [e1, e2, ← e3] at e4
      exact mul_left_cancel₀ (h1 x) e4

/-! ### Pitman-Yor closed form -/

/-- Factor of the number of clusters in the probability of a partition. -/
noncomputable def pyA (s : PYState) (k : ℕ) : ℝ :=
  ∏ i ∈ Finset.range (k - 1), (s.strength + s.discount * (i + 1))
/-- Factor of a cluster of size `c`. -/
noncomputable def pyB (s : PYState) (c : ℕ) : ℝ :=
  ∏ i ∈ Finset.range (c - 1), ((i : ℝ) + 1 - s.discount)
/-- Normalizing constant with `n` data. -/
noncomputable def pyD (s : PYState) (n : ℕ) : ℝ :=
  ∏ i ∈ Finset.range (n - 1), ((i : ℝ) + 1 + s.strength)

theorem range_prod_succ (f : ℕ → ℝ) (c : ℕ) (hc : 0 < c) :
    ∏ i ∈ Finset.range (c + 1 - 1), f i = (∏ i ∈ Finset.range (c - 1), f i) * f (c - 1) := by
  obtain ⟨d, rfl⟩ : ∃ d, c = d + 1 := ⟨c - 1, by omega⟩
  simp [Finset.prod_range_succ]

theorem cast_pred {c : ℕ} (hc : 0 < c) : ((c - 1 : ℕ) : ℝ) + 1 = c := by
  obtain ⟨d, rfl⟩ : ∃ d, c = d + 1 := ⟨c - 1, by omega⟩
  simp

theorem pyForm_step (s : PYState) (hs : -1 < s.strength) (seen : List ℕ) (x : ℕ)
    (hne : seen ≠ []) :
    prodForm (fun n k => pyA s k / pyD s n) (pyB s) (seen ++ [x]) = prodForm (fun n k => pyA s k / pyD s n) (pyB s) seen *
      (if x ∈ seen then pyMassExisting s seen.length false (seen.count x)
       else pyMassNew s seen.length seen.toFinset.card false) := by
  have hlen : 0 < seen.length := List.length_pos_iff.mpr hne
  have hD : pyD s (seen.length + 1) = pyD s seen.length * (seen.length + s.strength) := by
    unfold pyD
    rw [range_prod_succ _ _ hlen, cast_pred hlen]
  have hn1 : (1 : ℝ) ≤ seen.length := by exact_mod_cast hlen
  have hpos : 0 < (seen.length : ℝ) + s.strength := by linarith
  have hDpos : 0 < pyD s seen.length := by
    unfold pyD
    apply Finset.prod_pos
    intro i _
    have : (0 : ℝ) ≤ i := Nat.cast_nonneg i
    linarith
  unfold prodForm
  rw [List.length_append, List.length_singleton]
  simp only [hD]
  split
  · rename_i hx
    have hc : 0 < seen.count x := List.count_pos_iff.mpr hx
    have hB : pyB s (seen.count x + 1) = pyB s (seen.count x) * (seen.count x - s.discount) := by
      unfold pyB
      rw [range_prod_succ _ _ hc, cast_pred hc]
    rw [card_old _ _ hx, prodB_old (pyB s) seen x hx _ hB]
    simp only [pyMassExisting, if_neg hc.ne', Bool.false_eq_true, if_false]
    field_simp
  · rename_i hx
    have hk : 0 < seen.toFinset.card := by
      rw [Finset.card_pos]
      obtain ⟨y, hy⟩ := List.exists_mem_of_ne_nil _ hne
      exact ⟨y, by simpa using hy⟩
    have hA : pyA s (seen.toFinset.card + 1) =
        pyA s seen.toFinset.card * (s.strength + s.discount * seen.toFinset.card) := by
      unfold pyA
      rw [range_prod_succ _ _ hk, cast_pred hk]
    rw [card_new _ _ hx, prodB_new (pyB s) seen x hx, hA]
    have hB1 : pyB s 1 = 1 := by simp [pyB]
    simp only [pyMassNew, Bool.false_eq_true, if_false, hB1]
    field_simp

theorem py_exch (s : PYState) (hs : -1 < s.strength) {l l' : List ℕ}
    (h : (clusterSizes l).Perm (clusterSizes l')) :
    schemeProb (fun n _ c => pyMassExisting s n false c) (fun n k => pyMassNew s n k false) l =
    schemeProb (fun n _ c => pyMassExisting s n false c) (fun n k => pyMassNew s n k false) l' := by
  apply scheme_exch (E := prodForm (fun n k => pyA s k / pyD s n) (pyB s))
    (fun l l' h => prodForm_sizes _ _ h) (pyForm_step s hs) _ h
  intro x
  simp [prodForm, pyA, pyB, pyD]

end Bayesmix.Mixing
