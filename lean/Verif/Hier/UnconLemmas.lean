import Verif.Hier.Uncon
import Verif.Hier.PropsNW
import Mathlib.Tactic.Linarith
import Mathlib.Tactic.Ring

/-!
# Lemmas on unconstrained representations
-/

namespace Bayesmix.Hierarchies

open Matrix

theorem vecAt_of_some {v : List ℝ} {i : ℕ} {x : ℝ} (h : v[i]? = some x) : vecAt v i = .ok x := by
  simp [vecAt, h]

/-- `m (m + 1) / 2` advances by `m + 1`. -/
theorem tri_succ (m : ℕ) : (m + 1) * (m + 1 + 1) / 2 = m * (m + 1) / 2 + (m + 1) := by
  have : (m + 1) * (m + 1 + 1) = m * (m + 1) + (m + 1) * 2 := by ring
  rw [this, Nat.add_mul_div_right _ _ (by norm_num)]

theorem tri_mono {m n : ℕ} (h : m ≤ n) : m * (m + 1) / 2 ≤ n * (n + 1) / 2 :=
  Nat.div_le_div_right (Nat.mul_le_mul h (by omega))

/-- The rows of a triangular vector. -/
theorem flat_length (f : ℕ → List ℝ) (hf : ∀ m, (f m).length = m + 1) (n : ℕ) :
    ((List.range n).flatMap f).length = n * (n + 1) / 2 := by
  induction n with
  | zero => simp
  | succ n ih =>
    rw [List.range_succ, List.flatMap_append, List.length_append, ih, tri_succ]
    simp [hf]

theorem flat_getElem? (f : ℕ → List ℝ) (hf : ∀ m, (f m).length = m + 1) (n m j : ℕ) (hm : m < n)
    (hj : j ≤ m) : ((List.range n).flatMap f)[m * (m + 1) / 2 + j]? = (f m)[j]? := by
  induction n with
  | zero => omega
  | succ n ih =>
    rw [List.range_succ, List.flatMap_append]
    have hlen := flat_length f hf n
    by_cases h : m < n
    · have h1 := tri_succ m
      have h2 := tri_mono (show m + 1 ≤ n from h)
      rw [List.getElem?_append_left (by rw [hlen]; omega)]
      exact ih h
    · have e : m = n := by omega
      subst e
      rw [List.getElem?_append_right (by rw [hlen]; omega), hlen]
      simp

theorem flat_eq_take (f : ℕ → List ℝ) (x : List ℝ)
    (hf : ∀ m, (f m).length = m + 1) (n : ℕ) (hn : n * (n + 1) / 2 ≤ x.length)
    (h : ∀ m j, m < n → j ≤ m → (f m)[j]? = x[m * (m + 1) / 2 + j]?) :
    (List.range n).flatMap f = x.take (n * (n + 1) / 2) := by
  induction n with
  | zero => simp
  | succ n ih =>
    have hs := tri_succ n
    rw [List.range_succ, List.flatMap_append, ih (by omega) (fun m j hm hj => h m j (by omega) hj),
      hs, List.take_add]
    congr 1
    simp only [List.flatMap_cons, List.flatMap_nil, List.append_nil]
    apply List.ext_getElem?
    intro j
    by_cases hj : j ≤ n
    · rw [h n j (by omega) hj, List.getElem?_take_of_lt (by omega), List.getElem?_drop]
    · rw [List.getElem?_eq_none (by rw [hf]; omega), List.getElem?_eq_none]
      simp
      omega

theorem freeOfChol_length {d : ℕ} (L : Matrix (Fin d) (Fin d) ℝ) :
    (freeOfChol L).length = d * (d + 1) / 2 := by
  unfold freeOfChol
  exact flat_length _ (fun m => by simp) d

theorem matAt_fin {d : ℕ} (L : Matrix (Fin d) (Fin d) ℝ) (i j : Fin d) :
    matAt L i.val j.val = L i j := by
  simp [matAt]

/-- Reading back the factor. -/
theorem cholOfFree_freeOfChol {d : ℕ} {L M : Matrix (Fin d) (Fin d) ℝ} (h : IsLLT L M) :
    cholOfFree d (freeOfChol L) = L := by
  ext i j
  unfold cholOfFree
  simp only [Matrix.of_apply]
  have hrow : ∀ k : ℕ, k ≤ i.val → (freeOfChol L)[i.val * (i.val + 1) / 2 + k]? =
      ((List.range i.val).map (fun j => matAt L i.val j) ++ [Real.log (matAt L i.val i.val)])[k]? :=
    fun k hk => flat_getElem? _ (fun m => by simp) d i.val k i.2 hk
  split_ifs with h1 h2
  · have h1' : j.val < i.val := h1
    rw [List.getD_eq_getElem?_getD, hrow j.val h1'.le, List.getElem?_append_left (by simpa using h1')]
    simp [h1', matAt_fin]
  · subst h2
    rw [List.getD_eq_getElem?_getD, hrow j.val le_rfl]
    simp only [List.getElem?_append_right, List.length_map, List.length_range, le_refl,
      Nat.sub_self, List.getElem?_cons_zero, Option.getD_some, matAt_fin]
    exact Real.exp_log (h.2.1 j)
  · have : i < j := lt_of_le_of_ne (not_lt.1 h1) (fun e => h2 e.symm)
    exact (h.1 i j this).symm

/-- `cov_matrix_constrain` builds a Cholesky factor. -/
theorem cholOfFree_isLLT (K : ℕ) (x : List ℝ) :
    IsLLT (cholOfFree K x) (cholOfFree K x * (cholOfFree K x)ᵀ) := by
  refine ⟨?_, ?_, rfl⟩
  · intro i j hij
    simp [cholOfFree, not_lt.2 hij.le, hij.ne']
  · intro i
    simp [cholOfFree, Real.exp_pos]

/-- Reading back the vector. -/
theorem freeOfChol_cholOfFree (K : ℕ) (x : List ℝ) (hx : x.length = K * (K + 1) / 2) :
    freeOfChol (cholOfFree K x) = x := by
  unfold freeOfChol
  rw [flat_eq_take _ x (fun m => by simp) K (by omega), ← hx, List.take_length]
  intro m j hm hj
  have h1 := tri_succ m
  have h2 := tri_mono (show m + 1 ≤ K from hm)
  rw [List.getElem?_eq_getElem (l := x) (by omega)]
  rcases Nat.lt_or_ge j m with hjm | hjm
  · rw [List.getElem?_append_left (by simpa using hjm)]
    simp only [List.getElem?_map, List.getElem?_range hjm, Option.map_some, matAt,
      show m < K ∧ j < K from ⟨hm, by omega⟩, and_self, dif_pos, cholOfFree, Matrix.of_apply,
      Fin.mk_lt_mk, hjm, if_true]
    rw [List.getD_eq_getElem?_getD, List.getElem?_eq_getElem (by omega)]
    rfl
  · have e : j = m := by omega
    subst e
    rw [List.getElem?_append_right (by simp)]
    simp only [List.length_map, List.length_range, Nat.sub_self, List.getElem?_cons_zero, matAt,
      hm, and_self, dif_pos, cholOfFree, Matrix.of_apply, lt_irrefl, if_false, if_true,
      Real.log_exp]
    rw [List.getD_eq_getElem?_getD, List.getElem?_eq_getElem (by omega)]
    rfl

/-- The dimension formula inverts the length. -/
theorem dim_formula (d : ℕ) (n : ℕ) (h : n = d + d * (d + 1) / 2) :
    (0.5 * (Real.sqrt (8 * (n : ℝ) + 9) - 3) : ℝ) = d := by
  have h2 : 2 * (d * (d + 1) / 2) = d * (d + 1) := Nat.mul_div_cancel' (Nat.even_mul_succ_self d).two_dvd
  have h3 : 8 * n + 9 = (2 * d + 3) * (2 * d + 3) := by
    rw [h]
    nlinarith
  have h4 : (8 * (n : ℝ) + 9) = (2 * d + 3) * (2 * d + 3) := by exact_mod_cast h3
  rw [h4, Real.sqrt_mul_self (by positivity)]
  ring

theorem dim_formula_conv (n : ℕ) (k : ℤ)
    (h : (0.5 * (Real.sqrt (8 * (n : ℝ) + 9) - 3) : ℝ) = k) :
    0 ≤ k ∧ n = k.toNat + k.toNat * (k.toNat + 1) / 2 := by
  have hs : Real.sqrt (8 * (n : ℝ) + 9) = 2 * k + 3 := by linarith
  have h3 : (3 : ℝ) ≤ Real.sqrt (8 * (n : ℝ) + 9) := by
    apply Real.le_sqrt_of_sq_le
    have : (0 : ℝ) ≤ n := by positivity
    nlinarith
  have hk : 0 ≤ k := by
    have : (0 : ℝ) ≤ k := by linarith
    exact_mod_cast this
  refine ⟨hk, ?_⟩
  obtain ⟨m, rfl⟩ := Int.eq_ofNat_of_zero_le hk
  simp only [Int.ofNat_eq_natCast, Int.toNat_natCast]
  have hsq : (8 * (n : ℝ) + 9) = (2 * m + 3) * (2 * m + 3) := by
    have hnn : (0 : ℝ) ≤ 8 * (n : ℝ) + 9 := by positivity
    rw [← Real.mul_self_sqrt hnn, hs]
    simp
  have hn : 8 * n + 9 = (2 * m + 3) * (2 * m + 3) := by exact_mod_cast hsq
  have h2 : 2 * (m * (m + 1) / 2) = m * (m + 1) := Nat.mul_div_cancel' (Nat.even_mul_succ_self m).two_dvd
  nlinarith

end Bayesmix.Hierarchies
