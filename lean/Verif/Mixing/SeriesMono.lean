import Verif.Mixing.Series
import Mathlib.Tactic.FieldSimp
import Mathlib.Tactic.Positivity

/-!
# Monotonicity of the ratios of the coefficients of a mixture of finite mixtures

`V_n(t+1) / V_n(t)` grows with `t` and falls with `n`.
-/

namespace Bayesmix.Mixing

/-- A weighted mean of a product of increasing functions exceeds the product of the means. -/
theorem cheb_strict {a : ℕ → ℝ} (ha : ∀ l, 0 < a l) {g : ℝ → ℝ} (hg : StrictMonoOn g (Set.Ici 0))
    (hs : Summable a) (hx : Summable fun l : ℕ => (l : ℝ) * a l)
    (hr : Summable fun l : ℕ => g l * a l) (hxr : Summable fun l : ℕ => (l : ℝ) * (g l * a l)) :
    (∑' l : ℕ, (l : ℝ) * a l) * (∑' l : ℕ, g l * a l) <
      (∑' l, a l) * ∑' l : ℕ, (l : ℝ) * (g l * a l) := by
  have hA : 0 < ∑' l, a l := hs.tsum_pos (fun l => (ha l).le) 0 (ha 0)
  obtain ⟨m, hm⟩ : ∃ m, m = (∑' l : ℕ, (l : ℝ) * a l) / ∑' l, a l := ⟨_, rfl⟩
  have hX : ∑' l : ℕ, (l : ℝ) * a l = m * ∑' l, a l := by rw [hm, div_mul_cancel₀ _ hA.ne']
  have hm0 : 0 ≤ m := by
    rw [hm]
    exact div_nonneg (tsum_nonneg fun l => mul_nonneg (Nat.cast_nonneg l) (ha l).le) hA.le
  have key : ∀ l : ℕ, 0 ≤ ((l : ℝ) - m) * (g l - g m) ∧
      ((l : ℝ) ≠ m → 0 < ((l : ℝ) - m) * (g l - g m)) := by
    intro l
    have hl : (0 : ℝ) ≤ l := Nat.cast_nonneg l
    rcases lt_trichotomy (l : ℝ) m with h | h | h
    · have := hg hl hm0 h
      have h2 : 0 < ((l : ℝ) - m) * (g l - g m) := mul_pos_of_neg_of_neg (by linarith) (by linarith)
      exact ⟨h2.le, fun _ => h2⟩
    · exact ⟨by rw [h]; simp, fun h' => absurd h h'⟩
    · have := hg hm0 hl h
      have h2 : 0 < ((l : ℝ) - m) * (g l - g m) := mul_pos (by linarith) (by linarith)
      exact ⟨h2.le, fun _ => h2⟩
  have e : ∀ l : ℕ, a l * (((l : ℝ) - m) * (g l - g m)) =
      ((l : ℝ) * (g l * a l) - m * (g l * a l)) - (g m * ((l : ℝ) * a l) - g m * m * a l) :=
    fun l => by ring
  have s1 := hxr.sub (hr.mul_left m)
  have s2 := (hx.mul_left (g m)).sub (hs.mul_left (g m * m))
  have hsum : Summable fun l : ℕ => a l * (((l : ℝ) - m) * (g l - g m)) := by
    refine (s1.sub s2).congr fun l => (e l).symm
  have hpos : 0 < ∑' l : ℕ, a l * (((l : ℝ) - m) * (g l - g m)) := by
    by_cases h0 : ((0 : ℕ) : ℝ) = m
    · refine hsum.tsum_pos (fun l => mul_nonneg (ha l).le (key l).1) 1 (mul_pos (ha 1) ((key 1).2 ?_))
      rw [← h0]; norm_num
    · exact hsum.tsum_pos (fun l => mul_nonneg (ha l).le (key l).1) 0 (mul_pos (ha 0) ((key 0).2 h0))
  have ev : ∑' l : ℕ, a l * (((l : ℝ) - m) * (g l - g m)) =
      (∑' l : ℕ, (l : ℝ) * (g l * a l)) - m * ∑' l : ℕ, g l * a l := by
    rw [tsum_congr e, s1.tsum_sub s2, hxr.tsum_sub (hr.mul_left m),
      (hx.mul_left (g m)).tsum_sub (hs.mul_left (g m * m)), tsum_mul_left, tsum_mul_left, tsum_mul_left, hX]
    ring
  rw [ev] at hpos
  rw [hX]
  nlinarith

/-- The terms of the series for `p + 1` clusters that are not zero. -/
noncomputable def vWeight (γ lam : ℝ) (p n l : ℕ) : ℝ :=
  ((l + p + 1 : ℕ) : ℝ) * lam ^ (l + p) * Real.exp (-lam) /
    (Nat.factorial l * rising (γ * (l + p + 1 : ℕ)) n)

variable {γ lam : ℝ}

theorem vWeight_pos (hγ : 0 < γ) (hl : 0 < lam) (p n l : ℕ) : 0 < vWeight γ lam p n l := by
  have : 0 < rising (γ * (l + p + 1 : ℕ)) n := rising_pos (by positivity) n
  unfold vWeight
  positivity

theorem vTerm_shift (p n l : ℕ) : (Nat.descFactorial (l + p + 1) (p + 1) : ℝ) /
    rising (γ * (l + p + 1 : ℕ)) n * (lam ^ (l + p) * Real.exp (-lam) / Nat.factorial (l + p)) =
      vWeight γ lam p n l := by
  have h := Nat.factorial_mul_descFactorial (show p + 1 ≤ l + p + 1 by omega)
  rw [show l + p + 1 - (p + 1) = l by omega, Nat.factorial_succ] at h
  have h' : (Nat.factorial l : ℝ) * Nat.descFactorial (l + p + 1) (p + 1) =
      ((l + p + 1 : ℕ) : ℝ) * Nat.factorial (l + p) := by exact_mod_cast h
  have f1 : (Nat.factorial l : ℝ) ≠ 0 := by exact_mod_cast (Nat.factorial_pos l).ne'
  have f2 : (Nat.factorial (l + p) : ℝ) ≠ 0 := by exact_mod_cast (Nat.factorial_pos _).ne'
  have hd : (Nat.descFactorial (l + p + 1) (p + 1) : ℝ) =
      ((l + p + 1 : ℕ) : ℝ) * Nat.factorial (l + p) / Nat.factorial l := by
    rw [eq_div_iff f1, mul_comm]; exact h'
  unfold vWeight
  rw [hd]
  by_cases hr : rising (γ * (l + p + 1 : ℕ)) n = 0
  · rw [hr]; simp
  · field_simp

theorem vTerm_shift_succ (p n l : ℕ) : (Nat.descFactorial (l + p + 1) (p + 2) : ℝ) /
    rising (γ * (l + p + 1 : ℕ)) n * (lam ^ (l + p) * Real.exp (-lam) / Nat.factorial (l + p)) =
      (l : ℝ) * vWeight γ lam p n l := by
  have : Nat.descFactorial (l + p + 1) (p + 2) = l * Nat.descFactorial (l + p + 1) (p + 1) := by
    rw [Nat.descFactorial_succ, show l + p + 1 - (p + 1) = l by omega]
  rw [this, ← vTerm_shift]
  push_cast
  ring

theorem vWeight_summable (hγ : 0 < γ) (hl : 0 < lam) (p n : ℕ) :
    Summable (vWeight γ lam p n) ∧ Summable (fun l : ℕ => (l : ℝ) * vWeight γ lam p n l) := by
  have h1 := (summable_nat_add_iff p).mpr (trueV_summable hγ hl (p + 1) n)
  have h2 := (summable_nat_add_iff p).mpr (trueV_summable hγ hl (p + 2) n)
  exact ⟨h1.congr fun l => vTerm_shift p n l, h2.congr fun l => vTerm_shift_succ p n l⟩

theorem trueV_shift (hγ : 0 < γ) (hl : 0 < lam) (p n : ℕ) :
    trueV γ lam (p + 1) n = ∑' l, vWeight γ lam p n l ∧
    trueV γ lam (p + 2) n = ∑' l : ℕ, (l : ℝ) * vWeight γ lam p n l := by
  have hz : ∀ q, p + 1 ≤ q → ∑ j ∈ Finset.range p, (Nat.descFactorial (j + 1) q : ℝ) /
      rising (γ * (j + 1 : ℕ)) n * (lam ^ j * Real.exp (-lam) / Nat.factorial j) = 0 := by
    intro q hq
    refine Finset.sum_eq_zero fun j hj => ?_
    rw [Finset.mem_range] at hj
    rw [Nat.descFactorial_of_lt (by omega)]
    simp
  unfold trueV
  constructor
  · rw [← (trueV_summable hγ hl (p + 1) n).sum_add_tsum_nat_add p, hz _ le_rfl, zero_add]
    exact tsum_congr fun l => vTerm_shift p n l
  · rw [← (trueV_summable hγ hl (p + 2) n).sum_add_tsum_nat_add p, hz _ (by omega), zero_add]
    exact tsum_congr fun l => vTerm_shift_succ p n l

/-- The ratio of consecutive coefficients falls with the number of data. -/
theorem trueV_ratio_n (hγ : 0 < γ) (hl : 0 < lam) (p n : ℕ) :
    trueV γ lam (p + 2) (n + 1) / trueV γ lam (p + 1) (n + 1) <
      trueV γ lam (p + 2) n / trueV γ lam (p + 1) n := by
  have e : ∀ l : ℕ, vWeight γ lam p (n + 1) l = -(-1 / (γ * (l + p + 1) + n)) * vWeight γ lam p n l := by
    intro l
    unfold vWeight
    rw [rising_succ]
    have h1 : 0 < rising (γ * (l + p + 1 : ℕ)) n := rising_pos (by positivity) n
    have h2 : (0 : ℝ) < γ * (l + p + 1) + n := by positivity
    push_cast at h1 ⊢
    field_simp
  obtain ⟨s1, s2⟩ := vWeight_summable hγ hl p n
  obtain ⟨s3, s4⟩ := vWeight_summable hγ hl p (n + 1)
  obtain ⟨v1, v2⟩ := trueV_shift hγ hl p n
  obtain ⟨v3, v4⟩ := trueV_shift hγ hl p (n + 1)
  have e3 : ∀ l : ℕ, (-1 / (γ * ((l : ℝ) + p + 1) + n)) * vWeight γ lam p n l =
      -vWeight γ lam p (n + 1) l := fun l => by rw [e l]; ring
  have e4 : ∀ l : ℕ, (l : ℝ) * ((-1 / (γ * ((l : ℝ) + p + 1) + n)) * vWeight γ lam p n l) =
      -((l : ℝ) * vWeight γ lam p (n + 1) l) := fun l => by rw [e3 l]; ring
  have h := cheb_strict (a := vWeight γ lam p n) (g := fun x => -1 / (γ * (x + p + 1) + n))
    (vWeight_pos hγ hl p n) (by
      intro x hx y hy hxy
      have hx' : (0 : ℝ) ≤ x := hx
      have h1 : 0 < γ * (x + p + 1) + n := by positivity
      have h2 : γ * (x + p + 1) + n < γ * (y + p + 1) + n := by
        have := mul_lt_mul_of_pos_left hxy hγ
        linarith
      show -1 / (γ * (x + p + 1) + n) < -1 / (γ * (y + p + 1) + n)
      rw [neg_div, neg_div, neg_lt_neg_iff]
      exact one_div_lt_one_div_of_lt h1 h2) s1 s2
    (s3.neg.congr fun l => (e3 l).symm) (s4.neg.congr fun l => (e4 l).symm)
  rw [tsum_congr e3, tsum_congr e4, tsum_neg, tsum_neg, ← v1, ← v2, ← v3, ← v4] at h
  have p1 := trueV_pos hγ hl (p + 1) n
  have p2 := trueV_pos hγ hl (p + 1) (n + 1)
  rw [div_lt_div_iff₀ p2 p1]
  linarith

/-- The ratio of consecutive coefficients grows with the number of clusters, for two data or more. -/
theorem trueV_ratio_t (hγ : 0 < γ) (hl : 0 < lam) (p n : ℕ) :
    trueV γ lam (p + 2) (n + 2) / trueV γ lam (p + 1) (n + 2) <
      trueV γ lam (p + 3) (n + 2) / trueV γ lam (p + 2) (n + 2) := by
  obtain ⟨g, hg⟩ : ∃ g : ℝ → ℝ, g = fun x => lam * ∏ i ∈ Finset.range (n + 1),
      ((γ * (x + p + 1) + (i + 1)) / (γ * (x + p + 2) + (i + 1))) := ⟨_, rfl⟩
  have e : ∀ l : ℕ, g l * vWeight γ lam p (n + 2) l = vWeight γ lam (p + 1) (n + 2) l := by
    intro l
    have r : ∀ x : ℝ, rising x (n + 2) = x * ∏ i ∈ Finset.range (n + 1), (x + (i + 1)) := by
      intro x
      rw [rising, Finset.prod_range_succ']
      push_cast
      rw [add_zero, mul_comm]
    have h1 : 0 < ∏ i ∈ Finset.range (n + 1), (γ * ((l : ℝ) + p + 1) + (i + 1)) :=
      Finset.prod_pos fun i _ => by positivity
    have h2 : 0 < ∏ i ∈ Finset.range (n + 1), (γ * ((l : ℝ) + p + 2) + (i + 1)) :=
      Finset.prod_pos fun i _ => by positivity
    have c1 : ((l + p + 1 : ℕ) : ℝ) = (l : ℝ) + p + 1 := by push_cast; ring
    have c2 : ((l + (p + 1) + 1 : ℕ) : ℝ) = (l : ℝ) + p + 2 := by push_cast; ring
    unfold vWeight
    rw [hg, c1, c2, r, r]
    dsimp only
    rw [Finset.prod_div_distrib, show l + (p + 1) = l + p + 1 by omega, pow_succ]
    have f1 : (Nat.factorial l : ℝ) ≠ 0 := by exact_mod_cast (Nat.factorial_pos l).ne'
    have q1 : (0 : ℝ) < (l : ℝ) + p + 1 := by positivity
    have q2 : (0 : ℝ) < (l : ℝ) + p + 2 := by positivity
    field_simp
  obtain ⟨s1, s2⟩ := vWeight_summable hγ hl p (n + 2)
  obtain ⟨s3, s4⟩ := vWeight_summable hγ hl (p + 1) (n + 2)
  obtain ⟨v1, v2⟩ := trueV_shift hγ hl p (n + 2)
  obtain ⟨v3, v4⟩ := trueV_shift hγ hl (p + 1) (n + 2)
  have hmono : StrictMonoOn g (Set.Ici 0) := by
    intro x hx y hy hxy
    have hx' : (0 : ℝ) ≤ x := hx
    have hy' : (0 : ℝ) ≤ y := hy
    rw [hg]
    refine mul_lt_mul_of_pos_left ?_ hl
    refine Finset.prod_lt_prod_of_nonempty (fun i _ => by positivity) (fun i _ => ?_) (by simp)
    rw [div_lt_div_iff₀ (by positivity) (by positivity)]
    have : γ * x < γ * y := mul_lt_mul_of_pos_left hxy hγ
    nlinarith
  have h := cheb_strict (a := vWeight γ lam p (n + 2)) (vWeight_pos hγ hl p (n + 2)) hmono s1 s2
    (s3.congr fun l => (e l).symm) (s4.congr fun l => by rw [e l])
  rw [tsum_congr e, tsum_congr fun l : ℕ => congrArg ((l : ℝ) * ·) (e l), ← v1, ← v2, ← v3, ← v4] at h
  have p1 := trueV_pos hγ hl (p + 1) (n + 2)
  have p2 := trueV_pos hγ hl (p + 2) (n + 2)
  rw [div_lt_div_iff₀ p1 p2]
  have e5 : p + 1 + 1 = p + 2 := rfl
  have e6 : p + 1 + 2 = p + 3 := rfl
  rw [e5, e6] at h
  linarith

end Bayesmix.Mixing
