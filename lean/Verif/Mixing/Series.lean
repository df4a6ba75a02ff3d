import Mathlib.Analysis.SpecialFunctions.Exponential
import Mathlib.Analysis.Normed.Algebra.Exponential
import Mathlib.Topology.Algebra.InfiniteSum.Order
import Mathlib.Topology.Algebra.InfiniteSum.Ring
import Mathlib.Data.Nat.Factorial.Basic
import Verif.Mixing.Exch

/-!
# The coefficients of the mixture of finite mixtures

`compute_V_t`, /repo/src/mixings/mixture_finite_mixing.cc:122-156.
-/

namespace Bayesmix.Mixing
open Bayesmix

noncomputable section

/-- `k - i` for `unsigned int` operands below `2^32`: wraps when negative. -/
def subU32 (k i : ℕ) : ℕ := if i ≤ k then k - i else k + 2 ^ 32 - i

/-- `stan::math::poisson_lpmf(k, lambda)`. -/
def poissonLog (k : ℕ) (lam : ℝ) : ℝ :=
  k * Real.log lam - lam - Real.log (Nat.factorial k)

/-- `log_num`, mixture_finite_mixing.cc:131, 134-136. -/
def logNum (t k : ℕ) : EReal :=
  (List.range' 1 (t - 1)).foldl (fun (a : EReal) (i : ℕ) => a + stdLog (subU32 k i)) (stdLog k)

/-- `log_den`, mixture_finite_mixing.cc:132, 137-139. -/
def logDen (γ : ℝ) (n k : ℕ) : EReal :=
  (List.range' 1 (n - 1)).foldl (fun (a : EReal) (i : ℕ) => a + stdLog (γ * k + i)) (stdLog (γ * k))

/-- The term added to the sum for `k`, mixture_finite_mixing.cc:149-150. -/
def vTerm (γ lam C : ℝ) (t n k : ℕ) : ℝ :=
  stdExp (logNum t k - logDen γ n k + ((poissonLog (k - 1) lam : ℝ) : EReal)
    - ((C : ℝ) : EReal))

/-- The `while` loop of `compute_V_t`, mixture_finite_mixing.cc:130-153, on the
    terms `term k`; `fuel` bounds the number of iterations and `none` means
    that the loop has not ended.  The counter `k` is a natural number: that it
    stays below `2^32` is not modelled. -/
def vLoop (term : ℕ → ℝ) : ℕ → ℕ → ℝ → ℝ → Option ℝ
  | 0, _, _, _ => none
  | fuel + 1, k, sum, rate =>
      if rate > 1e-8 then
        let rate' := if sum = 0 then 1 else term k / sum
        vLoop term fuel (k + 1) (sum + term k) rate'
      else some sum

/-- The value stored in `V[t]`: the loop started at `k = 1`, `sum = 0`,
    rate `1`. -/
def computeV (term : ℕ → ℝ) (fuel : ℕ) : Option ℝ := vLoop term fuel 1 0 1

/-- `C`, mixture_finite_mixing.cc:113-117 (called with `n` data). -/
def initC (γ lam : ℝ) (n : ℕ) : ℝ :=
  -((List.range' 1 (n - 1)).foldl (fun (a : ℝ) (i : ℕ) => a + Real.log (γ * 1 + i))
      (Real.log γ)) + poissonLog 0 lam

/-- Rising factorial `(γ k)^{(n)} = γ k (γ k + 1) ⋯ (γ k + n - 1)`. -/
def rising (x : ℝ) (n : ℕ) : ℝ := ∏ i ∈ Finset.range n, (x + i)

/-- The coefficient `V_n(t)` of Miller and Harrison (2015, eq. 3.2) for a
    shifted Poisson number of components: the sum over `k ≥ 1` of
    `k(k-1)⋯(k-t+1) / (γk)^{(n)} · p(k)`, `p(k) = λ^{k-1} e^{-λ} / (k-1)!`. -/
def trueV (γ lam : ℝ) (t n : ℕ) : ℝ :=
  ∑' j : ℕ, (Nat.descFactorial (j + 1) t : ℝ) / rising (γ * (j + 1 : ℕ)) n *
    (lam ^ j * Real.exp (-lam) / Nat.factorial j)

end

/-! ### terms -/

theorem isLogOf_foldl {α : Type} (f : α → EReal) (g : α → ℝ) (l : List α)
    (h : ∀ a ∈ l, IsLogOf (f a) (g a)) {e : EReal} {x : ℝ} (he : IsLogOf e x) :
    IsLogOf (l.foldl (fun a i => a + f i) e) (x * (l.map g).prod) := by
  induction l generalizing e x with
  | nil => simpa using he
  | cons a t ih =>
    have := ih (fun b hb => h b (by simp [hb])) (isLogOf_mul he (h a (by simp)))
    simpa [mul_assoc] using this

theorem subU32_of_le {k i : ℕ} (h : i ≤ k) : subU32 k i = k - i := by
  simp [subU32, h]

theorem range'_succ_last (n : ℕ) : List.range' 1 (n + 1) = List.range' 1 n ++ [n + 1] := by
  rw [List.range'_1_concat, Nat.add_comm]

theorem logNum_isLog {t k : ℕ} (ht : 1 ≤ t) :
    IsLogOf (logNum t k) (Nat.descFactorial k t) := by
  have hbase : IsLogOf (stdLog (k : ℝ)) (k : ℝ) := isLogOf_stdLog (Nat.cast_nonneg k)
  have h := isLogOf_foldl (fun i => stdLog (subU32 k i)) (fun i => ((subU32 k i : ℕ) : ℝ))
    (List.range' 1 (t - 1)) (fun i _ => isLogOf_stdLog (Nat.cast_nonneg _)) hbase
  have key : (k : ℝ) * ((List.range' 1 (t - 1)).map (fun i => ((subU32 k i : ℕ) : ℝ))).prod
      = Nat.descFactorial k t := by
    obtain ⟨u, rfl⟩ : ∃ u, t = u + 1 := ⟨t - 1, by omega⟩
    rw [Nat.add_sub_cancel]
    clear h ht
    induction u with
    | zero => simp
    | succ u ih =>
      rw [range'_succ_last, List.map_append, List.prod_append, ← mul_assoc, ih]
      rw [Nat.descFactorial_succ k (u + 1)]
      push_cast
      rw [mul_comm]
      rcases Nat.lt_or_ge k (u + 1) with h | h
      · rw [Nat.descFactorial_of_lt h]; simp
      · rw [List.map_cons, List.map_nil, List.prod_singleton, subU32_of_le h]
  rw [key] at h
  exact h

theorem rising_eq (x : ℝ) (n : ℕ) (hn : 1 ≤ n) :
    x * ((List.range' 1 (n - 1)).map (fun i : ℕ => x + i)).prod = rising x n := by
  obtain ⟨u, rfl⟩ : ∃ u, n = u + 1 := ⟨n - 1, by omega⟩
  rw [Nat.add_sub_cancel]
  clear hn
  induction u with
  | zero => simp [rising]
  | succ u ih =>
    rw [range'_succ_last, List.map_append, List.prod_append, ← mul_assoc, ih]
    unfold rising
    rw [Finset.prod_range_succ _ (u + 1)]
    simp

theorem rising_pos {x : ℝ} (hx : 0 < x) (n : ℕ) : 0 < rising x n := by
  unfold rising
  apply Finset.prod_pos
  intro i _
  have : (0 : ℝ) ≤ i := Nat.cast_nonneg i
  linarith

theorem rising_succ (x : ℝ) (n : ℕ) : rising x (n + 1) = rising x n * (x + n) := by
  simp [rising, Finset.prod_range_succ]

theorem logDen_isLog {γ : ℝ} (hγ : 0 < γ) {n k : ℕ} (hn : 1 ≤ n) (hk : 1 ≤ k) :
    logDen γ n k = ((Real.log (rising (γ * k) n) : ℝ) : EReal) := by
  have hk' : (0 : ℝ) < k := by exact_mod_cast hk
  have hx : 0 < γ * k := by positivity
  have h := isLogOf_foldl (fun i : ℕ => stdLog (γ * k + i)) (fun i : ℕ => γ * k + i)
    (List.range' 1 (n - 1)) (fun i _ => isLogOf_stdLog (by positivity)) (isLogOf_stdLog hx.le)
  rw [rising_eq _ _ hn] at h
  rcases h with ⟨_, h⟩ | ⟨h, _⟩
  · unfold logDen; exact h
  · exact absurd h (rising_pos hx n).ne'

theorem vTerm_eq {γ lam : ℝ} (hγ : 0 < γ) (hl : 0 < lam) (C : ℝ) {t n k : ℕ}
    (ht : 1 ≤ t) (hn : 1 ≤ n) (hk : 1 ≤ k) :
    vTerm γ lam C t n k = (Nat.descFactorial k t : ℝ) / rising (γ * k) n *
      (lam ^ (k - 1) * Real.exp (-lam) / Nat.factorial (k - 1)) * Real.exp (-C) := by
  have hk' : (0 : ℝ) < k := by exact_mod_cast hk
  have hx : 0 < γ * k := by positivity
  have hr := rising_pos hx n
  have h1 := isLogOf_div (logNum_isLog (k := k) ht) hr
  rw [stdLog_pos hr, ← logDen_isLog hγ hn hk] at h1
  have h2 : IsLogOf ((poissonLog (k - 1) lam : ℝ) : EReal)
      (lam ^ (k - 1) * Real.exp (-lam) / Nat.factorial (k - 1)) := by
    left
    refine ⟨by positivity, ?_⟩
    congr 1
    have hf : (0 : ℝ) < Nat.factorial (k - 1) := by exact_mod_cast Nat.factorial_pos _
    rw [Real.log_div (by positivity) hf.ne', Real.log_mul (by positivity) (by positivity),
      Real.log_pow, Real.log_exp]
    unfold poissonLog
    ring
  have h3 : IsLogOf ((-C : ℝ) : EReal) (Real.exp (-C)) :=
    Or.inl ⟨Real.exp_pos _, by rw [Real.log_exp]⟩
  have h4 := isLogOf_mul (isLogOf_mul h1 h2) h3
  unfold vTerm
  apply stdExp_of_isLogOf
  rw [EReal.coe_neg] at h4
  simpa [sub_eq_add_neg] using h4

/-! ### the loop -/

theorem vLoop_spec {term : ℕ → ℝ} {fuel k : ℕ} {sum rate v : ℝ}
    (h : vLoop term fuel k sum rate = some v) :
    ∃ m, v = sum + ∑ i ∈ Finset.range m, term (k + i) := by
  induction fuel generalizing k sum rate with
  | zero => cases h
  | succ f ih =>
    rw [vLoop] at h
    split at h
    · obtain ⟨m, hm⟩ := ih h
      refine ⟨m + 1, ?_⟩
      rw [hm, Finset.sum_range_succ']
      simp only [Nat.add_zero]
      have : ∀ i, k + 1 + i = k + (i + 1) := fun i => by omega
      simp only [this]
      ring
    · cases h; exact ⟨0, by simp⟩

/-- the sum returned is positive: while it is zero the loop goes on -/
theorem vLoop_pos {term : ℕ → ℝ} (h0 : ∀ k, 0 ≤ term k) {fuel k : ℕ} {sum rate v : ℝ}
    (hs : 0 ≤ sum) (hr : sum = 0 → rate = 1)
    (h : vLoop term fuel k sum rate = some v) : 0 < v := by
  induction fuel generalizing k sum rate with
  | zero => cases h
  | succ f ih =>
    rw [vLoop] at h
    split at h
    · refine ih (add_nonneg hs (h0 k)) ?_ h
      intro he
      have : sum = 0 := by linarith [h0 k]
      simp [this]
    · cases h
      rcases hs.eq_or_lt with he | he
      · have hr1 := hr he.symm
        rename_i hn
        rw [hr1] at hn
        norm_num at hn
      · exact he

theorem vLoop_terminates {term : ℕ → ℝ} (h0 : ∀ k, 0 ≤ term k)
    (hlim : Filter.Tendsto term Filter.atTop (nhds 0)) {K : ℕ} (hK : 0 < term K)
    (k : ℕ) (sum rate : ℝ) (hk : k ≤ K) (hs : 0 ≤ sum) :
    ∃ fuel v, vLoop term fuel k sum rate = some v := by
  -- first: from any point with a sum of at least `c > 0`
  have tail : ∀ c : ℝ, 0 < c → ∃ M, ∀ d k sum rate, c ≤ sum → M ≤ k + d →
      ∃ fuel v, vLoop term fuel k sum rate = some v := by
    intro c hc
    have he : (0 : ℝ) < 1e-8 * c := by positivity
    obtain ⟨M, hM⟩ := Filter.eventually_atTop.mp (hlim.eventually (gt_mem_nhds he))
    refine ⟨M, ?_⟩
    intro d
    induction d with
    | zero =>
      intro k sum rate hsum hk
      by_cases hr : rate > 1e-8
      · refine ⟨2, sum + term k, ?_⟩
        have hsp : 0 < sum := lt_of_lt_of_le hc hsum
        have : ¬ (term k / sum > 1e-8) := by
          have h1 := hM k (by simpa using hk)
          have h2 : (1e-8 : ℝ) * c ≤ 1e-8 * sum := by
            apply mul_le_mul_of_nonneg_left hsum; norm_num
          rw [gt_iff_lt, lt_div_iff₀ hsp]
          linarith
        simp only [vLoop, if_pos hr, if_neg hsp.ne', if_neg this]
      · exact ⟨1, sum, by simp [vLoop, hr]⟩
    | succ d ih =>
      intro k sum rate hsum hk
      by_cases hr : rate > 1e-8
      · obtain ⟨f, v, h⟩ := ih (k + 1) (sum + term k)
          (if sum = 0 then 1 else term k / sum) (by linarith [h0 k]) (by omega)
        exact ⟨f + 1, v, by rw [vLoop, if_pos hr]; exact h⟩
      · exact ⟨1, sum, by simp [vLoop, hr]⟩
  obtain ⟨M, hM⟩ := tail (term K) hK
  have main : ∀ d k sum rate, k + d = K → 0 ≤ sum →
      ∃ fuel v, vLoop term fuel k sum rate = some v := by
    intro d
    induction d with
    | zero =>
      intro k sum rate hk hs
      have : k = K := by omega
      subst this
      by_cases hr : rate > 1e-8
      · obtain ⟨f, v, h⟩ := hM M (k + 1) (sum + term k)
          (if sum = 0 then 1 else term k / sum) (by linarith) (by omega)
        exact ⟨f + 1, v, by rw [vLoop, if_pos hr]; exact h⟩
      · exact ⟨1, sum, by simp [vLoop, hr]⟩
    | succ d ih =>
      intro k sum rate hk hs
      by_cases hr : rate > 1e-8
      · obtain ⟨f, v, h⟩ := ih (k + 1) (sum + term k)
          (if sum = 0 then 1 else term k / sum) (by omega) (by linarith [h0 k])
        exact ⟨f + 1, v, by rw [vLoop, if_pos hr]; exact h⟩
      · exact ⟨1, sum, by simp [vLoop, hr]⟩
  exact main (K - k) k sum rate (by omega) hs

theorem vTerm_nonneg {γ lam : ℝ} (hγ : 0 < γ) (hl : 0 < lam) (C : ℝ) {t n k : ℕ}
    (ht : 1 ≤ t) (hn : 1 ≤ n) : 0 ≤ vTerm γ lam C t n k := by
  unfold vTerm stdExp
  split
  · exact le_refl 0
  · exact (Real.exp_pos _).le

/-! ### the infinite series -/

theorem rising_ge {x y : ℝ} (hx : 0 < x) (hxy : x ≤ y) (n : ℕ) : rising x n ≤ rising y n := by
  unfold rising
  apply Finset.prod_le_prod
  · intro i _; positivity
  · intro i _; linarith

theorem trueV_summable {γ lam : ℝ} (hγ : 0 < γ) (hl : 0 < lam) (t n : ℕ) :
    Summable (fun j : ℕ => (Nat.descFactorial (j + 1) t : ℝ) / rising (γ * (j + 1 : ℕ)) n *
      (lam ^ j * Real.exp (-lam) / Nat.factorial j)) := by
  have hsum := (Real.summable_pow_div_factorial (Real.exp 1 * lam)).mul_left
    (Nat.factorial t * Real.exp 1 / rising γ n * Real.exp (-lam))
  refine Summable.of_nonneg_of_le ?_ ?_ hsum
  · intro j
    have : 0 < rising (γ * (j + 1 : ℕ)) n := rising_pos (by positivity) n
    positivity
  · intro j
    have hr0 : 0 < rising γ n := rising_pos hγ n
    have hr : rising γ n ≤ rising (γ * (j + 1 : ℕ)) n := by
      apply rising_ge hγ
      push_cast
      have : (0 : ℝ) ≤ j := Nat.cast_nonneg j
      nlinarith
    have hd : (Nat.descFactorial (j + 1) t : ℝ) ≤ Nat.factorial t * Real.exp ((j + 1 : ℕ) : ℝ) := by
      have h1 : (Nat.descFactorial (j + 1) t : ℝ) ≤ ((j + 1 : ℕ) : ℝ) ^ t := by
        exact_mod_cast Nat.descFactorial_le_pow (j + 1) t
      have h2 := Real.pow_div_factorial_le_exp ((j + 1 : ℕ) : ℝ) (Nat.cast_nonneg _) t
      have hf : (0 : ℝ) < Nat.factorial t := by exact_mod_cast Nat.factorial_pos _
      rw [div_le_iff₀ hf] at h2
      linarith
    have hexp : Real.exp ((j + 1 : ℕ) : ℝ) = Real.exp 1 ^ j * Real.exp 1 := by
      rw [← Real.exp_nat_mul, ← Real.exp_add]; push_cast; ring_nf
    rw [hexp] at hd
    have hfj : (0 : ℝ) < Nat.factorial j := by exact_mod_cast Nat.factorial_pos _
    calc (Nat.descFactorial (j + 1) t : ℝ) / rising (γ * (j + 1 : ℕ)) n *
          (lam ^ j * Real.exp (-lam) / Nat.factorial j)
        ≤ (Nat.factorial t * (Real.exp 1 ^ j * Real.exp 1)) / rising γ n *
          (lam ^ j * Real.exp (-lam) / Nat.factorial j) := by
          apply mul_le_mul_of_nonneg_right _ (by positivity)
          apply div_le_div₀ (by positivity) hd hr0 hr
      _ = _ := by rw [mul_pow]; ring

theorem trueV_pos {γ lam : ℝ} (hγ : 0 < γ) (hl : 0 < lam) (t n : ℕ) : 0 < trueV γ lam t n := by
  unfold trueV
  apply (trueV_summable hγ hl t n).tsum_pos (i := t)
  · intro j
    have : 0 < rising (γ * (j + 1 : ℕ)) n := rising_pos (by positivity) n
    positivity
  · have h1 : 0 < rising (γ * (t + 1 : ℕ)) n := rising_pos (by positivity) n
    have h2 : 0 < Nat.descFactorial (t + 1) t := Nat.pos_of_ne_zero (by
      intro h
      rw [Nat.descFactorial_eq_zero_iff_lt] at h
      omega)
    have h3 : (0 : ℝ) < Nat.descFactorial (t + 1) t := by exact_mod_cast h2
    positivity

/-- the loop on the real terms ends, with a positive partial sum of the series -/
theorem computeV_ends {γ lam : ℝ} (hγ : 0 < γ) (hl : 0 < lam) (C : ℝ) {t n : ℕ}
    (ht : 1 ≤ t) (hn : 1 ≤ n) :
    ∃ fuel v, computeV (vTerm γ lam C t n) fuel = some v := by
  have h0 : ∀ k, 0 ≤ vTerm γ lam C t n k := fun k => vTerm_nonneg hγ hl C ht hn
  have hsum := (trueV_summable hγ hl t n).mul_right (Real.exp (-C))
  have hlim := hsum.tendsto_atTop_zero
  have hlim' : Filter.Tendsto (vTerm γ lam C t n) Filter.atTop (nhds 0) := by
    rw [← Filter.tendsto_add_atTop_iff_nat 1]
    refine hlim.congr ?_
    intro j
    rw [vTerm_eq hγ hl C ht hn (Nat.le_add_left 1 j)]
    simp
  have hK : 0 < vTerm γ lam C t n t := by
    rw [vTerm_eq hγ hl C ht hn ht]
    have h1 : 0 < rising (γ * t) n :=
      rising_pos (mul_pos hγ (by exact_mod_cast ht)) n
    have h3 : (0 : ℝ) < Nat.descFactorial t t := by
      rw [Nat.descFactorial_self]; exact_mod_cast Nat.factorial_pos t
    positivity
  exact vLoop_terminates h0 hlim' hK 1 0 1 ht (le_refl 0)

theorem computeV_spec {γ lam : ℝ} (hγ : 0 < γ) (hl : 0 < lam) (C : ℝ) {t n : ℕ}
    (ht : 1 ≤ t) (hn : 1 ≤ n) {fuel : ℕ} {v : ℝ}
    (h : computeV (vTerm γ lam C t n) fuel = some v) :
    0 < v ∧ v ≤ trueV γ lam t n * Real.exp (-C) := by
  have h0 : ∀ k, 0 ≤ vTerm γ lam C t n k := fun k => vTerm_nonneg hγ hl C ht hn
  refine ⟨vLoop_pos h0 (le_refl 0) (fun _ => rfl) h, ?_⟩
  obtain ⟨m, hm⟩ := vLoop_spec h
  rw [hm, zero_add, trueV, ← tsum_mul_right]
  have hsum := (trueV_summable hγ hl t n).mul_right (Real.exp (-C))
  refine le_trans (le_of_eq ?_) (hsum.sum_le_tsum (Finset.range m) ?_)
  · apply Finset.sum_congr rfl
    intro j _
    rw [vTerm_eq hγ hl C ht hn (by omega)]
    have : 1 + j - 1 = j := by omega
    rw [this, Nat.add_comm 1 j]
  · intro j _
    have : 0 < rising (γ * (j + 1 : ℕ)) n := rising_pos (by positivity) n
    positivity

/-- the recursion of Miller and Harrison -/
theorem trueV_rec {γ lam : ℝ} (hγ : 0 < γ) (hl : 0 < lam) (t n : ℕ) :
    trueV γ lam t n = (n + t * γ) * trueV γ lam t (n + 1) + γ * trueV γ lam (t + 1) (n + 1) := by
  unfold trueV
  rw [← tsum_mul_left, ← tsum_mul_left,
    ← Summable.tsum_add ((trueV_summable hγ hl t (n + 1)).mul_left _)
      ((trueV_summable hγ hl (t + 1) (n + 1)).mul_left _)]
  congr 1
  funext j
  have hr : 0 < rising (γ * (j + 1 : ℕ)) n := rising_pos (by positivity) n
  rw [rising_succ]
  have hx : (0 : ℝ) < γ * (j + 1 : ℕ) + n := by positivity
  have hd : (Nat.descFactorial (j + 1) (t + 1) : ℝ) =
      ((j + 1 : ℕ) - t : ℝ) * Nat.descFactorial (j + 1) t := by
    rw [Nat.descFactorial_succ]
    rcases Nat.lt_or_ge (j + 1) t with h | h
    · rw [Nat.descFactorial_of_lt h]; simp
    · rw [Nat.cast_mul, Nat.cast_sub h]
  rw [hd]
  field_simp
  ring

/-! ### exchangeability -/

/-- Mass of a cluster of size `c`, normalized, as a function of the coefficients `V`;
mixture_finite_mixing.cc:28-47. -/
noncomputable def mfmEx (γ : ℝ) (V : ℕ → ℕ → ℝ) (n k c : ℕ) : ℝ :=
  (c + γ) / (n + k * γ + V (k + 1) (n + 1) / V k (n + 1) * γ)
/-- Mass of a new cluster, normalized, as a function of the coefficients `V`;
mixture_finite_mixing.cc:49-69. -/
noncomputable def mfmNw (γ : ℝ) (V : ℕ → ℕ → ℝ) (n k : ℕ) : ℝ :=
  V (k + 1) (n + 1) / V k (n + 1) * γ / (n + k * γ + V (k + 1) (n + 1) / V k (n + 1) * γ)

theorem mfm_step {γ : ℝ} (hγ : 0 < γ) {V : ℕ → ℕ → ℝ} (hV : ∀ t n, 0 < V t n)
    (hrec : ∀ t n, V t n = (n + t * γ) * V t (n + 1) + γ * V (t + 1) (n + 1))
    (seen : List ℕ) (x : ℕ) (hne : seen ≠ []) :
    prodForm (fun n k => V k n) (rising γ) (seen ++ [x]) =
      prodForm (fun n k => V k n) (rising γ) seen *
      (if x ∈ seen then mfmEx γ V seen.length seen.toFinset.card (seen.count x)
       else mfmNw γ V seen.length seen.toFinset.card) := by
  have hden : ∀ n k : ℕ, (n : ℝ) + k * γ + V (k + 1) (n + 1) / V k (n + 1) * γ
      = V k n / V k (n + 1) := by
    intro n k
    have h1 := hV k (n + 1)
    rw [hrec k n]
    field_simp
  unfold prodForm
  rw [List.length_append, List.length_singleton]
  split
  · rename_i hx
    have hB : rising γ (seen.count x + 1) = rising γ (seen.count x) * (γ + seen.count x) :=
      rising_succ _ _
    rw [card_old _ _ hx, prodB_old (rising γ) seen x hx _ hB, mfmEx, hden]
    have h1 := hV seen.toFinset.card (seen.length + 1)
    have h2 := hV seen.toFinset.card seen.length
    field_simp
    ring
  · rename_i hx
    rw [card_new _ _ hx, prodB_new (rising γ) seen x hx, mfmNw, hden]
    have h1 := hV seen.toFinset.card (seen.length + 1)
    have h2 := hV seen.toFinset.card seen.length
    have hB1 : rising γ 1 = γ := by simp [rising]
    rw [hB1]
    field_simp

theorem mfm_exch {γ : ℝ} (hγ : 0 < γ) {V : ℕ → ℕ → ℝ} (hV : ∀ t n, 0 < V t n)
    (hrec : ∀ t n, V t n = (n + t * γ) * V t (n + 1) + γ * V (t + 1) (n + 1))
    {l l' : List ℕ} (h : (clusterSizes l).Perm (clusterSizes l')) :
    schemeProb (mfmEx γ V) (mfmNw γ V) l = schemeProb (mfmEx γ V) (mfmNw γ V) l' := by
  apply scheme_exch (E := prodForm (fun n k => V k n) (rising γ))
    (fun l l' h => prodForm_sizes _ _ h) (mfm_step hγ hV hrec) _ h
  intro x
  simp [prodForm, rising, (hV 1 1).ne', hγ.ne']

end Bayesmix.Mixing
