import Mathlib.Analysis.SpecificLimits.Basic
import Verif.Mixing.Props

/-! # What the coefficient loop of the finite mixture leaves out

`compute_V_t`, /repo/src/mixings/mixture_finite_mixing.cc:122-156, stops when
the last term is at most `1e-8` times the sum so far. -/

namespace Bayesmix.Mixing
open Bayesmix

/-- Prior probability, in the mixture of finite mixtures documented in
    /repo/src/mixings/mixture_finite_mixing.h:21-45 (one plus a Poisson(`lam`)
    number of components, symmetric Dirichlet(`γ`) weights), of the clustering
    given by the labels `l`: with `j + 1` components the clusters are matched
    with distinct components in `(j+1) j ⋯ (j+2-t)` ways and every matching has
    the Dirichlet-multinomial probability. -/
noncomputable def mfmPartition (γ lam : ℝ) (l : List ℕ) : ℝ :=
  ∑' j : ℕ, (lam ^ j * Real.exp (-lam) / Nat.factorial j) *
    (Nat.descFactorial (j + 1) (clusterSizes l).length *
      (((clusterSizes l).map (rising γ)).prod / rising (γ * (j + 1 : ℕ)) l.length))

theorem mfmPartition_eq (γ lam : ℝ) (l : List ℕ) :
    mfmPartition γ lam l = prodForm (fun n k => trueV γ lam k n) (rising γ) l := by
  unfold mfmPartition prodForm trueV
  rw [← tsum_mul_right, ← clusterSizes_prod, clusterSizes_length]
  congr 1
  funext j
  ring

theorem mfmPartition_pos {γ lam : ℝ} (hγ : 0 < γ) (hl : 0 < lam) (l : List ℕ) :
    0 < mfmPartition γ lam l := by
  rw [mfmPartition_eq]
  unfold prodForm
  exact mul_pos (trueV_pos hγ hl _ _) (Finset.prod_pos fun x _ => rising_pos hγ _)

theorem mfmPartition_step {γ lam : ℝ} (hγ : 0 < γ) (hl : 0 < lam) {l : List ℕ} (hne : l ≠ [])
    (x : ℕ) : mfmPartition γ lam (l ++ [x]) / mfmPartition γ lam l =
      (if x ∈ l then mfmEx γ (trueV γ lam) l.length l.toFinset.card (l.count x)
       else mfmNw γ (trueV γ lam) l.length l.toFinset.card) := by
  have h := mfmPartition_pos hγ hl l
  rw [div_eq_iff h.ne', mfmPartition_eq, mfmPartition_eq,
    mfm_step hγ (trueV_pos hγ hl) (trueV_rec hγ hl) l x hne, mul_comm]

/-! ### where the loop stops -/

theorem vLoop_stop {term : ℕ → ℝ} (h0 : ∀ k, 0 ≤ term k) {fuel k : ℕ} {sum rate v : ℝ}
    (hs : 0 ≤ sum)
    (hinv : ¬ rate > 1e-8 → ∃ j, k = j + 1 ∧ term j ≤ 1e-8 * sum)
    (h : vLoop term fuel k sum rate = some v) :
    ∃ m j, v = sum + ∑ i ∈ Finset.range m, term (k + i) ∧ k + m = j + 1 ∧
      term j ≤ 1e-8 * v := by
  induction fuel generalizing k sum rate with
  | zero => cases h
  | succ f ih =>
    rw [vLoop] at h
    split at h
    · obtain ⟨m, j, hm, hj, hle⟩ := ih (add_nonneg hs (h0 k)) (by
        intro hr
        refine ⟨k, rfl, ?_⟩
        by_cases hz : sum = 0
        · rw [if_pos hz] at hr; norm_num at hr
        · rw [if_neg hz] at hr
          have hp : 0 < sum := lt_of_le_of_ne hs (Ne.symm hz)
          rw [gt_iff_lt, not_lt, div_le_iff₀ hp] at hr
          have := h0 k
          linarith) h
      refine ⟨m + 1, j, ?_, by omega, hle⟩
      rw [hm, Finset.sum_range_succ']
      simp only [Nat.add_zero]
      have : ∀ i, k + 1 + i = k + (i + 1) := fun i => by omega
      simp only [this]
      ring
    · rename_i hr
      cases h
      obtain ⟨j, hj, hle⟩ := hinv hr
      exact ⟨0, j, by simp, by omega, hle⟩

/-- the loop when the second non-zero term is already small -/
theorem vLoop_two_from {term : ℕ → ℝ} {t : ℕ} {d fuel k : ℕ}
    (hz : ∀ i, k ≤ i → i < t → term i = 0) (hp : 0 < term t)
    (hsmall : term (t + 1) ≤ 1e-8 * term t) {v : ℝ} (hk : k + d = t)
    (h : vLoop term fuel k 0 1 = some v) : v = term t + term (t + 1) := by
  induction d generalizing fuel k with
  | zero =>
    have hkt : k = t := by omega
    subst hkt
    match fuel with
    | 0 => cases h
    | 1 => simp [vLoop] at h; norm_num at h
    | 2 =>
      have h1 : (1 : ℝ) > 1e-8 := by norm_num
      simp [vLoop, h1] at h
    | f + 3 =>
      have h1 : (1 : ℝ) > 1e-8 := by norm_num
      have h2 : ¬ term (k + 1) / term k > 1e-8 := by
        rw [gt_iff_lt, not_lt, div_le_iff₀ hp]; exact hsmall
      rw [vLoop, if_pos h1] at h
      simp only [if_true, zero_add] at h
      rw [vLoop, if_pos h1] at h
      simp only [if_neg hp.ne'] at h
      rw [vLoop, if_neg h2] at h
      exact (Option.some.inj h).symm
  | succ d ih =>
    match fuel with
    | 0 => cases h
    | f + 1 =>
      have h1 : (1 : ℝ) > 1e-8 := by norm_num
      rw [vLoop, if_pos h1] at h
      simp only [if_true, zero_add] at h
      rw [hz k le_rfl (by omega)] at h
      exact ih (fun i hi => hz i (by omega)) (by omega) h

/-! ### the ratio of two terms -/

theorem vTerm_zero {γ lam : ℝ} (hγ : 0 < γ) (hl : 0 < lam) (C : ℝ) {t n k : ℕ} (hn : 1 ≤ n)
    (hk : 1 ≤ k) (hkt : k < t) : vTerm γ lam C t n k = 0 := by
  rw [vTerm_eq hγ hl C (by omega) hn hk, Nat.descFactorial_of_lt hkt]
  simp

theorem vTerm_pos {γ lam : ℝ} (hγ : 0 < γ) (hl : 0 < lam) (C : ℝ) {t n k : ℕ} (ht : 1 ≤ t)
    (hn : 1 ≤ n) (hk : t ≤ k) : 0 < vTerm γ lam C t n k := by
  rw [vTerm_eq hγ hl C ht hn (by omega)]
  have hk' : (0 : ℝ) < k := by exact_mod_cast (by omega : 0 < k)
  have h1 : 0 < rising (γ * k) n := rising_pos (by positivity) n
  have h2 : 0 < Nat.descFactorial k t := Nat.pos_of_ne_zero (by
    intro h
    rw [Nat.descFactorial_eq_zero_iff_lt] at h
    omega)
  have h3 : (0 : ℝ) < Nat.descFactorial k t := by exact_mod_cast h2
  positivity

/-- if all factors of the denominator grow by at least `1 / r`, the next term
    is at most `2 lam r` times as large -/
theorem vTerm_ratio {γ lam : ℝ} (hγ : 0 < γ) (hl : 0 < lam) (C : ℝ) {t n k : ℕ} (ht : 1 ≤ t)
    (hn : 1 ≤ n) (hk : t ≤ k) {r : ℝ} (hr0 : 0 ≤ r)
    (hr : rising (γ * k) n ≤ r * rising (γ * (k + 1 : ℕ)) n) :
    vTerm γ lam C t n (k + 1) ≤ 2 * lam * r * vTerm γ lam C t n k := by
  have hk0 : 1 ≤ k := by omega
  have hkR : (0 : ℝ) < k := by exact_mod_cast hk0
  have hR0 : 0 < rising (γ * k) n := rising_pos (by positivity) n
  have hR1 : 0 < rising (γ * (k + 1 : ℕ)) n := rising_pos (by positivity) n
  rw [vTerm_eq hγ hl C ht hn (by omega), vTerm_eq hγ hl C ht hn hk0]
  have hd : ((k + 1 : ℕ) - t : ℝ) * Nat.descFactorial (k + 1) t =
      (k + 1 : ℕ) * Nat.descFactorial k t := by
    have h1 : (Nat.descFactorial (k + 1) (t + 1) : ℝ) =
        ((k + 1 : ℕ) - t : ℝ) * Nat.descFactorial (k + 1) t := by
      rw [Nat.descFactorial_succ, Nat.cast_mul, Nat.cast_sub (by omega)]
    rw [← h1, Nat.succ_descFactorial_succ]
    push_cast
    ring
  have hktR : (t : ℝ) ≤ k := by exact_mod_cast hk
  have hD : (Nat.descFactorial (k + 1) t : ℝ) ≤ (k + 1) * Nat.descFactorial k t := by
    have h0 : (0 : ℝ) ≤ Nat.descFactorial (k + 1) t := Nat.cast_nonneg _
    push_cast at hd
    nlinarith
  have hf : (Nat.factorial k : ℝ) = k * Nat.factorial (k - 1) := by
    exact_mod_cast (Nat.mul_factorial_pred (by omega)).symm
  have hp : lam ^ k = lam ^ (k - 1) * lam := by
    rw [← pow_succ]; congr 1; omega
  have hfp : (0 : ℝ) < Nat.factorial (k - 1) := by exact_mod_cast Nat.factorial_pos _
  rw [Nat.add_sub_cancel, hf, hp]
  have h2 : (1 : ℝ) / rising (γ * (k + 1 : ℕ)) n ≤ r / rising (γ * k) n := by
    rw [div_le_div_iff₀ hR1 hR0]; linarith
  have h3 : (Nat.descFactorial (k + 1) t : ℝ) / k ≤ 2 * Nat.descFactorial k t := by
    rw [div_le_iff₀ hkR]
    have h0 : (0 : ℝ) ≤ Nat.descFactorial k t := Nat.cast_nonneg _
    have h1 : (1 : ℝ) ≤ k := by exact_mod_cast hk0
    nlinarith
  have h4 := mul_le_mul h3 h2 (by positivity) (by positivity)
  have hE : 0 ≤ lam ^ (k - 1) * lam * Real.exp (-lam) / Nat.factorial (k - 1) *
      Real.exp (-C) := by positivity
  have h5 := mul_le_mul_of_nonneg_right h4 hE
  calc _ = (Nat.descFactorial (k + 1) t : ℝ) / k * (1 / rising (γ * (k + 1 : ℕ)) n) *
        (lam ^ (k - 1) * lam * Real.exp (-lam) / Nat.factorial (k - 1) * Real.exp (-C)) := by
        field_simp
    _ ≤ _ := h5
    _ = _ := by field_simp

theorem rising_mono_k {γ : ℝ} (hγ : 0 < γ) {k n : ℕ} (hk : 1 ≤ k) :
    rising (γ * k) n ≤ 1 * rising (γ * (k + 1 : ℕ)) n := by
  have hkR : (0 : ℝ) < k := by exact_mod_cast hk
  rw [one_mul]
  apply rising_ge (by positivity)
  push_cast
  nlinarith

/-! ### small `lam`: the loop is accurate -/

theorem coef_lower {γ lam C : ℝ} (hγ : 0 < γ) (hl : 0 < lam) (hl' : lam ≤ 1 / 4)
    {coef : ℕ → ℕ → ℝ} (hc : IsCoef γ lam C coef) {t n : ℕ} (ht : 1 ≤ t) (hn : 1 ≤ n) :
    trueV γ lam t n * Real.exp (-C) ≤ (1 + 1e-8) * coef t n := by
  obtain ⟨f, hf⟩ := hc t n ht hn
  have h0 : ∀ k, 0 ≤ vTerm γ lam C t n k := fun k => vTerm_nonneg hγ hl C ht hn
  have hv := (computeV_spec hγ hl C ht hn hf).1
  obtain ⟨m, j, hm, hj, hle⟩ := vLoop_stop h0 (le_refl 0)
    (fun h => absurd (by norm_num : (1 : ℝ) > 1e-8) h) hf
  have hjm : j = m := by omega
  subst hjm
  have hmt : t ≤ j := by
    by_contra hlt
    have : ∑ i ∈ Finset.range j, vTerm γ lam C t n (1 + i) = 0 := by
      apply Finset.sum_eq_zero
      intro i hi
      exact vTerm_zero hγ hl C hn (by omega) (by have := Finset.mem_range.mp hi; omega)
    rw [this] at hm
    linarith
  have hsum := (trueV_summable hγ hl t n).mul_right (Real.exp (-C))
  have hterm : ∀ i : ℕ, (Nat.descFactorial (i + 1) t : ℝ) / rising (γ * (i + 1 : ℕ)) n *
      (lam ^ i * Real.exp (-lam) / Nat.factorial i) * Real.exp (-C) =
      vTerm γ lam C t n (1 + i) := by
    intro i
    rw [vTerm_eq hγ hl C ht hn (by omega)]
    have : 1 + i - 1 = i := by omega
    rw [this, Nat.add_comm 1 i]
  rw [trueV, ← tsum_mul_right]
  simp only [hterm] at hsum ⊢
  rw [← hsum.sum_add_tsum_nat_add j]
  have htail : ∀ i : ℕ, vTerm γ lam C t n (1 + (i + j)) ≤ vTerm γ lam C t n j / 2 / 2 ^ i := by
    intro i
    induction i with
    | zero =>
      have := vTerm_ratio hγ hl C ht hn hmt zero_le_one (rising_mono_k hγ (by omega))
      rw [Nat.zero_add, Nat.add_comm 1 j]
      have := h0 j
      norm_num
      nlinarith
    | succ i ih =>
      have h1 := vTerm_ratio hγ hl C (n := n) (k := 1 + (i + j)) ht hn (by omega) zero_le_one
        (rising_mono_k hγ (by omega))
      have e : 1 + (i + 1 + j) = 1 + (i + j) + 1 := by omega
      rw [e]
      have h2 := h0 (1 + (i + j))
      calc vTerm γ lam C t n (1 + (i + j) + 1)
          ≤ 1 / 2 * vTerm γ lam C t n (1 + (i + j)) := by nlinarith
        _ ≤ 1 / 2 * (vTerm γ lam C t n j / 2 / 2 ^ i) := by linarith
        _ = _ := by rw [pow_succ]; ring
  have h3 : ∑' i : ℕ, vTerm γ lam C t n (1 + (i + j)) ≤ vTerm γ lam C t n j := by
    rw [← tsum_geometric_two' (vTerm γ lam C t n j)]
    exact ((summable_nat_add_iff j).mpr hsum).tsum_le_tsum htail
      (summable_geometric_two' _)
  rw [zero_add] at hm
  rw [← hm]
  linarith

/-- the loop keeps exactly two terms when `lam` is tiny -/
theorem coef_two {γ lam C : ℝ} (hγ : 0 < γ) (hl : 0 < lam) (hl' : lam ≤ 5e-9)
    {coef : ℕ → ℕ → ℝ} (hc : IsCoef γ lam C coef) {t n : ℕ} (ht : 1 ≤ t) (hn : 1 ≤ n) :
    coef t n = vTerm γ lam C t n t + vTerm γ lam C t n (t + 1) := by
  obtain ⟨f, hf⟩ := hc t n ht hn
  have hp := vTerm_pos hγ hl C ht hn (le_refl t)
  have h1 := vTerm_ratio hγ hl C ht hn (le_refl t) zero_le_one (rising_mono_k hγ ht)
  have hs : vTerm γ lam C t n (t + 1) ≤ 1e-8 * vTerm γ lam C t n t := by
    norm_num at hl' ⊢
    nlinarith
  have key : ∀ (d k : ℕ) (f : ℕ), 1 ≤ k → k + d = t →
      vLoop (vTerm γ lam C t n) f k 0 1 = some (coef t n) →
      coef t n = vTerm γ lam C t n t + vTerm γ lam C t n (t + 1) := by
    intro d k f hk hkd h
    have : ∀ i, k ≤ i → i < t → vTerm γ lam C t n i = 0 :=
      fun i hi hit => vTerm_zero hγ hl C hn (by omega) hit
    exact vLoop_two_from this hp hs hkd h
  exact key (t - 1) 1 f (le_refl 1) (by omega) hf

end Bayesmix.Mixing
