import Verif.Mixing.Trunc

/-! # C63, C125 the truncated coefficients of the finite mixture -/

namespace Bayesmix
open Mixing

/-- both masses, computed -/
theorem mfm_masses_ok {coef : ℕ → ℕ → ℝ} {γ : ℝ} {n : ℕ} {s : MFMState}
    (hs : MFMRun coef γ n s) {k : ℕ} (hk : k < n) :
    (∀ c, ∃ s', mfmMassExisting coef s n k false c = .ok (mfmEx γ coef n k c, s')) ∧
    (∃ s', mfmMassNew coef s n k false = .ok (mfmNw γ coef n k, s')) := by
  obtain ⟨hg, ht⟩ := hs.inv
  obtain ⟨s₁, s₂, h1, h2, h3, h4⟩ := getV_two ht (show k + 1 ≤ n by omega)
  constructor
  · intro c
    refine ⟨s₂, ?_⟩
    unfold mfmMassExisting
    rw [h1, ok_bind]
    simp only
    rw [h2, ok_bind]
    simp [h3, hg, mfmEx]
  · refine ⟨s₂, ?_⟩
    unfold mfmMassNew
    rw [h1, ok_bind]
    simp only
    rw [h2, ok_bind]
    simp [h3, hg, mfmNw]

/-! ## C125 -/

/-- C125 (partial): when the expected number of components minus one is at most
    a quarter, in every state reached by queries about the `n` data, the masses
    the code returns agree up to the factor `1 - 1e-8` with the probabilities
    that the next datum joins each cluster or opens a new one in the mixture of
    finite mixtures.  Missing: larger `lam`, see `c125_truncation_violated`;
    as many clusters as data, see `c28_finite_mixture_violated`. -/
theorem c125_masses_partial {γ lam C : ℝ} (hγ : 0 < γ) (hl : 0 < lam) (hl' : lam ≤ 1 / 4)
    {coef : ℕ → ℕ → ℝ} (hc : IsCoef γ lam C coef) (l : List ℕ)
    (hk : (clusterSizes l).length < l.length) {s : MFMState} (hs : MFMRun coef γ l.length s)
    (x : ℕ) :
    ∃ q s', (if x ∈ l then
          mfmMassExisting coef s l.length (clusterSizes l).length false (l.count x)
        else mfmMassNew coef s l.length (clusterSizes l).length false) = .ok (q, s') ∧
      (1 - 1e-8) * (mfmPartition γ lam (l ++ [x]) / mfmPartition γ lam l) ≤ q ∧
      (1 - 1e-8) * q ≤ mfmPartition γ lam (l ++ [x]) / mfmPartition γ lam l := by
  have hne : l ≠ [] := by rintro rfl; simp at hk
  rw [mfmPartition_step hγ hl hne x]
  rw [clusterSizes_length] at hk ⊢
  obtain ⟨hE, hN⟩ := mfm_masses_ok hs hk
  obtain ⟨n, hn⟩ : ∃ n : ℕ, n = l.length := ⟨_, rfl⟩
  obtain ⟨k, hkk⟩ : ∃ k : ℕ, k = l.toFinset.card := ⟨_, rfl⟩
  rw [← hn, ← hkk] at hE hN hk ⊢
  have hk1 : 1 ≤ k := by
    rw [hkk, Nat.one_le_iff_ne_zero]
    simpa using hne
  -- the two coefficients
  have hV1 := trueV_pos hγ hl k (n + 1)
  have hV2 := trueV_pos hγ hl (k + 1) (n + 1)
  have hc1 := hc.pos hγ hl hk1 (show 1 ≤ n + 1 by omega)
  have hc2 := hc.pos hγ hl (show 1 ≤ k + 1 by omega) (show 1 ≤ n + 1 by omega)
  have lo1 := coef_lower hγ hl hl' hc hk1 (show 1 ≤ n + 1 by omega)
  have lo2 := coef_lower hγ hl hl' hc (show 1 ≤ k + 1 by omega) (show 1 ≤ n + 1 by omega)
  have hi1 : coef k (n + 1) ≤ trueV γ lam k (n + 1) * Real.exp (-C) := by
    obtain ⟨f, hf⟩ := hc k (n + 1) hk1 (by omega)
    exact (computeV_spec hγ hl C hk1 (by omega) hf).2
  have hi2 : coef (k + 1) (n + 1) ≤ trueV γ lam (k + 1) (n + 1) * Real.exp (-C) := by
    obtain ⟨f, hf⟩ := hc (k + 1) (n + 1) (by omega) (by omega)
    exact (computeV_spec hγ hl C (by omega) (by omega) hf).2
  have hE0 := Real.exp_pos (-C)
  obtain ⟨E, hEE⟩ : ∃ E : ℝ, E = Real.exp (-C) := ⟨_, rfl⟩
  rw [← hEE] at lo1 lo2 hi1 hi2 hE0
  -- ratios
  obtain ⟨ρ, hρ⟩ : ∃ ρ : ℝ, ρ = trueV γ lam (k + 1) (n + 1) / trueV γ lam k (n + 1) := ⟨_, rfl⟩
  obtain ⟨σ, hσ⟩ : ∃ σ : ℝ, σ = coef (k + 1) (n + 1) / coef k (n + 1) := ⟨_, rfl⟩
  have hρ0 : 0 < ρ := by rw [hρ]; positivity
  have hσ0 : 0 < σ := by rw [hσ]; positivity
  have r1 : (1 - 1e-8) * ρ ≤ σ := by
    rw [hρ, hσ, ← mul_div_assoc, div_le_div_iff₀ hV1 hc1]
    have a1 : (1 - 1e-8) * (trueV γ lam (k + 1) (n + 1) * E) ≤ coef (k + 1) (n + 1) := by
      norm_num at lo2 ⊢; nlinarith
    have h := mul_le_mul a1 hi1 hc1.le hc2.le
    have : E * ((1 - 1e-8) * trueV γ lam (k + 1) (n + 1) * coef k (n + 1)) ≤
        E * (coef (k + 1) (n + 1) * trueV γ lam k (n + 1)) := by nlinarith
    exact le_of_mul_le_mul_left this hE0
  have r2 : (1 - 1e-8) * σ ≤ ρ := by
    rw [hρ, hσ, ← mul_div_assoc, div_le_div_iff₀ hc1 hV1]
    have a1 : (1 - 1e-8) * (trueV γ lam k (n + 1) * E) ≤ coef k (n + 1) := by
      norm_num at lo1 ⊢; nlinarith
    have h := mul_le_mul a1 hi2 hc2.le hc1.le
    have : E * ((1 - 1e-8) * coef (k + 1) (n + 1) * trueV γ lam k (n + 1)) ≤
        E * (trueV γ lam (k + 1) (n + 1) * coef k (n + 1)) := by nlinarith
    exact le_of_mul_le_mul_left this hE0
  have ha : (0 : ℝ) < n + k * γ := by
    have : (0 : ℝ) < k := by exact_mod_cast hk1
    positivity
  obtain ⟨a, haa⟩ : ∃ a : ℝ, a = n + k * γ := ⟨_, rfl⟩
  rw [← haa] at ha
  have d1 : 0 < a + ρ * γ := by positivity
  have d2 : 0 < a + σ * γ := by positivity
  have g1 : (1 - 1e-8) * (a + ρ * γ) ≤ a + σ * γ := by
    have := mul_le_mul_of_nonneg_right r1 hγ.le
    norm_num at this ⊢; nlinarith
  have g2 : (1 - 1e-8) * (a + σ * γ) ≤ a + ρ * γ := by
    have := mul_le_mul_of_nonneg_right r2 hγ.le
    norm_num at this ⊢; nlinarith
  split
  · obtain ⟨s', h⟩ := hE (l.count x)
    refine ⟨_, s', h, ?_, ?_⟩
    · unfold mfmEx
      rw [← hρ, ← hσ, ← haa, ← mul_div_assoc, div_le_div_iff₀ d1 d2]
      have hcc : (0 : ℝ) ≤ (l.count x : ℝ) + γ := by positivity
      nlinarith [mul_le_mul_of_nonneg_left g2 hcc]
    · unfold mfmEx
      rw [← hρ, ← hσ, ← haa, ← mul_div_assoc, div_le_div_iff₀ d2 d1]
      have hcc : (0 : ℝ) ≤ (l.count x : ℝ) + γ := by positivity
      nlinarith [mul_le_mul_of_nonneg_left g1 hcc]
  · obtain ⟨s', h⟩ := hN
    have e1 : (1 - 1e-8) * ρ * (a + σ * γ) ≤ σ * (a + ρ * γ) := by
      have h1 := mul_le_mul_of_nonneg_right r1 ha.le
      have h2 : 0 ≤ ρ * σ * γ := by positivity
      norm_num at h1 ⊢; nlinarith
    have e2 : (1 - 1e-8) * σ * (a + ρ * γ) ≤ ρ * (a + σ * γ) := by
      have h1 := mul_le_mul_of_nonneg_right r2 ha.le
      have h2 : 0 ≤ ρ * σ * γ := by positivity
      norm_num at h1 ⊢; nlinarith
    refine ⟨_, s', h, ?_, ?_⟩
    · unfold mfmNw
      rw [← hρ, ← hσ, ← haa, ← mul_div_assoc, div_le_div_iff₀ d1 d2]
      nlinarith [mul_le_mul_of_nonneg_right e1 hγ.le]
    · unfold mfmNw
      rw [← hρ, ← hσ, ← haa, ← mul_div_assoc, div_le_div_iff₀ d2 d1]
      nlinarith [mul_le_mul_of_nonneg_right e2 hγ.le]

/-- five data in two clusters, a fifth of an extra component expected -/
example : ∃ coef, IsCoef 2 (1 / 5) 0 coef ∧ MFMRun coef 2 [0, 1, 0, 0, 1].length ⟨2, none⟩ ∧
    (clusterSizes [0, 1, 0, 0, 1]).length < [0, 1, 0, 0, 1].length :=
  ⟨_, (c28_coefficients_exist two_pos (by norm_num) 0).choose_spec.1, MFMRun.fresh, by decide⟩

/-- every factor of the denominator grows -/
theorem rising_le_pow {x y r : ℝ} (hx : 0 < x) {n : ℕ}
    (h : ∀ i : ℕ, i < n → x + i ≤ r * (y + i)) : rising x n ≤ r ^ n * rising y n := by
  unfold rising
  rw [← Finset.card_range n, ← Finset.prod_const, Finset.card_range, ← Finset.prod_mul_distrib]
  apply Finset.prod_le_prod
  · intro i _; positivity
  · intro i hi; exact h i (Finset.mem_range.mp hi)

/-- in the exact mixture with 80 data a second cluster is at least as weighty
    as the first -/
theorem trueV_two_ge {γ : ℝ} (hγ : 0 < γ) : trueV γ 10000 1 80 ≤ trueV γ 10000 2 80 := by
  have hl : (0 : ℝ) < 10000 := by norm_num
  obtain ⟨f, hf⟩ : ∃ f : ℕ → ℝ, f = fun j : ℕ => (1 : ℝ) / rising (γ * (j + 1 : ℕ)) 80 *
    ((10000 : ℝ) ^ j * Real.exp (-10000) / Nat.factorial j) := ⟨_, rfl⟩
  have hfp : ∀ j, 0 < f j := by
    intro j
    have : 0 < rising (γ * (j + 1 : ℕ)) 80 := rising_pos (by positivity) 80
    rw [hf]
    positivity
  have e1 : ∀ j : ℕ, (Nat.descFactorial (j + 1) 1 : ℝ) / rising (γ * (j + 1 : ℕ)) 80 *
      ((10000 : ℝ) ^ j * Real.exp (-10000) / Nat.factorial j) = (j + 1) * f j := by
    intro j; rw [hf, Nat.descFactorial_one]; push_cast; ring
  have e2 : ∀ j : ℕ, (Nat.descFactorial (j + 1) 2 : ℝ) / rising (γ * (j + 1 : ℕ)) 80 *
      ((10000 : ℝ) ^ j * Real.exp (-10000) / Nat.factorial j) = (j + 1) * j * f j := by
    intro j
    rw [hf, Nat.descFactorial_succ, Nat.descFactorial_one, Nat.add_sub_cancel]
    push_cast; ring
  have s1 := trueV_summable hγ hl 1 80
  have s2 := trueV_summable hγ hl 2 80
  unfold trueV
  simp only [e1] at s1 ⊢
  simp only [e2] at s2 ⊢
  have h0 := (s2.sub s1)
  rw [← sub_nonneg, ← s2.tsum_sub s1]
  have hbig : f 0 ≤ f 99 := by
    have hr : rising (γ * (99 + 1 : ℕ)) 80 ≤ 100 ^ 80 * rising (γ * (0 + 1 : ℕ)) 80 := by
      apply rising_le_pow (by positivity)
      intro i _
      have : (0 : ℝ) ≤ i := Nat.cast_nonneg i
      push_cast
      nlinarith
    have p0 : 0 < rising (γ * (0 + 1 : ℕ)) 80 := rising_pos (by positivity) 80
    have p1 : 0 < rising (γ * (99 + 1 : ℕ)) 80 := rising_pos (by positivity) 80
    have hfac : (Nat.factorial 99 : ℝ) ≤ 100 ^ 99 := by
      have h := Nat.factorial_le_pow 99
      have h2 : (99 : ℕ) ^ 99 ≤ 100 ^ 99 := Nat.pow_le_pow_left (by norm_num) 99
      exact_mod_cast h.trans h2
    have hfp : (0 : ℝ) < Nat.factorial 99 := by exact_mod_cast Nat.factorial_pos _
    rw [hf]
    simp only [pow_zero, Nat.factorial_zero, Nat.cast_one, div_one, one_mul]
    have hE := Real.exp_pos (-10000)
    have h1 : (1 : ℝ) / rising (γ * (0 + 1 : ℕ)) 80 ≤
        1 / rising (γ * (99 + 1 : ℕ)) 80 * (10000 ^ 99 / Nat.factorial 99) := by
      rw [div_mul_div_comm, one_mul, div_le_div_iff₀ p0 (by positivity)]
      have h2 : rising (γ * (99 + 1 : ℕ)) 80 * (Nat.factorial 99 : ℝ) ≤
          (100 ^ 80 * rising (γ * (0 + 1 : ℕ)) 80) * 100 ^ 99 :=
        mul_le_mul hr hfac hfp.le (by positivity)
      have h3 : (100 : ℝ) ^ 80 * 100 ^ 99 ≤ 10000 ^ 99 := by norm_num
      have h4 := mul_le_mul_of_nonneg_right h3 p0.le
      nlinarith
    have h2 := mul_le_mul_of_nonneg_right h1 hE.le
    calc _ = 1 / rising (γ * (0 + 1 : ℕ)) 80 * Real.exp (-10000) := by ring
      _ ≤ _ := h2
      _ = _ := by ring
  have hpart := h0.sum_le_tsum {0, 99} (by
    intro j hj
    have hj0 : j ≠ 0 := by rintro rfl; simp at hj
    have : (1 : ℝ) ≤ j := by exact_mod_cast Nat.one_le_iff_ne_zero.mpr hj0
    have h := (hfp j).le
    have : 0 ≤ ((j : ℝ) + 1) * (j - 1) := by nlinarith
    nlinarith [mul_nonneg this h])
  refine le_trans ?_ hpart
  rw [Finset.sum_pair (by norm_num)]
  push_cast
  have := hfp 99
  nlinarith

/-- C125 violated: for every `γ ≥ 4000` and an expected number of ten thousand
    extra components, when 79 data sit in one cluster the mixture of finite
    mixtures puts the next datum into a new cluster with probability above
    0.49, but the mass returned by the code is below `1e-15`: the loop stops at
    the second term although the bulk of the series is still to come. -/
theorem c125_truncation_violated {γ C : ℝ} (hγ : 4000 ≤ γ) {coef : ℕ → ℕ → ℝ}
    (hc : IsCoef γ 10000 C coef) {s : MFMState} (hs : MFMRun coef γ 79 s) :
    (∃ q s', mfmMassNew coef s 79 1 false = .ok (q, s') ∧ q < 1e-15) ∧
    0.49 < mfmPartition γ 10000 (List.replicate 79 0 ++ [1]) /
      mfmPartition γ 10000 (List.replicate 79 0) := by
  have hγ0 : 0 < γ := by linarith
  have hl : (0 : ℝ) < 10000 := by norm_num
  constructor
  · obtain ⟨_, s', h⟩ := mfm_masses_ok hs (show 1 < 79 by norm_num)
    refine ⟨_, s', h, ?_⟩
    have two : ∀ (t : ℕ) (r : ℝ), 1 ≤ t → 0 ≤ r → 2 * 10000 * r ≤ 1e-8 →
        rising (γ * t) 80 ≤ r * rising (γ * (t + 1 : ℕ)) 80 →
        coef t 80 = vTerm γ 10000 C t 80 t + vTerm γ 10000 C t 80 (t + 1) := by
      intro t r ht hr0 hr hri
      obtain ⟨f, hf⟩ := hc t 80 ht (by norm_num)
      have hp := vTerm_pos hγ0 hl C ht (show 1 ≤ 80 by norm_num) (le_refl t)
      have h1 := vTerm_ratio hγ0 hl C ht (show 1 ≤ 80 by norm_num) (le_refl t) hr0 hri
      have hs : vTerm γ 10000 C t 80 (t + 1) ≤ 1e-8 * vTerm γ 10000 C t 80 t :=
        h1.trans (mul_le_mul_of_nonneg_right hr hp.le)
      exact vLoop_two_from (k := 1) (d := t - 1)
        (fun i hi hit => vTerm_zero hγ0 hl C (by norm_num) hi hit) hp hs (by omega) hf
    have hr1 : rising (γ * (1 : ℕ)) 80 ≤ (51 / 100) ^ 80 * rising (γ * (1 + 1 : ℕ)) 80 := by
      apply rising_le_pow (by push_cast; linarith)
      intro i hi
      have : (i : ℝ) ≤ 79 := by exact_mod_cast Nat.lt_succ_iff.mp hi
      push_cast
      linarith
    have hr2 : rising (γ * (2 : ℕ)) 80 ≤ (67 / 100) ^ 80 * rising (γ * (2 + 1 : ℕ)) 80 := by
      apply rising_le_pow (by push_cast; linarith)
      intro i hi
      have : (i : ℝ) ≤ 79 := by exact_mod_cast Nat.lt_succ_iff.mp hi
      push_cast
      linarith
    have c1 := two 1 _ (le_refl 1) (by positivity) (by norm_num) hr1
    have c2 := two 2 _ (by norm_num) (by positivity) (by norm_num) hr2
    have p11 := vTerm_pos hγ0 hl C (le_refl 1) (show 1 ≤ 80 by norm_num) (le_refl 1)
    have p12 := vTerm_pos hγ0 hl C (le_refl 1) (show 1 ≤ 80 by norm_num) (show 1 ≤ 1 + 1 by norm_num)
    have p22 := vTerm_pos hγ0 hl C (show 1 ≤ 2 by norm_num) (show 1 ≤ 80 by norm_num) (le_refl 2)
    have b1 := vTerm_ratio hγ0 hl C (le_refl 1) (show 1 ≤ 80 by norm_num) (le_refl 1)
      (by positivity) hr1
    have b2 := vTerm_ratio hγ0 hl C (show 1 ≤ 2 by norm_num) (show 1 ≤ 80 by norm_num) (le_refl 2)
      (by positivity) hr2
    -- the first term for two clusters is the second one for one cluster
    have e : vTerm γ 10000 C 2 80 2 = vTerm γ 10000 C 1 80 (1 + 1) := by
      rw [vTerm_eq hγ0 hl C (by norm_num) (by norm_num) (by norm_num),
        vTerm_eq hγ0 hl C (by norm_num) (by norm_num) (by norm_num)]
      norm_num [Nat.descFactorial]
    have q1 : coef 2 80 ≤ 1e-16 * coef 1 80 := by
      rw [c1, c2]
      have k1 : (2 : ℝ) * 10000 * (51 / 100) ^ 80 ≤ 1e-17 := by norm_num
      have k2 : (2 : ℝ) * 10000 * (67 / 100) ^ 80 ≤ 1 := by norm_num
      have m1 := b1.trans (mul_le_mul_of_nonneg_right k1 p11.le)
      have m2 := b2.trans (mul_le_mul_of_nonneg_right k2 p22.le)
      rw [e] at m2 p22 ⊢
      norm_num at m1 m2 ⊢
      linarith
    have hc1 := hc.pos hγ0 hl (le_refl 1) (show 1 ≤ 80 by norm_num)
    have hc2 := hc.pos hγ0 hl (show 1 ≤ 2 by norm_num) (show 1 ≤ 80 by norm_num)
    have hrat : coef 2 80 / coef 1 80 ≤ 1e-16 := by rw [div_le_iff₀ hc1]; exact q1
    have hrat0 : 0 < coef 2 80 / coef 1 80 := by positivity
    unfold mfmNw
    norm_num at hrat hrat0 ⊢
    rw [div_lt_iff₀ (by positivity)]
    nlinarith
  · rw [mfmPartition_step hγ0 hl (by simp) 1, if_neg (by simp)]
    have hcard : (List.replicate 79 0 : List ℕ).toFinset.card = 1 := by
      rw [List.toFinset_replicate_of_ne_zero (by norm_num)]; rfl
    rw [hcard, List.length_replicate]
    have h1 := trueV_pos hγ0 hl 1 80
    have h2 := trueV_two_ge hγ0
    have hrat : 1 ≤ trueV γ 10000 2 80 / trueV γ 10000 1 80 := by
      rw [le_div_iff₀ h1]; linarith
    unfold mfmNw
    norm_num
    rw [lt_div_iff₀ (by positivity)]
    nlinarith

/-- there is such an object -/
example : ∃ coef, IsCoef 4000 10000 0 coef ∧ MFMRun coef 4000 79 ⟨4000, none⟩ :=
  ⟨_, (c28_coefficients_exist (by norm_num) (by norm_num) 0).choose_spec.1, MFMRun.fresh⟩

/-! ## C63 -/

/-- C63 violated: with `γ = 1` and every positive `lam ≤ 5e-9` the masses the
    code returns for more data than clusters are not exchangeable: after two
    data in one cluster, "same cluster, then a new one" and "a new one, then the
    first cluster" have different probabilities. -/
theorem c63_truncated_violated {lam C : ℝ} (hl : 0 < lam) (hl' : lam ≤ 5e-9)
    {coef : ℕ → ℕ → ℝ} (hc : IsCoef 1 lam C coef) {ex : ℕ → ℕ → ℕ → ℝ} {nw : ℕ → ℕ → ℝ}
    (hex : ∀ n k c, k < n → (mfmMassExisting coef ⟨1, none⟩ n k false c).map (·.1) =
      .ok (ex n k c))
    (hnw : ∀ n k, k < n → (mfmMassNew coef ⟨1, none⟩ n k false).map (·.1) = .ok (nw n k)) :
    (clusterSizes [0, 0, 0, 1]).Perm (clusterSizes [0, 0, 1, 0]) ∧
    schemeFrom ex nw [0, 0] [0, 1] ≠ schemeFrom ex nw [0, 0] [1, 0] := by
  refine ⟨by decide, ?_⟩
  have hEx : ∀ n k c, k < n → ex n k c = mfmEx 1 coef n k c := by
    intro n k c hk
    obtain ⟨s', h⟩ := (mfm_masses_ok (MFMRun.fresh (coef := coef) (γ := 1)) hk).1 c
    have := hex n k c hk
    rw [h] at this
    exact (Except.ok.inj this).symm
  have hNw : ∀ n k, k < n → nw n k = mfmNw 1 coef n k := by
    intro n k hk
    obtain ⟨s', h⟩ := (mfm_masses_ok (MFMRun.fresh (coef := coef) (γ := 1)) hk).2
    have := hnw n k hk
    rw [h] at this
    exact (Except.ok.inj this).symm
  have l1 : schemeFrom ex nw [0, 0] [0, 1] = mfmEx 1 coef 2 1 2 * mfmNw 1 coef 3 1 := by
    rw [← hEx 2 1 2 (by norm_num), ← hNw 3 1 (by norm_num)]
    simp [schemeFrom]
  have l2 : schemeFrom ex nw [0, 0] [1, 0] = mfmNw 1 coef 2 1 * mfmEx 1 coef 3 2 2 := by
    rw [← hEx 3 2 2 (by norm_num), ← hNw 2 1 (by norm_num)]
    simp [schemeFrom]
  rw [l1, l2]
  have v : ∀ t n, 1 ≤ t → 1 ≤ n → coef t n =
      ((Nat.descFactorial t t : ℝ) / rising t n * (lam ^ (t - 1) / Nat.factorial (t - 1)) +
       (Nat.descFactorial (t + 1) t : ℝ) / rising (t + 1 : ℕ) n * (lam ^ t / Nat.factorial t)) *
      (Real.exp (-lam) * Real.exp (-C)) := by
    intro t n ht hn
    rw [coef_two one_pos hl hl' hc ht hn, vTerm_eq one_pos hl C ht hn ht,
      vTerm_eq one_pos hl C ht hn (by omega), one_mul, one_mul, Nat.add_sub_cancel]
    ring
  have hE : 0 < Real.exp (-lam) * Real.exp (-C) := by positivity
  obtain ⟨E, hEE⟩ : ∃ E : ℝ, E = Real.exp (-lam) * Real.exp (-C) := ⟨_, rfl⟩
  rw [← hEE] at v hE
  have v31 : coef 1 3 = (1 / 6 + lam / 12) * E := by
    rw [v 1 3 (by norm_num) (by norm_num)]
    norm_num [rising, Finset.prod_range_succ, Nat.descFactorial, Nat.factorial]; ring_nf; simp
  have v32 : coef 2 3 = (lam / 12 + lam ^ 2 / 20) * E := by
    rw [v 2 3 (by norm_num) (by norm_num)]
    norm_num [rising, Finset.prod_range_succ, Nat.descFactorial, Nat.factorial]; ring_nf; simp
  have v41 : coef 1 4 = (1 / 24 + lam / 60) * E := by
    rw [v 1 4 (by norm_num) (by norm_num)]
    norm_num [rising, Finset.prod_range_succ, Nat.descFactorial, Nat.factorial]; ring_nf; simp
  have v42 : coef 2 4 = (lam / 60 + lam ^ 2 / 120) * E := by
    rw [v 2 4 (by norm_num) (by norm_num)]
    norm_num [rising, Finset.prod_range_succ, Nat.descFactorial, Nat.factorial]; ring_nf; simp
  have v43 : coef 3 4 = (lam ^ 2 / 120 + lam ^ 3 / 210) * E := by
    rw [v 3 4 (by norm_num) (by norm_num)]
    norm_num [rising, Finset.prod_range_succ, Nat.descFactorial, Nat.factorial]; ring_nf; simp
  have r1 : coef 2 3 / coef 1 3 = (lam / 12 + lam ^ 2 / 20) / (1 / 6 + lam / 12) := by
    rw [v31, v32, mul_div_mul_right _ _ hE.ne']
  have r2 : coef 2 4 / coef 1 4 = (lam / 60 + lam ^ 2 / 120) / (1 / 24 + lam / 60) := by
    rw [v41, v42, mul_div_mul_right _ _ hE.ne']
  have r3 : coef 3 4 / coef 2 4 =
      (lam ^ 2 / 120 + lam ^ 3 / 210) / (lam / 60 + lam ^ 2 / 120) := by
    rw [v42, v43, mul_div_mul_right _ _ hE.ne']
  unfold mfmEx mfmNw
  intro h
  have p31 : (0 : ℝ) < 1 / 6 + lam / 12 := by positivity
  have p41 : (0 : ℝ) < 1 / 24 + lam / 60 := by positivity
  have p42 : (0 : ℝ) < lam / 60 + lam ^ 2 / 120 := by positivity
  have q1 : 0 < coef 2 3 / coef 1 3 := by rw [r1]; positivity
  have q2 : 0 < coef 2 4 / coef 1 4 := by rw [r2]; positivity
  have q3 : 0 < coef 3 4 / coef 2 4 := by rw [r3]; positivity
  obtain ⟨x1, hx1⟩ : ∃ x : ℝ, x = coef 2 3 / coef 1 3 := ⟨_, rfl⟩
  obtain ⟨x2, hx2⟩ : ∃ x : ℝ, x = coef 2 4 / coef 1 4 := ⟨_, rfl⟩
  obtain ⟨x3, hx3⟩ : ∃ x : ℝ, x = coef 3 4 / coef 2 4 := ⟨_, rfl⟩
  norm_num at h
  rw [← hx1] at q1 r1 h
  rw [← hx2] at q2 r2 h
  rw [← hx3] at q3 r3 h
  have h2 : x2 * (5 + x3) = x1 * (4 + x2) := by
    rw [div_mul_div_comm, div_mul_div_comm, div_eq_div_iff (by positivity) (by positivity)] at h
    have hne : (3 : ℝ) * (3 + x1) ≠ 0 := by positivity
    apply mul_left_cancel₀ hne
    linear_combination h
  have e1 : x1 * (1 / 6 + lam / 12) = lam / 12 + lam ^ 2 / 20 := by
    rw [r1]; field_simp
  have e2 : x2 * (1 / 24 + lam / 60) = lam / 60 + lam ^ 2 / 120 := by
    rw [r2]; field_simp
  have e3 : x3 * (lam / 60 + lam ^ 2 / 120) = lam ^ 2 / 120 + lam ^ 3 / 210 := by
    rw [r3]; field_simp
  have k1 : x2 * (5 + x3) * (1 / 24 + lam / 60) = lam / 12 + lam ^ 2 / 20 + lam ^ 3 / 210 := by
    linear_combination (5 + x3) * e2 + e3
  have k2 : x1 * (4 + x2) * (1 / 24 + lam / 60) =
      x1 * (1 / 6 + lam / 12 + lam ^ 2 / 120) := by
    linear_combination x1 * e2
  rw [h2, k2] at k1
  have k3 : (lam / 12 + lam ^ 2 / 20) * (1 / 6 + lam / 12 + lam ^ 2 / 120) =
      (lam / 12 + lam ^ 2 / 20 + lam ^ 3 / 210) * (1 / 6 + lam / 12) := by
    rw [← k1, ← e1]; ring
  have k4 : lam ^ 3 * (1 / 1260 - 1 / 1440 + lam * (1 / 2520 - 1 / 2400)) = 0 := by
    linear_combination -k3
  have hlam : lam ^ 3 ≠ 0 := by positivity
  have := (mul_eq_zero.mp k4).resolve_left hlam
  norm_num at hl' this
  linarith

/-- the masses the code returns with a tiny `lam` -/
example : ∃ coef, IsCoef 1 1e-9 0 coef ∧ ∃ (ex : ℕ → ℕ → ℕ → ℝ) (nw : ℕ → ℕ → ℝ),
    (∀ n k c, k < n → (mfmMassExisting coef ⟨1, none⟩ n k false c).map (·.1) = .ok (ex n k c)) ∧
    (∀ n k, k < n → (mfmMassNew coef ⟨1, none⟩ n k false).map (·.1) = .ok (nw n k)) := by
  obtain ⟨coef, hc, _⟩ := c28_coefficients_exist one_pos (by norm_num : (0 : ℝ) < 1e-9) 0
  refine ⟨coef, hc, mfmEx 1 coef, mfmNw 1 coef, ?_, ?_⟩
  · intro n k c hk
    obtain ⟨s', h⟩ := (mfm_masses_ok (MFMRun.fresh (coef := coef) (γ := 1)) hk).1 c
    rw [h]; rfl
  · intro n k hk
    obtain ⟨s', h⟩ := (mfm_masses_ok (MFMRun.fresh (coef := coef) (γ := 1)) hk).2
    rw [h]; rfl

end Bayesmix
