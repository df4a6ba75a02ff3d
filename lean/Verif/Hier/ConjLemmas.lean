import Mathlib.Tactic.Linarith
import Verif.Hier.Checks

/-!
# Log densities in expanded form
-/

namespace Bayesmix.Hierarchies

open Real Matrix

/-- The Normal log density with a variance `w`. -/
theorem normalLpdf_sqrt (y m w : ℝ) (hw : 0 < w) :
    normalLpdf y m (sqrt w) =
      -(1 / 2) * log 2 - (1 / 2) * log π - (1 / 2) * log w - (y - m) ^ 2 / (2 * w) := by
  unfold normalLpdf
  rw [log_mul (x := 2) (y := π) (by norm_num) pi_ne_zero, Real.log_sqrt hw.le, div_pow,
    Real.sq_sqrt hw.le]
  field_simp
  ring

/-- The Student t log density with `2a` degrees of freedom and squared scale `w`. -/
theorem studentTLpdf_sqrt (y a m w : ℝ) (ha : 0 < a) (hw : 0 < w) :
    studentTLpdf y (2 * a) m (sqrt w) =
      log (Gamma (a + 1 / 2)) - log (Gamma a) - (1 / 2) * log 2 - (1 / 2) * log a
        - (1 / 2) * log π - (1 / 2) * log w
        - (a + 1 / 2) * log (1 + (y - m) ^ 2 / (2 * a * w)) := by
  unfold studentTLpdf
  rw [log_mul (x := 2 * a) (y := π) (by positivity) pi_ne_zero,
    log_mul (x := 2) (y := a) (by norm_num) ha.ne', Real.log_sqrt hw.le, div_pow,
    Real.sq_sqrt hw.le, show (2 * a + 1) / 2 = a + 1 / 2 by ring, show 2 * a / 2 = a by ring,
    show 1 / (2 * a) * ((y - m) ^ 2 / w) = (y - m) ^ 2 / (2 * a * w) by field_simp]
  ring

/-- What `nigInit` accepts. -/
theorem nigInit_pos {p : NIGPrior} {h : NIG} (hp : nigInit p = .ok h) :
    0 < h.varScaling ∧ 0 < h.shape ∧ 0 < h.scale := by
  cases p with
  | fixed m v a b =>
    simp only [nigInit] at hp
    (repeat' split at hp) <;> cases hp
    rename_i h1 h2 h3
    exact ⟨not_le.1 h1, not_le.1 h2, not_le.1 h3⟩
  | normalMean m s v a b =>
    simp only [nigInit] at hp
    (repeat' split at hp) <;> cases hp
    rename_i h1 h2 h3
    exact ⟨not_le.1 h1, not_le.1 h2, not_le.1 h3⟩
  | ngg m s a b c d e =>
    simp only [nigInit] at hp
    (repeat' split at hp) <;> cases hp
    rename_i h1 h2 h3 h4 h5 h6
    exact ⟨div_pos (not_le.1 h2) (not_le.1 h3), not_le.1 h6,
      div_pos (not_le.1 h4) (not_le.1 h5)⟩
  | unset => cases hp

theorem nigInit_fixed {m v a b : ℝ} (hv : 0 < v) (ha : 0 < a) (hb : 0 < b) :
    nigInit (.fixed m v a b) = .ok ⟨m, v, a, b⟩ := by
  simp [nigInit, not_le.2 hv, not_le.2 ha, not_le.2 hb]

theorem nnigPosterior_of_ne (h : NIG) (n : ℤ) (s : UniNormStats) (hn : n ≠ 0)
    (hl : h.varScaling + n ≠ 0) :
    nnigPosterior h n s =
      ⟨(h.varScaling * h.mean + s.dataSum) / (h.varScaling + n), h.varScaling + n,
        h.shape + n / 2,
        h.scale + (s.dataSumSquares + h.varScaling * h.mean ^ 2
          - (h.varScaling * h.mean + s.dataSum) ^ 2 / (h.varScaling + n)) / 2⟩ := by
  unfold nnigPosterior
  have hn' : (n : ℝ) ≠ 0 := by exact_mod_cast hn
  have hl' : (n : ℝ) + h.varScaling ≠ 0 := by rwa [add_comm]
  rw [if_neg hn]
  ext
  · rfl
  · rfl
  · simp only []; norm_num; ring
  · simp only []
    norm_num
    rw [add_comm (n : ℝ) h.varScaling]
    field_simp
    ring

/-- Bayes' rule for one datum. -/
theorem nnig_bayes (h : NIG) (hl : 0 < h.varScaling) (ha : 0 < h.shape) (hb : 0 < h.scale)
    (y : ℝ) (st : UniLS) (hv : 0 < st.var) :
    uniNormLpdf st y + nigLpdf h st =
      nnigMargLpdf h y + nigLpdf (nnigPosterior h 1 (uniNormUpd uniNormZero y true)) st := by
  rw [nnigPosterior_of_ne _ _ _ one_ne_zero (by push_cast; positivity)]
  obtain ⟨m, l, a, b⟩ := h
  obtain ⟨mu, v⟩ := st
  simp only at hl ha hb hv
  simp only [uniNormLpdf, nigLpdf, nnigMargLpdf, uniNormUpd, uniNormZero, if_true, Int.cast_one,
    zero_add]
  have hl1 : 0 < l + 1 := by positivity
  rw [normalLpdf_sqrt _ _ _ hv, normalLpdf_sqrt _ _ _ (by positivity),
    studentTLpdf_sqrt _ _ _ _ ha (by positivity), normalLpdf_sqrt _ _ _ (by positivity)]
  unfold invGammaLpdf
  have hb' : b + (y * y + l * m ^ 2 - (l * m + y) ^ 2 / (l + 1)) / 2 =
      b * (1 + (y - m) ^ 2 / (2 * a * (b * (l + 1) / (a * l)))) := by
    field_simp
    ring
  have hpos : 0 < 1 + (y - m) ^ 2 / (2 * a * (b * (l + 1) / (a * l))) := by positivity
  rw [hb', log_mul (x := b) hb.ne' hpos.ne', log_div (x := v) hv.ne' hl.ne',
    log_div (x := v) hv.ne' hl1.ne', log_div (x := b * (l + 1)) (by positivity) (by positivity),
    log_mul (x := b) hb.ne' hl1.ne', log_mul (x := a) ha.ne' hl.ne']
  rw [show (a + 1 / 2 + 1) = a + 1 + 1 / 2 by ring]
  generalize log (1 + (y - m) ^ 2 / (2 * a * (b * (l + 1) / (a * l)))) = q
  have e : (y - mu) ^ 2 / (2 * v) + (mu - m) ^ 2 / (2 * (v / l)) + b / v =
      (mu - (l * m + y) / (l + 1)) ^ 2 / (2 * (v / (l + 1))) +
      b * (1 + (y - m) ^ 2 / (2 * a * (b * (l + 1) / (a * l)))) / v := by
    field_simp
    ring
  linear_combination -e

/-- Updating in two steps. -/
theorem nnigPosterior_add (h : NIG) (hl : 0 < h.varScaling) (n : ℕ) (s t : UniNormStats)
    (h0 : n = 0 → s = uniNormZero) (m : ℕ) (h1 : m = 0 → t = uniNormZero) :
    nnigPosterior (nnigPosterior h n s) m t =
      nnigPosterior h (n + m) ⟨s.dataSum + t.dataSum, s.dataSumSquares + t.dataSumSquares⟩ := by
  rcases Nat.eq_zero_or_pos n with rfl | hn
  · rw [h0 rfl]
    simp [nnigPosterior, uniNormZero]
  rcases Nat.eq_zero_or_pos m with rfl | hm
  · rw [h1 rfl]
    simp [nnigPosterior, uniNormZero]
  have hn' : (0 : ℝ) < n := by exact_mod_cast hn
  have hm' : (0 : ℝ) < m := by exact_mod_cast hm
  rw [nnigPosterior_of_ne h n s (by omega) (by push_cast; positivity),
    nnigPosterior_of_ne _ m t (by omega) (by push_cast; positivity),
    nnigPosterior_of_ne h (n + m) _ (by omega) (by push_cast; positivity)]
  ext
  · simp only; push_cast; field_simp; ring
  · simp only; push_cast; ring
  · simp only; push_cast; ring
  · simp only; push_cast; field_simp; ring

/-- One step keeps the hyperparameters valid. -/
theorem nnigPosterior_one_pos (h : NIG) (hl : 0 < h.varScaling) (ha : 0 < h.shape)
    (hb : 0 < h.scale) (y : ℝ) :
    0 < (nnigPosterior h 1 ⟨y, y ^ 2⟩).varScaling ∧ 0 < (nnigPosterior h 1 ⟨y, y ^ 2⟩).shape ∧
    0 < (nnigPosterior h 1 ⟨y, y ^ 2⟩).scale := by
  rw [nnigPosterior_of_ne _ _ _ one_ne_zero (by push_cast; positivity)]
  obtain ⟨m, l, a, b⟩ := h
  simp only [Int.cast_one] at *
  refine ⟨by positivity, by positivity, ?_⟩
  have : y ^ 2 + l * m ^ 2 - (l * m + y) ^ 2 / (l + 1) = l * (y - m) ^ 2 / (l + 1) := by
    field_simp
    ring
  rw [this]
  positivity

theorem foldl_nnig_pos (ys : List ℝ) : ∀ (h : NIG), 0 < h.varScaling → 0 < h.shape →
    0 < h.scale →
    0 < (ys.foldl (fun h y => nnigPosterior h 1 ⟨y, y ^ 2⟩) h).varScaling ∧
    0 < (ys.foldl (fun h y => nnigPosterior h 1 ⟨y, y ^ 2⟩) h).shape ∧
    0 < (ys.foldl (fun h y => nnigPosterior h 1 ⟨y, y ^ 2⟩) h).scale := by
  induction ys with
  | nil => intro h a b c; exact ⟨a, b, c⟩
  | cons y ys ih =>
    intro h a b c
    obtain ⟨a', b', c'⟩ := nnigPosterior_one_pos h a b c y
    exact ih _ a' b' c'

theorem nnig_batch_eq_foldl (h : NIG) (hl : 0 < h.varScaling) (ys : List ℝ) :
    nnigPosterior h ys.length ⟨ys.sum, (ys.map (· ^ 2)).sum⟩ =
      ys.foldl (fun h y => nnigPosterior h 1 ⟨y, y ^ 2⟩) h := by
  induction ys using List.reverseRecOn with
  | nil => simp [nnigPosterior]
  | append_singleton ys y ih =>
    rw [List.foldl_append, List.foldl_cons, List.foldl_nil, ← ih]
    have := nnigPosterior_add h hl ys.length ⟨ys.sum, (ys.map (· ^ 2)).sum⟩ ⟨y, y ^ 2⟩
      (by intro h0; have := List.eq_nil_of_length_eq_zero h0; subst this; rfl) 1 (by simp)
    simp only [Nat.cast_one] at this
    rw [this]
    simp

theorem nxigInit_pos {p : NxIGPrior} {h : NxIG} (hp : nxigInit p = .ok h) :
    0 < h.var ∧ 0 < h.shape ∧ 0 < h.scale := by
  cases p with
  | fixed m v a b =>
    simp only [nxigInit] at hp
    (repeat' split at hp) <;> cases hp
    rename_i h1 h2 h3
    exact ⟨not_le.1 h1, not_le.1 h2, not_le.1 h3⟩
  | unset => cases hp

theorem nxigInit_fixed {m v a b : ℝ} (hv : 0 < v) (ha : 0 < a) (hb : 0 < b) :
    nxigInit (.fixed m v a b) = .ok ⟨m, v, a, b⟩ := by
  simp [nxigInit, not_le.2 hv, not_le.2 ha, not_le.2 hb]

theorem gammaInit_pos {s a b : ℝ} {h : GammaHypers} (hp : gammaInit s a b = .ok h) :
    0 < s ∧ 0 < h.rateAlpha ∧ 0 < h.rateBeta := by
  simp only [gammaInit] at hp
  (repeat' split at hp) <;> cases hp
  rename_i h1 h2 h3
  exact ⟨not_le.1 h1, not_le.1 h2, not_le.1 h3⟩

theorem gammaInit_of_pos {s a b : ℝ} (hv : 0 < s) (ha : 0 < a) (hb : 0 < b) :
    gammaInit s a b = .ok ⟨a, b⟩ := by
  simp [gammaInit, not_le.2 hv, not_le.2 ha, not_le.2 hb]

theorem cluster_sum_sq (s : Finset ℤ) (data : ℤ → ℝ) (m : ℝ) :
    (∑ i ∈ s, data i ^ 2) - 2 * m * (∑ i ∈ s, data i) + ((s.card : ℤ) : ℝ) * m * m =
      ∑ i ∈ s, (data i - m) ^ 2 := by
  simp only [sub_sq, Finset.sum_add_distrib, Finset.sum_sub_distrib, Finset.sum_const,
    nsmul_eq_mul]
  rw [Finset.mul_sum]
  push_cast
  have : ∑ i ∈ s, 2 * data i * m = ∑ i ∈ s, 2 * m * data i :=
    Finset.sum_congr rfl (fun i _ => by ring)
  rw [this]
  ring

/-- The log likelihood of a set of data in terms of its statistics. -/
theorem sum_uniNormLpdf (s : Finset ℤ) (data : ℤ → ℝ) (mu : ℝ) {v : ℝ} (hv : 0 < v) :
    (∑ i ∈ s, uniNormLpdf ⟨mu, v⟩ (data i)) =
      -((s.card : ℝ) / 2) * log (2 * π * v)
        - ((∑ i ∈ s, data i ^ 2) - 2 * mu * (∑ i ∈ s, data i) + s.card * mu * mu) / (2 * v) := by
  have hp := Real.pi_pos
  have h := cluster_sum_sq s data mu
  push_cast at h
  rw [h]
  simp only [uniNormLpdf, normalLpdf_sqrt _ _ _ hv]
  rw [Finset.sum_sub_distrib, Finset.sum_const, ← Finset.sum_div,
    log_mul (x := 2 * π) (y := v) (by positivity) hv.ne',
    log_mul (x := 2) (y := π) (by norm_num) hp.ne', nsmul_eq_mul]
  ring

end Bayesmix.Hierarchies
