import Mathlib.Probability.Distributions.Gaussian.Real
import Mathlib.Tactic.Linarith
import Verif.Hier.ConjLemmas
import Verif.Hier.MixDist

/-!
# C80: distance between Gaussian mixtures
-/

namespace Bayesmix.Hierarchies

open Real MeasureTheory

/-- Density of a mixture. -/
noncomputable def Mixture.density {n : ℕ} (a : Mixture n) (x : ℝ) : ℝ :=
  ∑ i, a.weights i * exp (normalLpdf x (a.means i) (sqrt (a.vars i)))

theorem normal_product (x m1 m2 v1 v2 : ℝ) (h1 : 0 < v1) (h2 : 0 < v2) :
    normalLpdf x m1 (sqrt v1) + normalLpdf x m2 (sqrt v2) =
      normalLpdf m1 m2 (sqrt (v1 + v2)) +
        normalLpdf x ((m1 * v2 + m2 * v1) / (v1 + v2)) (sqrt (v1 * v2 / (v1 + v2))) := by
  have h3 : 0 < v1 + v2 := by linarith
  have h4 : 0 < v1 * v2 / (v1 + v2) := by positivity
  rw [normalLpdf_sqrt _ _ _ h1, normalLpdf_sqrt _ _ _ h2, normalLpdf_sqrt _ _ _ h3,
    normalLpdf_sqrt _ _ _ h4, log_div (mul_pos h1 h2).ne' h3.ne', log_mul h1.ne' h2.ne']
  field_simp
  ring

theorem integral_normal (m v : ℝ) (hv : 0 < v) :
    Integrable (fun x => exp (normalLpdf x m (sqrt v))) ∧
    ∫ x, exp (normalLpdf x m (sqrt v)) = 1 := by
  have hs : 0 < sqrt v := Real.sqrt_pos.2 hv
  have e : (fun x => exp (normalLpdf x m (sqrt v))) =
      ProbabilityTheory.gaussianPDFReal m ⟨sqrt v ^ 2, by positivity⟩ := by
    funext x
    rw [normalLpdf_eq_log_gaussianPDFReal _ _ _ hs, exp_log]
    apply ProbabilityTheory.gaussianPDFReal_pos
    intro h
    have : sqrt v ^ 2 = 0 := congrArg Subtype.val h
    exact (pow_pos hs 2).ne' this
  rw [e]
  refine ⟨ProbabilityTheory.integrable_gaussianPDFReal _ _, ?_⟩
  apply ProbabilityTheory.integral_gaussianPDFReal_eq_one
  intro h
  have : sqrt v ^ 2 = 0 := congrArg Subtype.val h
  exact (pow_pos hs 2).ne' this

theorem integral_product (m1 m2 v1 v2 : ℝ) (h1 : 0 < v1) (h2 : 0 < v2) :
    Integrable (fun x => exp (normalLpdf x m1 (sqrt v1)) * exp (normalLpdf x m2 (sqrt v2))) ∧
    ∫ x, exp (normalLpdf x m1 (sqrt v1)) * exp (normalLpdf x m2 (sqrt v2)) =
      exp (normalLpdf m1 m2 (sqrt (v1 + v2))) := by
  have e : (fun x => exp (normalLpdf x m1 (sqrt v1)) * exp (normalLpdf x m2 (sqrt v2))) =
      fun x => exp (normalLpdf m1 m2 (sqrt (v1 + v2))) *
        exp (normalLpdf x ((m1 * v2 + m2 * v1) / (v1 + v2)) (sqrt (v1 * v2 / (v1 + v2)))) := by
    funext x
    rw [← exp_add, ← exp_add, normal_product x m1 m2 v1 v2 h1 h2]
  have h4 : 0 < v1 * v2 / (v1 + v2) := by positivity
  rw [e]
  obtain ⟨i1, i2⟩ := integral_normal ((m1 * v2 + m2 * v1) / (v1 + v2)) _ h4
  exact ⟨i1.const_mul _, by rw [integral_const_mul, i2, mul_one]⟩

/-- Integral of the product of two mixtures. -/
theorem integral_mix {n m : ℕ} (a : Mixture n) (b : Mixture m) (ha : ∀ i, 0 < a.vars i)
    (hb : ∀ j, 0 < b.vars j) :
    Integrable (fun x => a.density x * b.density x) ∧
    ∫ x, a.density x * b.density x = ∑ i, ∑ j, a.weights i * b.weights j *
      exp (normalLpdf (a.means i) (b.means j) (sqrt (a.vars i + b.vars j))) := by
  have e : (fun x => a.density x * b.density x) = fun x => ∑ i, ∑ j,
      a.weights i * b.weights j * (exp (normalLpdf x (a.means i) (sqrt (a.vars i))) *
        exp (normalLpdf x (b.means j) (sqrt (b.vars j)))) := by
    funext x
    unfold Mixture.density
    rw [Finset.sum_mul_sum]
    exact Finset.sum_congr rfl (fun i _ => Finset.sum_congr rfl (fun j _ => by ring))
  have hi : ∀ i j, Integrable (fun x => a.weights i * b.weights j *
      (exp (normalLpdf x (a.means i) (sqrt (a.vars i))) *
        exp (normalLpdf x (b.means j) (sqrt (b.vars j))))) := fun i j =>
    (integral_product _ _ _ _ (ha i) (hb j)).1.const_mul _
  rw [e]
  refine ⟨integrable_finset_sum _ (fun i _ => integrable_finset_sum _ (fun j _ => hi i j)), ?_⟩
  rw [integral_finset_sum _ (fun i _ => integrable_finset_sum _ (fun j _ => hi i j))]
  apply Finset.sum_congr rfl
  intro i _
  rw [integral_finset_sum _ (fun j _ => hi i j)]
  apply Finset.sum_congr rfl
  intro j _
  rw [integral_const_mul, (integral_product _ _ _ _ (ha i) (hb j)).2]

/-- What the squared L2 distance of the densities is: the formula of the code with the standard
deviation, not the variance, of the difference. -/
theorem c80_l2_distance {n m : ℕ} (a : Mixture n) (b : Mixture m) (ha : ∀ i, 0 < a.vars i)
    (hb : ∀ j, 0 < b.vars j) :
    ∫ x, (a.density x - b.density x) ^ 2 =
      (∑ i, ∑ j, a.weights i * a.weights j *
        exp (normalLpdf (a.means i) (a.means j) (sqrt (a.vars i + a.vars j)))) +
      (∑ i, ∑ j, b.weights i * b.weights j *
        exp (normalLpdf (b.means i) (b.means j) (sqrt (b.vars i + b.vars j)))) -
      2 * ∑ i, ∑ j, a.weights i * b.weights j *
        exp (normalLpdf (a.means i) (b.means j) (sqrt (a.vars i + b.vars j))) := by
  obtain ⟨i1, e1⟩ := integral_mix a a ha ha
  obtain ⟨i2, e2⟩ := integral_mix b b hb hb
  obtain ⟨i3, e3⟩ := integral_mix a b ha hb
  have i4 : Integrable (fun x => a.density x * a.density x + b.density x * b.density x) :=
    i1.add i2
  rw [← e1, ← e2, ← e3, ← integral_const_mul, ← integral_add i1 i2,
    ← integral_sub i4 (i3.const_mul 2)]
  congr 1
  funext x
  ring

/-- The code computes the squared L2 distance when all sums of two variances are one. -/
theorem c80_unit_sums_partial {n m : ℕ} (a : Mixture n) (b : Mixture m)
    (ha : ∀ i, a.vars i = 1 / 2) (hb : ∀ j, b.vars j = 1 / 2) :
    gaussianMixtureDist a b = ∫ x, (a.density x - b.density x) ^ 2 := by
  rw [c80_l2_distance a b (fun i => by rw [ha]; norm_num) (fun j => by rw [hb]; norm_num)]
  unfold gaussianMixtureDist mixCross
  simp only [ha, hb]
  norm_num

/-- It is symmetric and vanishes on equal mixtures. -/
theorem c80_symmetric_partial {n m : ℕ} (a : Mixture n) (b : Mixture m) :
    gaussianMixtureDist a b = gaussianMixtureDist b a ∧ gaussianMixtureDist a a = 0 := by
  have h : mixCross a b = mixCross b a := by
    unfold mixCross
    rw [Finset.sum_comm]
    apply Finset.sum_congr rfl
    intro j _
    apply Finset.sum_congr rfl
    intro i _
    rw [add_comm (a.vars i)]
    congr 1
    · ring
    · congr 1
      unfold normalLpdf
      ring
  unfold gaussianMixtureDist
  constructor
  · rw [h]; ring
  · ring

/-- C80: two components with variances one and two against one component with variance three. -/
example (x1 x2 x3 : ℝ) : ∃ (a : Mixture 2) (b : Mixture 1), a.means = ![x1, x2] ∧ b.means = ![x3] ∧
    (∀ i, 0 < a.vars i) ∧ (∀ j, 0 < b.vars j) ∧ ∑ i, a.weights i = 1 ∧ ∑ j, b.weights j = 1 :=
  ⟨⟨![x1, x2], ![1, 2], ![1 / 4, 3 / 4]⟩, ⟨![x3], ![3], ![1]⟩, rfl, rfl,
    fun i => by fin_cases i <;> simp, fun j => by fin_cases j; simp, by simp; norm_num, by simp⟩

/-- C80: variances one half. -/
example (x1 x2 x3 : ℝ) : gaussianMixtureDist ⟨![x1, x2], fun _ => 1 / 2, ![1 / 4, 3 / 4]⟩
    (⟨![x3], fun _ => 1 / 2, ![1]⟩ : Mixture 1) =
    ∫ x, (Mixture.density ⟨![x1, x2], fun _ => 1 / 2, ![1 / 4, 3 / 4]⟩ x -
      Mixture.density ⟨![x3], fun _ => 1 / 2, ![1]⟩ x) ^ 2 :=
  c80_unit_sums_partial _ _ (fun _ => rfl) fun _ => rfl

theorem exp_normalLpdf (y m s : ℝ) (hs : 0 < s) :
    exp (normalLpdf y m s) =
      exp (-(1 / 2) * log (2 * π)) * s⁻¹ * exp (-(1 / 2) * ((y - m) / s) ^ 2) := by
  unfold normalLpdf
  rw [sub_eq_add_neg, sub_eq_add_neg, exp_add, exp_add, exp_neg (log s), exp_log hs, neg_mul, neg_mul]

/-- In general it does not: two normal densities with variance two and the means zero and
one. -/
theorem c80_l2_distance_violated :
    ¬ ∀ (a b : Mixture 1), (∀ i, 0 < a.vars i) → (∀ i, 0 < b.vars i) →
      gaussianMixtureDist a b = ∫ x, (a.density x - b.density x) ^ 2 := by
  intro hall
  have h := hall ⟨fun _ => 0, fun _ => 2, fun _ => 1⟩ ⟨fun _ => 1, fun _ => 2, fun _ => 1⟩
    (fun _ => two_pos) (fun _ => two_pos)
  rw [c80_l2_distance _ _ (fun _ => two_pos) (fun _ => two_pos)] at h
  simp only [gaussianMixtureDist, mixCross, Finset.univ_unique, Fin.default_eq_zero,
    Finset.sum_singleton, one_mul] at h
  have h4 : sqrt ((2 : ℝ) + 2) = 2 := by
    rw [show (2 : ℝ) + 2 = 2 ^ 2 by norm_num, Real.sqrt_sq (by norm_num)]
  rw [h4, exp_normalLpdf _ _ (2 + 2) (by norm_num), exp_normalLpdf _ _ (2 + 2) (by norm_num),
    exp_normalLpdf _ _ (2 + 2) (by norm_num), exp_normalLpdf _ _ 2 (by norm_num),
    exp_normalLpdf _ _ 2 (by norm_num), exp_normalLpdf _ _ 2 (by norm_num)] at h
  have hc : 0 < exp (-(1 / 2) * log (2 * π)) := exp_pos _
  have hu : exp (-(1 / 2) * (((0 : ℝ) - 1) / 2) ^ 2) =
      exp (-(1 / 2) * (((0 : ℝ) - 1) / (2 + 2)) ^ 2) ^ 4 := by
    rw [← exp_nat_mul]; congr 1; norm_num
  have hu0 : 0 < exp (-(1 / 2) * (((0 : ℝ) - 1) / (2 + 2)) ^ 2) := exp_pos _
  have hu1 : exp (-(1 / 2) * (((0 : ℝ) - 1) / (2 + 2)) ^ 2) < 1 := by
    rw [exp_lt_one_iff]; norm_num
  rw [hu] at h
  generalize exp (-(1 / 2) * log (2 * π)) = c at h hc
  generalize exp (-(1 / 2) * (((0 : ℝ) - 1) / (2 + 2)) ^ 2) = u at h hu0 hu1
  norm_num at h
  have h7 : c * (1 - u) * (1 - 2 * (1 + u) * (1 + u ^ 2)) = 0 := by linear_combination 2 * h
  have h8 : 0 < c * (1 - u) := mul_pos hc (by linarith)
  rcases mul_eq_zero.1 h7 with h9 | h9
  · exact h8.ne' h9
  · nlinarith [mul_pos hu0 hu0, mul_pos hu0 (mul_pos hu0 hu0)]

end Bayesmix.Hierarchies
