import Mathlib.MeasureTheory.Measure.Lebesgue.Integral
import Mathlib.MeasureTheory.Integral.Gamma
import Mathlib.Probability.Moments.Variance
import Verif.Hier.PropsLaw

/-!
# Moments of Normal and Laplace densities
-/

namespace Bayesmix.Hierarchies
open Real MeasureTheory ENNReal Matrix

variable {d : ℕ}

theorem exp_normalLpdf_eq (m v : ℝ) (hv : 0 < v) :
    ∃ w : NNReal, w ≠ 0 ∧ (w : ℝ) = v ∧ (fun x => exp (normalLpdf x m (sqrt v))) =
      ProbabilityTheory.gaussianPDFReal m w := by
  have hs : 0 < sqrt v := Real.sqrt_pos.2 hv
  have hw : (⟨sqrt v ^ 2, by positivity⟩ : NNReal) ≠ 0 := by
    intro h
    have : sqrt v ^ 2 = 0 := congrArg Subtype.val h
    exact (pow_pos hs 2).ne' this
  refine ⟨⟨sqrt v ^ 2, by positivity⟩, hw, sq_sqrt hv.le, ?_⟩
  funext x
  rw [normalLpdf_eq_log_gaussianPDFReal _ _ _ hs, exp_log]
  exact ProbabilityTheory.gaussianPDFReal_pos _ _ _ hw

/-- First two moments of a density: mean and variance. -/
structure HasMeanVar (f : ℝ → ℝ) (m v : ℝ) : Prop where
  mass : ∫ y, exp (f y) = 1
  int1 : Integrable fun y => y * exp (f y)
  mean : ∫ y, y * exp (f y) = m
  int2 : Integrable fun y => (y - m) ^ 2 * exp (f y)
  var : ∫ y, (y - m) ^ 2 * exp (f y) = v

theorem normal_meanVar (m v : ℝ) (hv : 0 < v) :
    HasMeanVar (fun x => normalLpdf x m (sqrt v)) m v := by
  obtain ⟨w, hw, hwv, e⟩ := exp_normalLpdf_eq m v hv
  have e' : ∀ x, exp (normalLpdf x m (sqrt v)) = ProbabilityTheory.gaussianPDFReal m w x :=
    fun x => congrFun e x
  have key : ∀ g : ℝ → ℝ, Integrable g (ProbabilityTheory.gaussianReal m w) →
      Integrable (fun x => g x * exp (normalLpdf x m (sqrt v))) := by
    intro g hg
    rw [ProbabilityTheory.gaussianReal_of_var_ne_zero _ hw,
      integrable_withDensity_iff (ProbabilityTheory.measurable_gaussianPDF m w)
        (Filter.Eventually.of_forall fun x => ProbabilityTheory.gaussianPDF_lt_top)] at hg
    refine hg.congr (Filter.Eventually.of_forall fun x => ?_)
    dsimp only
    rw [e', ProbabilityTheory.toReal_gaussianPDF]
  have key2 : ∀ g : ℝ → ℝ, ∫ x, g x * exp (normalLpdf x m (sqrt v)) =
      ∫ x, g x ∂(ProbabilityTheory.gaussianReal m w) := by
    intro g
    rw [ProbabilityTheory.integral_gaussianReal_eq_integral_smul hw]
    refine integral_congr_ae (Filter.Eventually.of_forall fun x => ?_)
    dsimp only
    rw [e', smul_eq_mul, mul_comm]
  have hL := ProbabilityTheory.memLp_id_gaussianReal (μ := m) (v := w) 2
  have hvar := ProbabilityTheory.variance_id_gaussianReal (μ := m) (v := w)
  rw [ProbabilityTheory.variance_eq_integral measurable_id.aemeasurable] at hvar
  simp only [id_eq, ProbabilityTheory.integral_id_gaussianReal] at hvar
  refine ⟨(integral_normal m v hv).2, key _ ?_, ?_, key _ ?_, ?_⟩
  · exact (hL.mono_exponent (by norm_num)).integrable le_rfl
  · rw [key2, ProbabilityTheory.integral_id_gaussianReal]
  · have := (hL.sub (memLp_const m)).integrable_sq
    exact this
  · rw [key2, hvar, hwv]

theorem laplace_abs_moment (s : ℝ) (hs : 0 < s) (n : ℕ) :
    ∫ x, |x| ^ n * exp (doubleExponentialLpdf x 0 s) = s ^ n * n.factorial := by
  have e : ∀ x : ℝ, |x| ^ n * exp (doubleExponentialLpdf x 0 s) =
      (fun t => (2 * s)⁻¹ * (t ^ ((n + 1 : ℝ) - 1) * exp (-(s⁻¹ * t)))) |x| := by
    intro x
    have h2 : exp (doubleExponentialLpdf x 0 s) = (2 * s)⁻¹ * exp (-(s⁻¹ * |x|)) := by
      rw [doubleExponentialLpdf, sub_zero, show -log 2 - log s - |x| / s =
        -(log 2 + log s) + -(s⁻¹ * |x|) by ring, exp_add, exp_neg, exp_add, exp_log two_pos,
        exp_log hs]
    dsimp only
    rw [h2, add_sub_cancel_right, Real.rpow_natCast]
    ring
  rw [integral_congr_ae (Filter.Eventually.of_forall e),
    integral_comp_abs (f := fun t => (2 * s)⁻¹ * (t ^ ((n + 1 : ℝ) - 1) * exp (-(s⁻¹ * t)))),
    integral_const_mul, Real.integral_rpow_mul_exp_neg_mul_Ioi (by positivity) (inv_pos.2 hs),
    Gamma_nat_eq_factorial, one_div, inv_inv]
  have : s ^ ((n : ℝ) + 1) = s ^ n * s := by
    rw [rpow_add hs, Real.rpow_natCast, Real.rpow_one]
  rw [this]
  field_simp

theorem laplace_meanVar (m s : ℝ) (hs : 0 < s) :
    HasMeanVar (fun x => doubleExponentialLpdf x m s) m (2 * s ^ 2) := by
  have hI : ∀ n : ℕ, Integrable fun x => |x| ^ n * exp (doubleExponentialLpdf x 0 s) := by
    intro n
    by_contra h
    have := laplace_abs_moment s hs n
    rw [integral_undef h] at this
    exact (by positivity : (0 : ℝ) < s ^ n * n.factorial).ne this
  have hsh : ∀ x, doubleExponentialLpdf x m s = doubleExponentialLpdf (x - m) 0 s := by
    intro x
    simp [doubleExponentialLpdf]
  have hmeas : Measurable fun x => exp (doubleExponentialLpdf x 0 s) := by
    unfold doubleExponentialLpdf; fun_prop
  have h1 : Integrable fun x => x * exp (doubleExponentialLpdf x 0 s) := by
    refine (hI 1).mono (measurable_id.mul hmeas).aestronglyMeasurable
      (Filter.Eventually.of_forall fun x => ?_)
    simp
  have h0 : Integrable fun x => exp (doubleExponentialLpdf x 0 s) := by
    simpa using hI 0
  have hodd : ∫ x, x * exp (doubleExponentialLpdf x 0 s) = 0 := by
    have := integral_neg_eq_self (fun x => x * exp (doubleExponentialLpdf x 0 s)) volume
    have e : ∀ x : ℝ, -x * exp (doubleExponentialLpdf (-x) 0 s) =
        -(x * exp (doubleExponentialLpdf x 0 s)) := by
      intro x
      simp [doubleExponentialLpdf]
    rw [integral_congr_ae (Filter.Eventually.of_forall e), integral_neg] at this
    linarith
  have hmass : ∫ x, exp (doubleExponentialLpdf x 0 s) = 1 := by
    simpa using laplace_abs_moment s hs 0
  have h2 : ∫ x, x ^ 2 * exp (doubleExponentialLpdf x 0 s) = 2 * s ^ 2 := by
    have := laplace_abs_moment s hs 2
    simp only [sq_abs] at this
    rw [this]
    norm_num [Nat.factorial]
    ring
  have hI2 : Integrable fun x => x ^ 2 * exp (doubleExponentialLpdf x 0 s) := by
    simpa only [sq_abs] using hI 2
  have e1 : ∀ y, y * exp (doubleExponentialLpdf y m s) =
      (fun x => x * exp (doubleExponentialLpdf x 0 s) + m * exp (doubleExponentialLpdf x 0 s))
        (y - m) := by
    intro y
    rw [hsh]
    ring
  have e2 : ∀ y, (y - m) ^ 2 * exp (doubleExponentialLpdf y m s) =
      (fun x => x ^ 2 * exp (doubleExponentialLpdf x 0 s)) (y - m) := by
    intro y
    rw [hsh]
  refine ⟨?_, ?_, ?_, ?_, ?_⟩
  · simp only [hsh]
    rw [integral_sub_right_eq_self (fun x => exp (doubleExponentialLpdf x 0 s)) m, hmass]
  · simp only [e1]
    exact (h1.add (h0.const_mul m)).comp_sub_right m
  · simp only [e1]
    rw [integral_sub_right_eq_self (fun x => x * exp (doubleExponentialLpdf x 0 s) +
      m * exp (doubleExponentialLpdf x 0 s)) m, integral_add h1 (h0.const_mul m), hodd,
      integral_const_mul, hmass]
    ring
  · simp only [e2]
    exact hI2.comp_sub_right m
  · simp only [e2]
    rw [integral_sub_right_eq_self (fun x => x ^ 2 * exp (doubleExponentialLpdf x 0 s)) m, h2]

/-! ### Several dimensions -/

/-- Mean vector and covariance matrix of a density. -/
structure HasMeanCov (f : (Fin d → ℝ) → ℝ) (m : Fin d → ℝ) (S : Matrix (Fin d) (Fin d) ℝ) :
    Prop where
  mass : ∫ y, exp (f y) = 1
  int1 : ∀ i, Integrable fun y => y i * exp (f y)
  mean : ∀ i, ∫ y, y i * exp (f y) = m i
  int2 : ∀ i j, Integrable fun y => (y i - m i) * (y j - m j) * exp (f y)
  cov : ∀ i j, ∫ y, (y i - m i) * (y j - m j) * exp (f y) = S i j

/-- The standard normal density in `d` dimensions. -/
noncomputable def stdLog (z : Fin d → ℝ) : ℝ := ∑ i, normalLpdf (z i) 0 (sqrt 1)

theorem std_moment (g : Fin d → ℝ → ℝ)
    (hg : ∀ i, Integrable fun x => g i x * exp (normalLpdf x 0 (sqrt 1))) :
    Integrable (fun z : Fin d → ℝ => (∏ i, g i (z i)) * exp (stdLog z)) ∧
    ∫ z : Fin d → ℝ, (∏ i, g i (z i)) * exp (stdLog z) =
      ∏ i, ∫ x, g i x * exp (normalLpdf x 0 (sqrt 1)) := by
  have e : (fun z : Fin d → ℝ => (∏ i, g i (z i)) * exp (stdLog z)) =
      fun z => ∏ i, (g i (z i) * exp (normalLpdf (z i) 0 (sqrt 1))) := by
    funext z
    rw [stdLog, exp_sum, Finset.prod_mul_distrib]
  rw [e]
  exact ⟨Integrable.fintype_prod (f := fun i x => g i x * exp (normalLpdf x 0 (sqrt 1))) hg,
    integral_fintype_prod_volume_eq_prod (fun i x => g i x * exp (normalLpdf x 0 (sqrt 1)))⟩

theorem std_meanCov : HasMeanCov (d := d) stdLog 0 1 := by
  have hn := normal_meanVar 0 1 one_pos
  have h0 : Integrable fun x => exp (normalLpdf x 0 (sqrt 1)) := (integral_normal 0 1 one_pos).1
  have h2 : Integrable fun x => x ^ 2 * exp (normalLpdf x 0 (sqrt 1)) := by
    simpa using hn.int2
  have hv : ∫ x, x ^ 2 * exp (normalLpdf x 0 (sqrt 1)) = 1 := by simpa using hn.var
  have m1 : ∀ i : Fin d, Integrable (fun z : Fin d → ℝ => z i * exp (stdLog z)) ∧
      ∫ z : Fin d → ℝ, z i * exp (stdLog z) = 0 := by
    intro i
    have h := std_moment (fun k x => if k = i then x else 1) (fun k => by
      split_ifs
      · exact hn.int1
      · simpa using h0)
    simp only [Finset.prod_ite_eq', Finset.mem_univ, if_true] at h
    refine ⟨h.1, h.2.trans ?_⟩
    refine Finset.prod_eq_zero (Finset.mem_univ i) ?_
    simpa using hn.mean
  have m2 : ∀ i j : Fin d, Integrable (fun z : Fin d → ℝ => z i * z j * exp (stdLog z)) ∧
      ∫ z : Fin d → ℝ, z i * z j * exp (stdLog z) = (1 : Matrix (Fin d) (Fin d) ℝ) i j := by
    intro i j
    have h := std_moment (fun k x => (if k = i then x else 1) * (if k = j then x else 1))
      (fun k => by
        split_ifs
        · simpa only [← sq] using h2
        · simpa using hn.int1
        · simpa using hn.int1
        · simpa using h0)
    simp only [Finset.prod_mul_distrib, Finset.prod_ite_eq', Finset.mem_univ, if_true] at h
    refine ⟨h.1, h.2.trans ?_⟩
    by_cases hij : i = j
    · subst hij
      rw [one_apply_eq]
      refine Finset.prod_eq_one fun k _ => ?_
      split_ifs
      · simpa only [← sq] using hv
      · simpa using hn.mass
    · rw [one_apply_ne hij]
      refine Finset.prod_eq_zero (Finset.mem_univ i) ?_
      simpa [hij] using hn.mean
  refine ⟨?_, fun i => (m1 i).1, fun i => (m1 i).2, fun i j => ?_, fun i j => ?_⟩
  · have h := (std_moment (d := d) (fun _ _ => 1) (fun k => by simpa using h0)).2
    have h1 : ∫ x, exp (normalLpdf x 0 (sqrt 1)) = 1 := hn.mass
    simp only [one_mul, Finset.prod_const_one, h1] at h
    exact h
  · simpa using (m2 i j).1
  · simpa using (m2 i j).2

theorem integral_affine_comp (mu : Fin d → ℝ) {A : Matrix (Fin d) (Fin d) ℝ} (hA : A.det ≠ 0)
    (g : (Fin d → ℝ) → ℝ) (hg : Integrable g) :
    Integrable (fun y => g (A *ᵥ (y - mu)) * |A.det|) ∧
    ∫ y, g (A *ᵥ (y - mu)) * |A.det| = ∫ z, g z := by
  have hT : Measurable (toLin' A) := (LinearMap.continuous_of_finiteDimensional _).measurable
  have hmap := Real.map_matrix_volume_pi_eq_smul_volume_pi hA
  have hne : ENNReal.ofReal |A.det⁻¹| ≠ ⊤ := ENNReal.ofReal_ne_top
  have hgm : Integrable g (Measure.map (toLin' A) volume) := by
    rw [hmap]
    exact hg.smul_measure hne
  have hI : Integrable (fun y => g (toLin' A y)) := hgm.comp_measurable hT
  have hint : ∫ y, g (toLin' A y) = |A.det|⁻¹ * ∫ z, g z := by
    rw [← integral_map hT.aemeasurable hgm.aestronglyMeasurable, hmap, integral_smul_measure,
      ENNReal.toReal_ofReal (abs_nonneg _), abs_inv, smul_eq_mul]
  have hd : |A.det| ≠ 0 := abs_ne_zero.2 hA
  constructor
  · have := (hI.comp_sub_right mu).mul_const |A.det|
    simpa only [toLin'_apply] using this
  · rw [integral_mul_const]
    have := integral_sub_right_eq_self (fun y => g (toLin' A y)) (μ := volume) mu
    simp only [toLin'_apply] at this hint
    rw [this, hint]
    field_simp

/-- An affine image of the standard normal law. -/
theorem affine_meanCov (f : (Fin d → ℝ) → ℝ) (mu : Fin d → ℝ) {A : Matrix (Fin d) (Fin d) ℝ}
    (hA : A.det ≠ 0) (hf : ∀ y, exp (f y) = |A.det| * exp (stdLog (A *ᵥ (y - mu)))) :
    HasMeanCov f mu (Aᵀ * A)⁻¹ := by
  have hstd := std_meanCov (d := d)
  obtain ⟨B, hB⟩ : ∃ B, B = A⁻¹ := ⟨_, rfl⟩
  have hBA : ∀ v, B *ᵥ (A *ᵥ v) = v := by
    intro v
    rw [hB, mulVec_mulVec, nonsing_inv_mul _ (isUnit_iff_ne_zero.2 hA), one_mulVec]
  have hy : ∀ (y : Fin d → ℝ) i, y i - mu i = ∑ k, B i k * (A *ᵥ (y - mu)) k := by
    intro y i
    have := congrFun (hBA (y - mu)) i
    simp only [Pi.sub_apply] at this
    rw [← this]
    rfl
  have hS : (Aᵀ * A)⁻¹ = B * Bᵀ := by
    rw [Matrix.mul_inv_rev, hB, transpose_nonsing_inv]
  have i0 : Integrable fun z : Fin d → ℝ => exp (stdLog z) := by
    by_contra h
    have := hstd.mass
    rw [integral_undef h] at this
    exact zero_ne_one this
  have c0 := integral_affine_comp mu hA _ i0
  have hmass : ∫ y, exp (f y) = 1 := by
    simp only [hf, mul_comm |A.det|]
    rw [c0.2, hstd.mass]
  have i0' : Integrable fun y => exp (f y) := by
    simp only [hf, mul_comm |A.det|]
    exact c0.1
  have c1 : ∀ k, Integrable (fun y => (A *ᵥ (y - mu)) k * exp (f y)) ∧
      ∫ y, (A *ᵥ (y - mu)) k * exp (f y) = 0 := by
    intro k
    have c := integral_affine_comp mu hA _ (hstd.int1 k)
    have e : ∀ y, (A *ᵥ (y - mu)) k * exp (f y) =
        (A *ᵥ (y - mu)) k * exp (stdLog (A *ᵥ (y - mu))) * |A.det| := by
      intro y; rw [hf]; ring
    simp only [e]
    exact ⟨c.1, c.2.trans (hstd.mean k)⟩
  have c2 : ∀ k l, Integrable (fun y => (A *ᵥ (y - mu)) k * (A *ᵥ (y - mu)) l * exp (f y)) ∧
      ∫ y, (A *ᵥ (y - mu)) k * (A *ᵥ (y - mu)) l * exp (f y) =
        (1 : Matrix (Fin d) (Fin d) ℝ) k l := by
    intro k l
    have hi := hstd.int2 k l
    have hc := hstd.cov k l
    simp only [Pi.zero_apply, sub_zero] at hi hc
    have c := integral_affine_comp mu hA _ hi
    have e : ∀ y, (A *ᵥ (y - mu)) k * (A *ᵥ (y - mu)) l * exp (f y) =
        (A *ᵥ (y - mu)) k * (A *ᵥ (y - mu)) l * exp (stdLog (A *ᵥ (y - mu))) * |A.det| := by
      intro y; rw [hf]; ring
    simp only [e]
    exact ⟨c.1, c.2.trans hc⟩
  have e1 : ∀ i y, y i * exp (f y) =
      (∑ k, B i k * ((A *ᵥ (y - mu)) k * exp (f y))) + mu i * exp (f y) := by
    intro i y
    have : y i = (∑ k, B i k * (A *ᵥ (y - mu)) k) + mu i := by rw [← hy]; ring
    conv_lhs => rw [this]
    rw [add_mul, Finset.sum_mul]
    congr 1
    exact Finset.sum_congr rfl fun k _ => by ring
  have e2 : ∀ i j y, (y i - mu i) * (y j - mu j) * exp (f y) =
      ∑ k, ∑ l, B i k * B j l * ((A *ᵥ (y - mu)) k * (A *ᵥ (y - mu)) l * exp (f y)) := by
    intro i j y
    rw [hy, hy, Finset.sum_mul_sum, Finset.sum_mul]
    refine Finset.sum_congr rfl fun k _ => ?_
    rw [Finset.sum_mul]
    exact Finset.sum_congr rfl fun l _ => by ring
  have s1 : ∀ i, Integrable fun y => ∑ k, B i k * ((A *ᵥ (y - mu)) k * exp (f y)) := fun i =>
    integrable_finsetSum _ fun k _ => (c1 k).1.const_mul _
  have s2 : ∀ i j k, Integrable fun y =>
      ∑ l, B i k * B j l * ((A *ᵥ (y - mu)) k * (A *ᵥ (y - mu)) l * exp (f y)) := fun i j k =>
    integrable_finsetSum _ fun l _ => (c2 k l).1.const_mul _
  refine ⟨hmass, fun i => ?_, fun i => ?_, fun i j => ?_, fun i j => ?_⟩
  · simp only [e1]
    exact (s1 i).add (i0'.const_mul _)
  · simp only [e1]
    rw [integral_add (s1 i) (i0'.const_mul _), integral_finsetSum _ fun k _ =>
      (c1 k).1.const_mul _, integral_const_mul, hmass]
    simp only [integral_const_mul, (c1 _).2, mul_zero, Finset.sum_const_zero, zero_add, mul_one]
  · simp only [e2]
    exact integrable_finsetSum _ fun k _ => s2 i j k
  · simp only [e2]
    rw [integral_finsetSum _ fun k _ => s2 i j k]
    simp only [integral_finsetSum _ fun l _ => (c2 _ l).1.const_mul _, integral_const_mul,
      (c2 _ _).2, one_apply, mul_ite, mul_one, mul_zero, Finset.sum_ite_eq, Finset.mem_univ,
      if_true]
    rw [hS, Matrix.mul_apply]
    rfl

end Bayesmix.Hierarchies
