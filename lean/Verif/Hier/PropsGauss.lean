import Mathlib.Probability.Distributions.Gaussian.Multivariate
import Verif.Hier.FALemmas

/-!
# C78: the multivariate normal generators

The generators map independent standard normal draws to a vector; the law of that vector is the
multivariate normal distribution (Mathlib's `multivariateGaussian`) with the right mean and
covariance matrix.
-/

namespace Bayesmix.Hierarchies

open Matrix MeasureTheory ProbabilityTheory WithLp
open scoped RealInnerProductSpace

variable {d : ℕ}

/-- Law of `d` independent standard normal draws. -/
noncomputable def stdDraws (d : ℕ) : Measure (Fin d → ℝ) :=
  Measure.pi (fun _ : Fin d => gaussianReal 0 1)

/-- An affine image of independent standard normals is multivariate normal. -/
theorem law_affine (mean : Fin d → ℝ) (A S : Matrix (Fin d) (Fin d) ℝ) (hA : A * Aᵀ = S) :
    (stdDraws d).map (fun z => toLp 2 (mean + A *ᵥ z)) =
      multivariateGaussian (toLp 2 mean) S := by
  have hS : S.PosSemidef := by
    have := Matrix.posSemidef_self_mul_conjTranspose A
    rwa [Matrix.conjTranspose_eq_transpose_of_trivial, hA] at this
  have h1 : (fun z : Fin d → ℝ => toLp 2 (mean + A *ᵥ z)) =
      (fun x : EuclideanSpace ℝ (Fin d) => toLp 2 mean + toEuclideanCLM (𝕜 := ℝ) A x) ∘
        (toLp 2) := by
    funext z
    simp [toLp_add]
  have hm1 : Measurable (toLp 2 : (Fin d → ℝ) → EuclideanSpace ℝ (Fin d)) := by fun_prop
  have hm2 : Measurable (fun x : EuclideanSpace ℝ (Fin d) =>
      toLp 2 mean + toEuclideanCLM (𝕜 := ℝ) A x) := by fun_prop
  rw [h1, ← Measure.map_map hm2 hm1]
  unfold stdDraws
  rw [map_pi_eq_stdGaussian]
  have h2 : (fun x : EuclideanSpace ℝ (Fin d) => toLp 2 mean + toEuclideanCLM (𝕜 := ℝ) A x) =
      (fun x => toLp 2 mean + x) ∘ (toEuclideanCLM (𝕜 := ℝ) A) := rfl
  rw [h2, ← Measure.map_map (by fun_prop) (by fun_prop)]
  apply Measure.ext_of_charFun (E := EuclideanSpace ℝ (Fin d))
  funext t
  have h3 : charFun ((stdGaussian (EuclideanSpace ℝ (Fin d))).map (toEuclideanCLM (𝕜 := ℝ) A)) t =
      charFun (stdGaussian (EuclideanSpace ℝ (Fin d))) (toLp 2 (Aᵀ *ᵥ ofLp t)) := by
    rw [charFun_apply, charFun_apply, integral_map (by fun_prop) (by fun_prop)]
    congr 1
    funext x
    congr 3
    rw [EuclideanSpace.inner_eq_star_dotProduct, EuclideanSpace.inner_eq_star_dotProduct]
    simp only [star_trivial, ofLp_toEuclideanCLM]
    rw [mulVec_transpose, dotProduct_mulVec]
  have h4 : ‖(toLp 2 (Aᵀ *ᵥ ofLp t) : EuclideanSpace ℝ (Fin d))‖ ^ 2 = ofLp t ⬝ᵥ (S *ᵥ ofLp t) := by
    rw [EuclideanSpace.real_norm_sq_eq, ← hA, ← mulVec_mulVec, dotProduct_mulVec,
      ← mulVec_transpose]
    simp only [dotProduct]
    exact Finset.sum_congr rfl (fun i _ => by ring)
  rw [charFun_multivariateGaussian hS, charFun_map_const_add, h3, charFun_stdGaussian,
    ← Complex.ofReal_pow, h4, ← Complex.exp_add, real_inner_comm]
  congr 1
  push_cast
  ring

/-- `multi_normal_prec_chol_rng`: normal with the given mean and the inverse of the precision as
covariance matrix. -/
theorem c78_prec_chol_rng (mean : Fin d → ℝ) (prec : Matrix (Fin d) (Fin d) ℝ)
    (hp : prec.PosDef) :
    (stdDraws d).map (fun z => toLp 2 (multiNormalPrecCholRng mean prec z)) =
      multivariateGaussian (toLp 2 mean) prec⁻¹ := by
  apply law_affine
  unfold lltU
  have h := lltL_spec hp
  rw [Matrix.transpose_nonsing_inv, Matrix.transpose_transpose, ← Matrix.mul_inv_rev, h.2.2]

/-- `multi_normal_diag_rng`: normal with the given mean and variances. -/
theorem c78_diag_rng (mean cov : Fin d → ℝ) (hc : ∀ i, 0 ≤ cov i) :
    (stdDraws d).map (fun z => toLp 2 (multiNormalDiagRng mean cov z)) =
      multivariateGaussian (toLp 2 mean) (diagonal cov) := by
  have h1 : ∀ z, multiNormalDiagRng mean cov z =
      mean + diagonal (fun i => Real.sqrt (cov i)) *ᵥ z := by
    intro z
    funext i
    simp only [multiNormalDiagRng, Pi.add_apply, mulVec_diagonal]
    ring
  simp only [h1]
  apply law_affine
  rw [Matrix.diagonal_transpose, Matrix.diagonal_mul_diagonal]
  congr 1
  funext i
  exact Real.mul_self_sqrt (hc i)

example : (Matrix.of ![![2, 1], ![1, 2]] : Matrix (Fin 2) (Fin 2) ℝ).PosDef := by
  have h : (Matrix.of ![![2, 1], ![1, 2]] : Matrix (Fin 2) (Fin 2) ℝ) =
      diagonal (fun _ => 1) + vecMulVec (fun _ => 1) (fun _ => 1) := by
    ext i j
    fin_cases i <;> fin_cases j <;> norm_num [vecMulVec_apply]
  rw [h, add_comm]
  exact posDef_add_vecMulVec (Matrix.PosDef.diagonal (fun _ => one_pos)) _

end Bayesmix.Hierarchies
