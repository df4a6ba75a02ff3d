import Mathlib.Analysis.SpecialFunctions.Log.Basic
import Mathlib.Analysis.SpecialFunctions.Sqrt
import Mathlib.Analysis.SpecialFunctions.Gamma.Basic
import Mathlib.Probability.Distributions.Gaussian.Real
import Mathlib.Probability.Distributions.Gamma
import Mathlib.Tactic.FieldSimp
import Mathlib.Tactic.Ring
import Mathlib.Tactic.NormNum
import Mathlib.Tactic.Positivity

/-!
# Log densities of the Stan Math library

The functions of `stan::math` the hierarchies call, over the reals, by their documented
formulas. Stan Math itself is not part of `/repo`: these definitions belong to the trusted
base. `normalLpdf` and `gammaLpdf` are checked against Mathlib's densities below.
-/

namespace Bayesmix.Hierarchies

open Real

/-- `stan::math::normal_lpdf(y, mu, sigma)`: the last argument is the standard deviation. -/
noncomputable def normalLpdf (y mu sigma : ℝ) : ℝ :=
  -(1 / 2) * log (2 * π) - log sigma - (1 / 2) * ((y - mu) / sigma) ^ 2

/-- `stan::math::inv_gamma_lpdf(y, alpha, beta)`: shape and scale. -/
noncomputable def invGammaLpdf (y alpha beta : ℝ) : ℝ :=
  alpha * log beta - log (Gamma alpha) - (alpha + 1) * log y - beta / y

/-- `stan::math::gamma_lpdf(y, alpha, beta)`: shape and rate. -/
noncomputable def gammaLpdf (y alpha beta : ℝ) : ℝ :=
  alpha * log beta - log (Gamma alpha) + (alpha - 1) * log y - beta * y

/-- `stan::math::student_t_lpdf(y, nu, mu, sigma)`. -/
noncomputable def studentTLpdf (y nu mu sigma : ℝ) : ℝ :=
  log (Gamma ((nu + 1) / 2)) - log (Gamma (nu / 2)) - (1 / 2) * log (nu * π) - log sigma
    - ((nu + 1) / 2) * log (1 + (1 / nu) * ((y - mu) / sigma) ^ 2)

/-- `stan::math::double_exponential_lpdf(y, mu, sigma)`. -/
noncomputable def doubleExponentialLpdf (y mu sigma : ℝ) : ℝ :=
  -log 2 - log sigma - |y - mu| / sigma

/-- Check of `normalLpdf` against Mathlib's Gaussian density, which takes the variance. -/
theorem normalLpdf_eq_log_gaussianPDFReal (y mu sigma : ℝ) (hs : 0 < sigma) :
    normalLpdf y mu sigma =
      log (ProbabilityTheory.gaussianPDFReal mu ⟨sigma ^ 2, by positivity⟩ y) := by
  unfold ProbabilityTheory.gaussianPDFReal normalLpdf
  have hp := Real.pi_pos
  have h2 : (0 : ℝ) < 2 * π := by positivity
  have h3 : (0 : ℝ) < sqrt (2 * π * sigma ^ 2) := Real.sqrt_pos.2 (by positivity)
  show _ = log ((√(2 * π * sigma ^ 2))⁻¹ * exp (-(y - mu) ^ 2 / (2 * sigma ^ 2)))
  rw [log_mul (inv_ne_zero h3.ne') (exp_ne_zero _), log_exp, log_inv,
    Real.log_sqrt (by positivity), log_mul h2.ne' (pow_ne_zero 2 hs.ne'), log_pow]
  push_cast
  field_simp
  ring

/-- Check of `gammaLpdf` against Mathlib's Gamma density. -/
theorem gammaLpdf_eq_log_gammaPDFReal (y alpha beta : ℝ) (hy : 0 < y) (ha : 0 < alpha)
    (hb : 0 < beta) :
    gammaLpdf y alpha beta = log (ProbabilityTheory.gammaPDFReal alpha beta y) := by
  unfold ProbabilityTheory.gammaPDFReal gammaLpdf
  rw [if_pos hy.le]
  have hG := Real.Gamma_pos_of_pos ha
  rw [log_mul (by positivity) (by positivity), log_mul (by positivity) (by positivity),
    log_div (by positivity) (by positivity), log_rpow hb, log_rpow hy, log_exp]
  ring

/-- Relation between inverse Gamma and Gamma: `1/y` is Gamma distributed; the density of `y`
carries the Jacobian `1/y²`. -/
theorem invGammaLpdf_eq_gammaLpdf (y alpha beta : ℝ) :
    invGammaLpdf y alpha beta = gammaLpdf y⁻¹ alpha beta - 2 * log y := by
  unfold invGammaLpdf gammaLpdf
  rw [log_inv]
  ring

end Bayesmix.Hierarchies
