import Mathlib.Probability.CDF
import Mathlib.Probability.Distributions.Beta
import Verif.Fault

/-!
# `sample_truncated_beta`
-/

namespace Bayesmix.Utils

open ProbabilityTheory MeasureTheory Set

/-- `boost::math::cdf` of a Beta distribution. -/
noncomputable def betaCdf (a b x : ℝ) : ℝ := (betaMeasure a b).real (Iic x)

/-- `boost::math::quantile` of a Beta distribution, without rounding: inverts the distribution
function on the unit interval. -/
def IsBetaQuantile (a b : ℝ) (q : ℝ → ℝ) : Prop :=
  ∀ p, 0 ≤ p → p ≤ 1 → 0 ≤ q p ∧ q p ≤ 1 ∧ betaCdf a b (q p) = p

/-- `bayesmix::sample_truncated_beta`, `src/utils/distributions.cc` 283-292. The constructor of
`boost::math::beta_distribution` throws unless both shapes are positive, and `cdf` unless its argument
is in the unit interval. `t` is the draw of `uniform_rng(0, 1)` and `q` the quantile function. -/
noncomputable def sampleTruncatedBeta (q : ℝ → ℝ) (a b l u t : ℝ) : Except Fault ℝ :=
  if 0 < a ∧ 0 < b then
    if 0 ≤ l ∧ l ≤ 1 then
      if 0 ≤ u ∧ u ≤ 1 then
        .ok (q (betaCdf a b l + t * (betaCdf a b u - betaCdf a b l)))
      else .error .throw
    else .error .throw
  else .error .throw

end Bayesmix.Utils
