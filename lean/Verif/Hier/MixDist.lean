import Verif.Hier.Dist

/-!
# Distance between Gaussian mixtures
-/

namespace Bayesmix.Hierarchies

open Real

/-- A univariate Gaussian mixture: means, variances and weights of `n` components. -/
structure Mixture (n : ℕ) where
  means : Fin n → ℝ
  vars : Fin n → ℝ
  weights : Fin n → ℝ

/-- One of the three double loops of `bayesmix::gaussian_mixture_dist`. -/
noncomputable def mixCross {n m : ℕ} (a : Mixture n) (b : Mixture m) : ℝ :=
  ∑ i, ∑ j, a.weights i * b.weights j *
    exp (normalLpdf (a.means i) (b.means j) (a.vars i + b.vars j))

/-- `bayesmix::gaussian_mixture_dist`, `src/utils/distributions.cc` 152-190 (univariate); called
with means and variances of the clusters by the overload at 236-283. -/
noncomputable def gaussianMixtureDist {n m : ℕ} (a : Mixture n) (b : Mixture m) : ℝ :=
  mixCross a a + mixCross b b - 2 * mixCross a b

end Bayesmix.Hierarchies
