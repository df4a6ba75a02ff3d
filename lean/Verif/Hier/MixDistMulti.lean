import Verif.Hier.Checks
import Verif.Hier.MixDist

/-!
# Distance between multivariate Gaussian mixtures
-/

namespace Bayesmix.Hierarchies

open Real Matrix

/-- `stan::math::multi_normal_lpdf(y, mu, Sigma)` (trusted formula): throws unless the covariance is
positive definite. -/
noncomputable def stanMultiNormalLpdf {d : ℕ} (y mu : Fin d → ℝ) (S : Matrix (Fin d) (Fin d) ℝ) :
    Except Fault ℝ :=
  open Classical in if S.PosDef then .ok (-(d / 2) * log (2 * π) - (1 / 2) * log S.det
    - (1 / 2) * ((y - mu) ⬝ᵥ (S⁻¹ *ᵥ (y - mu)))) else .error .throw

/-- One of the three double loops of the multivariate `gaussian_mixture_dist`
(`src/utils/distributions.cc` 203-232). A weight is read without a check of bounds. -/
noncomputable def multiCross {d : ℕ} (m1 : List (Fin d → ℝ)) (v1 : List (Matrix (Fin d) (Fin d) ℝ))
    (w1 : List ℝ) (m2 : List (Fin d → ℝ)) (v2 : List (Matrix (Fin d) (Fin d) ℝ)) (w2 : List ℝ) :
    Except Fault ℝ :=
  (List.range m1.length).foldlM (fun acc i => (List.range m2.length).foldlM (fun acc j => do
    let a ← vget v1 i
    let b ← vget v2 j
    let wi ← vget w1 i
    let wj ← vget w2 j
    let mi ← vget m1 i
    let mj ← vget m2 j
    let l ← stanMultiNormalLpdf mi mj (a + b)
    .ok (acc + wi * wj * exp l)) acc) 0

/-- `gaussian_mixture_dist` for means and precision matrices, `src/utils/distributions.cc` 190-234. -/
noncomputable def gaussianMixtureDistMulti {d : ℕ} (m1 : List (Fin d → ℝ))
    (p1 : List (Matrix (Fin d) (Fin d) ℝ)) (w1 : List ℝ) (m2 : List (Fin d → ℝ))
    (p2 : List (Matrix (Fin d) (Fin d) ℝ)) (w2 : List ℝ) : Except Fault ℝ := do
  let v1 ← p1.mapM inverseSpd
  let v2 ← p2.mapM inverseSpd
  let mix1 ← multiCross m1 v1 w1 m1 v1 w1
  let mix2 ← multiCross m2 v2 w2 m2 v2 w2
  let inter ← multiCross m1 v1 w1 m2 v2 w2
  .ok (mix1 + mix2 - 2 * inter)

/-- `AlgorithmState.ClusterState` (`src/proto/algorithm_state.proto` 18-31), with vectors and matrices
of one size `d` (run-time sizes are in `Serial.lean`). -/
inductive ClusterState (d : ℕ)
  | uniLs (mean var : ℝ)
  | multiLs (mean : Fin d → ℝ) (prec : Matrix (Fin d) (Fin d) ℝ)
  | other

/-- `uni_ls_state()`: the default message if the state is of another type. -/
def ClusterState.uniLsState {d : ℕ} : ClusterState d → ℝ × ℝ
  | .uniLs m v => (m, v)
  | _ => (0, 0)

/-- `to_eigen(multi_ls_state().mean())` and `to_eigen(multi_ls_state().prec())`. If the state is of
another type they are of size zero, which the density of a normal distribution of another size
rejects. -/
def ClusterState.multiLsState {d : ℕ} : ClusterState d →
    Except Fault ((Fin d → ℝ) × Matrix (Fin d) (Fin d) ℝ)
  | .multiLs m P => .ok (m, P)
  | _ => .error .throw

/-- One of the three double loops of the univariate `gaussian_mixture_dist`
(`src/utils/distributions.cc` 158-187), which reads weights without a check of bounds; `normal_lpdf`
throws unless its scale is positive. -/
noncomputable def uniCross (c1 : List (ℝ × ℝ)) (w1 : List ℝ) (c2 : List (ℝ × ℝ)) (w2 : List ℝ) :
    Except Fault ℝ :=
  (List.range c1.length).foldlM (fun acc i => (List.range c2.length).foldlM (fun acc j => do
    let a ← vget c1 i
    let b ← vget c2 j
    let wi ← vget w1 i
    let wj ← vget w2 j
    if 0 < a.2 + b.2 then .ok (acc + wi * wj * exp (normalLpdf a.1 b.1 (a.2 + b.2)))
    else .error .throw) acc) 0

/-- `gaussian_mixture_dist` for cluster states, `src/utils/distributions.cc` 236-281: the first state
decides on the type of all. -/
noncomputable def gaussianMixtureDistStates {d : ℕ} (c1 : List (ClusterState d)) (w1 : List ℝ)
    (c2 : List (ClusterState d)) (w2 : List ℝ) : Except Fault ℝ := do
  match ← vget c1 0 with
  | .uniLs _ _ => do
    let u1 := c1.map ClusterState.uniLsState
    let u2 := c2.map ClusterState.uniLsState
    let mix1 ← uniCross u1 w1 u1 w1
    let mix2 ← uniCross u2 w2 u2 w2
    let inter ← uniCross u1 w1 u2 w2
    .ok (mix1 + mix2 - 2 * inter)
  | .multiLs _ _ => do
    let s1 ← c1.mapM ClusterState.multiLsState
    let s2 ← c2.mapM ClusterState.multiLsState
    gaussianMixtureDistMulti (s1.map Prod.fst) (s1.map Prod.snd) w1 (s2.map Prod.fst)
      (s2.map Prod.snd) w2
  | .other => .error .throw

end Bayesmix.Hierarchies
