import Mathlib.Data.Finset.Dedup
import Verif.Mixing.Model

/-!
# Vocabulary for the mixing properties
-/

namespace Bayesmix.Mixing
open Bayesmix

noncomputable section

/-- The extended number `l` is the logarithm of the non-negative real `x`
    (minus infinity for zero). -/
def IsLogOf (l : EReal) (x : ℝ) : Prop :=
  (0 < x ∧ l = ((Real.log x : ℝ) : EReal)) ∨ (x = 0 ∧ l = ⊥)

/-- States of a Dirichlet process mixing that a sampler can meet: made by the
    factory and initialised with the prior, then updated any number of times
    with any positive draws. -/
inductive DPRun (prior : DPPrior) : DPState → Prop
  | init {s} : dpInit dpFresh prior = .ok s → DPRun prior s
  | update {s s'} {n k : ℕ} {phi draw : ℝ → ℝ → ℝ} {p : ℝ} : DPRun prior s →
      (∀ a b, 0 < phi a b) → (∀ a b, 0 < draw a b) →
      dpUpdate s prior n k phi p draw = .ok s' → DPRun prior s'

/-- States of a finite-mixture mixing that has only been queried with one
    number `n` of data: a new object, then any successful queries. -/
inductive MFMRun (coef : ℕ → ℕ → ℝ) (γ : ℝ) (n : ℕ) : MFMState → Prop
  | fresh : MFMRun coef γ n ⟨γ, none⟩
  | existing {s s' k p c x} : MFMRun coef γ n s →
      mfmMassExisting coef s n k p c = .ok (x, s') → MFMRun coef γ n s'
  | new {s s' k p x} : MFMRun coef γ n s →
      mfmMassNew coef s n k p = .ok (x, s') → MFMRun coef γ n s'
  | logExisting {s s' k p c x} : MFMRun coef γ n s →
      mfmLogMassExisting coef s n k p c = .ok (x, s') → MFMRun coef γ n s'
  | logNew {s s' k p x} : MFMRun coef γ n s →
      mfmLogMassNew coef s n k p = .ok (x, s') → MFMRun coef γ n s'

/-- States of a truncated stick-breaking mixing reached through the public
    operations, all random sticks lying in the unit interval. -/
inductive SBRun (prior : SBPrior) (infinite : Bool) : SBState → Prop
  | init {num s} : sbInit prior num = .ok s → SBRun prior infinite s
  | set {sticks s} : sbSetSticks sticks = .ok s → SBRun prior infinite s
  | update {s s' cards draws} : SBRun prior infinite s →
      sbUpdate s prior infinite cards draws = .ok s' → SBRun prior infinite s'
  | breaks {s s' k draws r} : SBRun prior infinite s →
      keepBreaking s prior k draws = .ok (s', r) → SBRun prior infinite s'

/-- The stick-breaking weights of a list of sticks: stick `h` times the
    product of the complements of the earlier sticks. -/
def stickWeights : List ℝ → List ℝ
  | [] => []
  | v :: vs => v :: (stickWeights vs).map (fun w => (1 - v) * w)

/-- Part of the unit interval left after breaking the sticks. -/
def leftover (sticks : List ℝ) : ℝ := (sticks.map (fun v => 1 - v)).prod

/-- Probability that a sequential allocation scheme gives to a sequence of
    labels, after the labels in `seen`: a label seen before `c` times has the
    mass of an existing cluster of that size, a label not seen before the mass
    of a new cluster.  `ex n k c`: mass of a cluster of size `c` when there are
    `n` data in `k` clusters; `nw n k`: mass of a new cluster with `n` data in `k` clusters. -/
def schemeFrom (ex : ℕ → ℕ → ℕ → ℝ) (nw : ℕ → ℕ → ℝ) (seen : List ℕ) : List ℕ → ℝ
  | [] => 1
  | x :: xs =>
      (if x ∈ seen then ex seen.length seen.toFinset.card (seen.count x)
       else nw seen.length seen.toFinset.card) * schemeFrom ex nw (seen ++ [x]) xs

/-- Probability of a whole sequence of labels; the first datum opens the first
    cluster. -/
def schemeProb (ex : ℕ → ℕ → ℕ → ℝ) (nw : ℕ → ℕ → ℝ) : List ℕ → ℝ
  | [] => 1
  | x :: xs => schemeFrom ex nw [x] xs

/-- Sizes of the clusters of a sequence of labels, one entry per label used. -/
def clusterSizes (labels : List ℕ) : List ℕ := labels.dedup.map (fun x => labels.count x)

/-- Log of the mixing weight of component `c` at covariates `x`.
    (`0` stands for a weight that does not exist.) -/
def logitLogWeightOf {d : ℕ} (num : ℕ) (coefs : List (Fin d → ℝ)) (x : Fin d → ℝ)
    (c : ℕ) : ℝ :=
  match logitWeights num coefs x with
  | .ok w => Real.log (w.getD c 0)
  | .error _ => 0

/-- Log of the unnormalised posterior density of the regression coefficients
    of the logit stick-breaking mixing: Gaussian prior (mean, precision) on
    every column, and every datum allocated with its mixing weight at its
    covariates. -/
def logitPosterior {d : ℕ} (mean : Fin d → ℝ) (prec : Matrix (Fin d) (Fin d) ℝ)
    (num : ℕ) (coefs : List (Fin d → ℝ)) (data : List (LogitDatum d)) : ℝ :=
  (coefs.map fun a => -(1 / 2) * ((a - mean) ⬝ᵥ (prec.mulVec (a - mean)))).sum +
  (data.map fun xc => logitLogWeightOf num coefs xc.1 xc.2).sum

/-- Log density, up to a constant not depending on `y`, of the proposal
    `N(m, v I)` from which the logit stick-breaking mixing draws. -/
def gaussLog {d : ℕ} (m : Fin d → ℝ) (v : ℝ) (y : Fin d → ℝ) : ℝ :=
  -0.5 / v * ((y - m) ⬝ᵥ (y - m))

end
end Bayesmix.Mixing
