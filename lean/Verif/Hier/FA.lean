import Verif.Hier.Conj
import Verif.Fault

/-!
# Factor-analytic hierarchies

`p` is the number of variables, `q` the number of factors, `n` the number of observations of the
cluster. The derived members of the state (`psi_inverse`, `cov_wood`, `cov_logdet`) are `none`
while they have never been assigned: they are then empty Eigen objects, whose use in a product
with objects of `p > 0` rows fails an Eigen assertion.

Random generators are arbitrary functions of the parameters they are called with (and of the
position of the call).
-/

namespace Bayesmix.Hierarchies

open Matrix

variable {p q n : ℕ}

/-- Derived members of `State::FA`, `src/hierarchies/likelihoods/states/fa_state.h` 37-39. -/
structure FADerived (p q : ℕ) where
  psiInv : Fin p → ℝ
  wood : Matrix (Fin q) (Fin p) ℝ
  logdet : ℝ

/-- `State::FA`, `fa_state.h` 34-39; `eta` has one row per observation. -/
structure FA (p q : ℕ) where
  mu : Fin p → ℝ
  psi : Fin p → ℝ
  eta : List (Fin q → ℝ)
  lambda : Matrix (Fin p) (Fin q) ℝ
  derived : Option (FADerived p q)

/-- Hyperparameters, `src/hierarchies/priors/hyperparams.h`. -/
structure FAHypers (p : ℕ) where
  mutilde : Fin p → ℝ
  beta : Fin p → ℝ
  phi : ℝ
  alpha0 : ℝ

/-- `bayesmix::compute_wood_chol_and_logdet`, `src/utils/distributions.cc` 99-118. `solve` with
the identity is the inverse of the (invertible) factor. -/
noncomputable def woodCholAndLogdet (psiInv : Fin p → ℝ) (lambda : Matrix (Fin p) (Fin q) ℝ) :
    Matrix (Fin q) (Fin p) ℝ × ℝ :=
  let tempChol := (lltL (lambdaᵀ * diagonal psiInv * lambda + 1))⁻¹
  let covLogdet := -2 * ∑ i, Real.log (tempChol i i) - ∑ j, Real.log (psiInv j)
  let wood := tempChol * lambdaᵀ * diagonal psiInv
  (wood, covLogdet)

/-- `bayesmix::multi_normal_lpdf_woodbury_chol`, `src/utils/distributions.cc` 72-84. -/
noncomputable def multiNormalLpdfWoodburyChol (datum mean : Fin p → ℝ) (psiInv : Fin p → ℝ)
    (wood : Matrix (Fin q) (Fin p) ℝ) (covLogdet : ℝ) : ℝ :=
  let v := datum - mean
  let ex := -0.5 * (v ⬝ᵥ (diagonal psiInv *ᵥ v) - (wood *ᵥ v) ⬝ᵥ (wood *ᵥ v))
  let base := -0.5 * covLogdet + -(1 / 2) * Real.log (2 * Real.pi) * p
  base + ex

/-- `bayesmix::multi_normal_lpdf_woodbury`, `src/utils/distributions.cc` 86-97. -/
noncomputable def multiNormalLpdfWoodbury (datum mean psi : Fin p → ℝ)
    (lambda : Matrix (Fin p) (Fin q) ℝ) : ℝ :=
  let psiInv := fun j => (psi j)⁻¹
  let w := woodCholAndLogdet psiInv lambda
  multiNormalLpdfWoodburyChol datum mean psiInv w.1 w.2

/-- The derived members computed from the current noise variances and loadings, as in
`fa_state.h` 52-53 and 58-63. -/
noncomputable def faDerive (psi : Fin p → ℝ) (lambda : Matrix (Fin p) (Fin q) ℝ) :
    FADerived p q :=
  let psiInv := fun j => (psi j)⁻¹
  let w := woodCholAndLogdet psiInv lambda
  ⟨psiInv, w.1, w.2⟩

/-- `FA::set_from_proto`, `fa_state.h` 43-54 (sizes fixed; see `Serial.lean` for the message). -/
noncomputable def faRead (mu psi : Fin p → ℝ) (eta : List (Fin q → ℝ))
    (lambda : Matrix (Fin p) (Fin q) ℝ) : FA p q :=
  ⟨mu, psi, eta, lambda, some (faDerive psi lambda)⟩

/-- `FAHierarchy::initialize_state`, `src/hierarchies/fa_hierarchy.h` 48-62. -/
noncomputable def faInitializeState (q : ℕ) (h : FAHypers p) : FA p q :=
  let psi := fun j => h.beta j / (h.alpha0 + 1)
  ⟨h.mutilde, psi, [], 0, some (faDerive psi 0)⟩

/-- Generators: `normal_rng`, `inv_gamma_rng`, `multi_normal_prec_chol_rng` (mean and the
precision whose factor is passed), `multi_normal_diag_rng` (mean and variances). -/
structure FARngs (p q : ℕ) where
  normal : ℕ → ℝ → ℝ → ℝ
  invGamma : ℕ → ℝ → ℝ → ℝ
  normalPrec : ℕ → (Fin q → ℝ) → Matrix (Fin q) (Fin q) ℝ → Fin q → ℝ
  normalDiag : (Fin p → ℝ) → (Fin p → ℝ) → Fin p → ℝ

/-- `FAPriorModel::sample`, `src/hierarchies/priors/fa_prior_model.cc` 30-54: the derived members
of the new state are not assigned. -/
noncomputable def faPriorSample (q : ℕ) (h : FAHypers p) (rng : FARngs p q) : FA p q where
  mu j := rng.normal (j * (q + 1)) (h.mutilde j) (Real.sqrt h.phi)
  psi j := rng.invGamma j h.alpha0 (h.beta j)
  eta := []
  lambda := Matrix.of (fun j i => rng.normal (j * (q + 1) + 1 + i) 0 1)
  derived := none

/-- `FAPriorModel::lpdf`, `fa_prior_model.cc` 3-28. -/
noncomputable def faPriorLpdf (h : FAHypers p) (mu psi : Fin p → ℝ)
    (lambda : Matrix (Fin p) (Fin q) ℝ) : ℝ :=
  ∑ j, (normalLpdf (mu j) (h.mutilde j) (Real.sqrt h.phi) +
    invGammaLpdf (psi j) h.alpha0 (h.beta j) + ∑ i, normalLpdf (lambda j i) 0 1)

/-- Use of a derived member. -/
def useDerived (st : FA p q) : Except Fault (FADerived p q) :=
  match st.derived with
  | some d => .ok d
  | none => .error .assertFail

/-- The precision of the scores handed to the generator, `src/hierarchies/updaters/fa_updater.cc`
37-40. -/
noncomputable def etaPrec (psiInv : Fin p → ℝ) (lambda : Matrix (Fin p) (Fin q) ℝ) :
    Matrix (Fin q) (Fin q) ℝ := 1 + lambdaᵀ * diagonal psiInv * lambda

/-- The mean of the score of datum `y`, `fa_updater.cc` 41-42 and 48. -/
noncomputable def etaMean (psiInv : Fin p → ℝ) (lambda : Matrix (Fin p) (Fin q) ℝ)
    (mu y : Fin p → ℝ) : Fin q → ℝ :=
  ((etaPrec psiInv lambda)⁻¹ * (lambdaᵀ * diagonal psiInv)) *ᵥ (y - mu)

/-- `FAUpdater::sample_eta`, `fa_updater.cc` 27-50. `y` are the rows of the cluster's data, in
the order of their indexes. -/
noncomputable def sampleEta (rng : FARngs p q) (y : Fin n → Fin p → ℝ) (st : FA p q) :
    Except Fault (FA p q × (Fin n → Fin q → ℝ)) := do
  let d ← useDerived st
  let eta : Fin n → Fin q → ℝ := fun i =>
    rng.normalPrec i (etaMean d.psiInv st.lambda st.mu (y i)) (etaPrec d.psiInv st.lambda)
  .ok ({ st with eta := List.ofFn eta }, eta)

/-- The variances handed to the generator of the mean, `fa_updater.cc` 60-63. -/
noncomputable def muVar (h : FAHypers p) (n : ℕ) (psiInv : Fin p → ℝ) : Fin p → ℝ :=
  fun j => (n * psiInv j + h.phi)⁻¹

/-- The mean handed to the generator of the mean, `fa_updater.cc` 64-67. -/
noncomputable def muMean (h : FAHypers p) (y : Fin n → Fin p → ℝ) (eta : Fin n → Fin q → ℝ)
    (psiInv : Fin p → ℝ) (lambda : Matrix (Fin p) (Fin q) ℝ) : Fin p → ℝ :=
  fun j => muVar h n psiInv j * (h.phi * h.mutilde j +
    psiInv j * ((∑ i, y i) j - (lambda *ᵥ (∑ i, eta i)) j))

/-- `FAUpdater::sample_mu`, `fa_updater.cc` 52-69. The statistic `data_sum` is the sum of the
cluster's data (C34). -/
noncomputable def sampleMu (rng : FARngs p q) (h : FAHypers p) (y : Fin n → Fin p → ℝ)
    (eta : Fin n → Fin q → ℝ) (st : FA p q) : Except Fault (FA p q) := do
  let d ← useDerived st
  .ok { st with mu := rng.normalDiag (muMean h y eta d.psiInv st.lambda) (muVar h n d.psiInv) }

/-- The shape handed to the generator of the variances, `fa_updater.cc` 122: `card / 2` is a
division of integers. -/
noncomputable def psiShape (h : FAHypers p) (n : ℕ) : ℝ := h.alpha0 + ((n / 2 : ℕ) : ℝ)

/-- The scale handed to the generator of the variances, `fa_updater.cc` 113-121 and 123. -/
noncomputable def psiScale (h : FAHypers p) (y : Fin n → Fin p → ℝ) (eta : Fin n → Fin q → ℝ)
    (mu : Fin p → ℝ) (lambda : Matrix (Fin p) (Fin q) ℝ) : Fin p → ℝ :=
  fun j => h.beta j + (∑ i, (y i j - mu j - lambda j ⬝ᵥ eta i) ^ 2) / 2

/-- `FAUpdater::sample_psi`, `fa_updater.cc` 102-125. `psi_inverse` is not updated. -/
noncomputable def samplePsi (rng : FARngs p q) (h : FAHypers p) (y : Fin n → Fin p → ℝ)
    (eta : Fin n → Fin q → ℝ) (st : FA p q) : FA p q :=
  { st with psi := fun j => rng.invGamma j (psiShape h n) (psiScale h y eta st.mu st.lambda j) }

/-- The precision of row `j` of the loadings, `fa_updater.cc` 81-86. -/
noncomputable def lambdaPrec (eta : Fin n → Fin q → ℝ) (psij : ℝ) : Matrix (Fin q) (Fin q) ℝ :=
  1 + psij⁻¹ • ((Matrix.of eta)ᵀ * Matrix.of eta)

/-- The mean of row `j` of the loadings, `fa_updater.cc` 87-97. -/
noncomputable def lambdaMean (y : Fin n → Fin p → ℝ) (eta : Fin n → Fin q → ℝ) (muj psij : ℝ)
    (j : Fin p) : Fin q → ℝ :=
  (lambdaPrec eta psij)⁻¹ *ᵥ ((Matrix.of eta)ᵀ *ᵥ (fun i => (y i j - muj) / psij))

/-- `FAUpdater::sample_lambda`, `fa_updater.cc` 71-100. The factors derived from the loadings are
not updated. -/
noncomputable def sampleLambda (rng : FARngs p q) (y : Fin n → Fin p → ℝ)
    (eta : Fin n → Fin q → ℝ) (st : FA p q) : FA p q :=
  { st with lambda := Matrix.of (fun j =>
      rng.normalPrec (n + j) (lambdaMean y eta (st.mu j) (st.psi j) j)
        (lambdaPrec eta (st.psi j))) }

/-- `FAUpdater::draw`, `fa_updater.cc` 5-25. -/
noncomputable def faDraw (rng : FARngs p q) (h : FAHypers p) (y : Fin n → Fin p → ℝ)
    (st : FA p q) : Except Fault (FA p q) :=
  if n = 0 then .ok (faPriorSample q h rng)
  else do
    let r ← sampleEta rng y st
    let st2 ← sampleMu rng h y r.2 r.1
    .ok (sampleLambda rng y r.2 (samplePsi rng h y r.2 st2))

/-- `FALikelihood::compute_lpdf`, `src/hierarchies/likelihoods/fa_likelihood.cc` 9-12. -/
noncomputable def faLpdf (st : FA p q) (y : Fin p → ℝ) : Except Fault ℝ := do
  let d ← useDerived st
  .ok (multiNormalLpdfWoodburyChol y st.mu d.psiInv d.wood d.logdet)

/-- `FAPriorModel::initialize_hypers` with fixed values, `fa_prior_model.cc` 90-122, for vectors
of equal sizes. `q` is the number of factors after its conversion to `unsigned int`. -/
noncomputable def faInit (mutilde beta : Fin p → ℝ) (phi alpha0 : ℝ) (q : ℕ) :
    Except Fault (FAHypers p) :=
  open Classical in
  if ∃ j, beta j ≤ 0 then .error .throw
  else if alpha0 ≤ 0 then .error .throw
  else if phi ≤ 0 then .error .throw
  else if q ≤ 0 then .error .throw
  else .ok ⟨mutilde, beta, phi, alpha0⟩

/-- `bayesmix::multi_normal_prec_chol_rng`, `src/utils/distributions.cc` 54-70, on the factor of
`prec`; `z` are the standard normal draws. -/
noncomputable def multiNormalPrecCholRng {d : ℕ} (mean : Fin d → ℝ)
    (prec : Matrix (Fin d) (Fin d) ℝ) (z : Fin d → ℝ) : Fin d → ℝ :=
  mean + (lltU prec)⁻¹ *ᵥ z

/-- `bayesmix::multi_normal_diag_rng`, `src/utils/distributions.cc` 42-52. -/
noncomputable def multiNormalDiagRng {d : ℕ} (mean cov : Fin d → ℝ) (z : Fin d → ℝ) : Fin d → ℝ :=
  (fun i => z i * Real.sqrt (cov i)) + mean

end Bayesmix.Hierarchies
