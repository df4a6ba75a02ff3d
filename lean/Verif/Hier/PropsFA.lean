import Mathlib.Tactic.Linarith
import Verif.FaultLemmas
import Verif.Hier.FALemmas

/-!
# Properties of the factor-analytic hierarchies

C59: evaluation through the Woodbury factors. C45: derived members of the state. C77: the
blocks of the Gibbs sampler.
-/

namespace Bayesmix.Hierarchies

open Matrix Real

variable {p q n : ℕ}

/-- Logarithm of the multivariate normal density with covariance matrix `S`. -/
noncomputable def logGauss (y m : Fin p → ℝ) (S : Matrix (Fin p) (Fin p) ℝ) : ℝ :=
  -(p / 2) * log (2 * π) - (1 / 2) * log S.det - (1 / 2) * ((y - m) ⬝ᵥ (S⁻¹ *ᵥ (y - m)))

/-! ## C59: Woodbury evaluation -/

/-- The covariance matrix is positive definite; its log determinant is the one computed through
the low-rank factor. -/
theorem c59_logdet (psi : Fin p → ℝ) (hpsi : ∀ j, 0 < psi j) (A : Matrix (Fin p) (Fin q) ℝ) :
    (diagonal psi + A * Aᵀ).PosDef ∧
    (woodCholAndLogdet (fun j => (psi j)⁻¹) A).2 = log (diagonal psi + A * Aᵀ).det :=
  ⟨cov_posDef psi hpsi A, wood_logdet psi hpsi A⟩

/-- The quadratic form computed through the low-rank factor is that of the inverse covariance. -/
theorem c59_quadratic_form (psi : Fin p → ℝ) (hpsi : ∀ j, 0 < psi j)
    (A : Matrix (Fin p) (Fin q) ℝ) (v : Fin p → ℝ) :
    v ⬝ᵥ (diagonal (fun j => (psi j)⁻¹) *ᵥ v) -
        ((woodCholAndLogdet (fun j => (psi j)⁻¹) A).1 *ᵥ v) ⬝ᵥ
          ((woodCholAndLogdet (fun j => (psi j)⁻¹) A).1 *ᵥ v) =
      v ⬝ᵥ ((diagonal psi + A * Aᵀ)⁻¹ *ᵥ v) := by
  rw [wood_quad _ (fun j => inv_pos.2 (hpsi j)), cov_quad psi hpsi]

/-- `multi_normal_lpdf_woodbury` is the log density with covariance `diag(psi) + A Aᵀ`. -/
theorem c59_lpdf (psi : Fin p → ℝ) (hpsi : ∀ j, 0 < psi j) (A : Matrix (Fin p) (Fin q) ℝ)
    (y m : Fin p → ℝ) :
    multiNormalLpdfWoodbury y m psi A = logGauss y m (diagonal psi + A * Aᵀ) := by
  have h1 := c59_quadratic_form psi hpsi A (y - m)
  have h2 := (c59_logdet psi hpsi A).2
  simp only [multiNormalLpdfWoodbury, multiNormalLpdfWoodburyChol, logGauss]
  rw [h1, h2]
  ring

/-- A covariance with a genuine low-rank part: `diag(1, 1) + 1 1ᵀ` has determinant 3. -/
example : (∀ j, (0 : ℝ) < (fun _ : Fin 2 => (1 : ℝ)) j) ∧
    (diagonal (fun _ : Fin 2 => (1 : ℝ)) +
      Matrix.of (fun (_ : Fin 2) (_ : Fin 1) => (1 : ℝ)) *
        (Matrix.of (fun (_ : Fin 2) (_ : Fin 1) => (1 : ℝ)))ᵀ).det = 3 := by
  refine ⟨fun _ => one_pos, ?_⟩
  rw [Matrix.det_fin_two]
  simp [Matrix.mul_apply, Matrix.diagonal]
  norm_num

/-! ## C45: derived members -/

/-- Operations which set the state of a factor-analytic likelihood. -/
inductive FAOp (p q : ℕ) where
  /-- `initialize_state` -/
  | init (h : FAHypers p)
  /-- `set_state_from_proto` -/
  | read (mu psi : Fin p → ℝ) (eta : List (Fin q → ℝ)) (lambda : Matrix (Fin p) (Fin q) ℝ)
  /-- `sample_prior` -/
  | prior (h : FAHypers p) (rng : FARngs p q)
  /-- `sample_full_cond` with the data `y` in the cluster -/
  | draw (h : FAHypers p) (rng : FARngs p q) (n : ℕ) (y : Fin n → Fin p → ℝ)

/-- One of the operations, fa_hierarchy.h and fa_updater.cc. -/
noncomputable def faStep (st : FA p q) : FAOp p q → Except Fault (FA p q)
  | .init h => .ok (faInitializeState q h)
  | .read mu psi eta lambda => .ok (faRead mu psi eta lambda)
  | .prior h rng => .ok (faPriorSample q h rng)
  | .draw h rng _ y => faDraw rng h y st

/-- A sequence of operations; the first fault ends it. -/
noncomputable def faRun (st : FA p q) (ops : List (FAOp p q)) : Except Fault (FA p q) :=
  ops.foldlM faStep st

theorem faLpdf_of_derive {st : FA p q} {psi : Fin p → ℝ} {A : Matrix (Fin p) (Fin q) ℝ}
    (h : st.derived = some (faDerive psi A)) (hpsi : ∀ j, 0 < psi j) (y : Fin p → ℝ) :
    faLpdf st y = .ok (logGauss y st.mu (diagonal psi + A * Aᵀ)) := by
  unfold faLpdf useDerived
  rw [h]
  show Except.ok (multiNormalLpdfWoodbury y st.mu psi A) = _
  rw [c59_lpdf psi hpsi]

/-- What holds: directly after a state was initialised or read, whatever came before, the
likelihood is the density with the current mean, noise and loadings. -/
theorem c45_in_sync_partial (st st' : FA p q) (ops : List (FAOp p q)) (op : FAOp p q)
    (hop : (∃ h, op = .init h) ∨ ∃ mu psi eta A, op = .read mu psi eta A)
    (hrun : faRun st (ops ++ [op]) = .ok st') (hpos : ∀ j, 0 < st'.psi j) (y : Fin p → ℝ) :
    faLpdf st' y = .ok (logGauss y st'.mu (diagonal st'.psi + st'.lambda * st'.lambdaᵀ)) := by
  unfold faRun at hrun
  rw [List.foldlM_append] at hrun
  cases h1 : List.foldlM faStep st ops with
  | error e => rw [h1, error_bind] at hrun; cases hrun
  | ok s =>
    rw [h1, ok_bind] at hrun
    rcases hop with ⟨h, rfl⟩ | ⟨mu, psi, eta, A, rfl⟩
    · have h2 : Except.ok (faInitializeState q h) = (Except.ok st' : Except Fault _) := hrun
      have h3 := Except.ok.inj h2
      subst h3
      exact faLpdf_of_derive rfl hpos y
    · have h2 : Except.ok (faRead mu psi eta A) = (Except.ok st' : Except Fault _) := hrun
      have h3 := Except.ok.inj h2
      subst h3
      exact faLpdf_of_derive rfl hpos y

example : ∃ st : FA 2 1, faRun (faPriorSample 1 ⟨0, 1, 1, 1⟩ ⟨fun _ _ _ => 1, fun _ _ _ => 1,
      fun _ _ _ => 0, fun _ _ => 0⟩)
      [.init ⟨0, 1, 1, 1⟩, .read 1 (fun _ => 2) [] (Matrix.of fun _ _ => 1)] = .ok st ∧ (∀ j, 0 < st.psi j) ∧
    st.lambda ≠ 0 := by
  refine ⟨faRead 1 (fun _ => 2) [] (Matrix.of fun _ _ => 1), rfl, fun j => two_pos, ?_⟩
  intro h
  have := congrFun (congrFun h 0) 0
  simp [faRead] at this

/-- The state of a freshly initialised cluster, for accepted hyperparameters: independent
coordinates at the prior means with positive variances. -/
theorem c45_initial_state_partial (mutilde beta : Fin p → ℝ) (phi alpha0 : ℝ) (h : FAHypers p)
    (hin : faInit mutilde beta phi alpha0 q = .ok h) (y : Fin p → ℝ) :
    (∀ j, 0 < (faInitializeState q h).psi j) ∧
    faLpdf (faInitializeState q h) y =
      .ok (logGauss y mutilde (diagonal (fun j => beta j / (alpha0 + 1)))) := by
  unfold faInit at hin
  (repeat' split at hin) <;> cases hin
  rename_i h1 h2 h3 h4
  push Not at h1 h2
  have hpos : ∀ j, 0 < beta j / (alpha0 + 1) := fun j => div_pos (h1 j) (by linarith)
  refine ⟨hpos, ?_⟩
  rw [faLpdf_of_derive (psi := fun j => beta j / (alpha0 + 1)) (A := 0) rfl hpos y]
  simp [faInitializeState]

example : ∃ h : FAHypers 2, faInit (fun _ => 1) (fun _ => 3) 2 4 1 = .ok h := by
  refine ⟨⟨fun _ => 1, fun _ => 3, 2, 4⟩, ?_⟩
  unfold faInit
  norm_num

/-- A draw with data keeps the derived members of the state it started from. -/
theorem faDraw_derived {rng : FARngs p q} {h : FAHypers p} {y : Fin n → Fin p → ℝ} {st st' : FA p q}
    (hn : 0 < n) (hd : faDraw rng h y st = .ok st') : st'.derived = st.derived := by
  unfold faDraw at hd
  rw [if_neg (by omega)] at hd
  cases hs : st.derived with
  | none =>
    unfold sampleEta useDerived at hd
    rw [hs] at hd
    cases hd
  | some d =>
    unfold sampleEta useDerived at hd
    rw [hs] at hd
    simp only [ok_bind] at hd
    unfold sampleMu useDerived at hd
    simp only [hs, ok_bind] at hd
    have := Except.ok.inj hd
    rw [← this]
    simp [sampleLambda, samplePsi, hs]

theorem faDraw_ok {rng : FARngs p q} {h : FAHypers p} {y : Fin n → Fin p → ℝ} {st : FA p q}
    {d : FADerived p q} (hs : st.derived = some d) : ∃ st', faDraw rng h y st = .ok st' := by
  unfold faDraw
  split
  · exact ⟨_, rfl⟩
  · unfold sampleEta useDerived
    rw [hs]
    simp only [ok_bind]
    unfold sampleMu useDerived
    simp only [hs, ok_bind]
    exact ⟨_, rfl⟩

/-- Where it fails, exactly (1): after a state was read and any number of draws with data, the
likelihood uses the current mean with the noise and the loadings that were READ. -/
theorem c45_stale_after_draws (mu psi : Fin p → ℝ) (eta : List (Fin q → ℝ))
    (A : Matrix (Fin p) (Fin q) ℝ) (hpsi : ∀ j, 0 < psi j) (st : FA p q)
    (draws : List (FAOp p q))
    (hdraws : ∀ op ∈ draws, ∃ h rng, ∃ n, ∃ y : Fin n → Fin p → ℝ, 0 < n ∧ op = .draw h rng n y) :
    ∃ st', faRun st (.read mu psi eta A :: draws) = .ok st' ∧
      ∀ y, faLpdf st' y = .ok (logGauss y st'.mu (diagonal psi + A * Aᵀ)) := by
  have key : ∀ (draws : List (FAOp p q)) (s : FA p q),
      s.derived = some (faDerive psi A) →
      (∀ op ∈ draws, ∃ h rng, ∃ n, ∃ y : Fin n → Fin p → ℝ, 0 < n ∧ op = .draw h rng n y) →
      ∃ st', faRun s draws = .ok st' ∧ st'.derived = some (faDerive psi A) := by
    intro draws
    induction draws with
    | nil => exact fun s hs _ => ⟨s, rfl, hs⟩
    | cons op ops ih =>
      intro s hs hall
      obtain ⟨h, rng, n, y, hn, rfl⟩ := hall op (by simp)
      obtain ⟨s', hs'⟩ := faDraw_ok (rng := rng) (h := h) (y := y) hs
      have hd : s'.derived = some (faDerive psi A) := by rw [faDraw_derived hn hs', hs]
      obtain ⟨st', h1, h2⟩ := ih s' hd (fun o ho => hall o (by simp [ho]))
      refine ⟨st', ?_, h2⟩
      unfold faRun at h1 ⊢
      rw [List.foldlM_cons]
      show (faDraw rng h y s >>= fun s' => List.foldlM faStep s' ops) = _
      rw [hs', ok_bind, h1]
  obtain ⟨st', h1, h2⟩ := key draws (faRead mu psi eta A) rfl hdraws
  refine ⟨st', ?_, fun y => faLpdf_of_derive h2 hpsi y⟩
  unfold faRun at h1 ⊢
  rw [List.foldlM_cons]
  show (Except.ok (faRead mu psi eta A) >>= fun s' => List.foldlM faStep s' draws) = _
  rw [ok_bind, h1]

/-- Where it fails, exactly (2): after the state was drawn from the prior (by `sample_prior` or
by the full conditional of an empty cluster), evaluating the likelihood and drawing with data fail
an assertion. -/
theorem c45_prior_draw_unusable (st : FA p q) (h : FAHypers p) (rng : FARngs p q) (op : FAOp p q)
    (hop : op = .prior h rng ∨ ∃ y, op = .draw h rng 0 y) :
    ∃ st', faRun st [op] = .ok st' ∧ (∀ y, faLpdf st' y = .error .assertFail) ∧
      ∀ (h' : FAHypers p) (rng' : FARngs p q) (n : ℕ) (y : Fin n → Fin p → ℝ), 0 < n →
        faDraw rng' h' y st' = .error .assertFail := by
  refine ⟨faPriorSample q h rng, ?_, fun y => rfl, ?_⟩
  · rcases hop with rfl | ⟨y, rfl⟩ <;> rfl
  · intro h' rng' n y hn
    unfold faDraw
    rw [if_neg (by omega)]
    rfl

/-- C45: two variables, one factor; a state read and then one draw with three observations, and a draw
from the prior. -/
example (st : FA 2 1) (h : FAHypers 2) (rng : FARngs 2 1) (y : Fin 3 → Fin 2 → ℝ) :
    (∃ st', faRun st [.read 0 (fun _ => 2) [] (Matrix.of fun _ _ => 1), .draw h rng 3 y] = .ok st' ∧
      ∀ y, faLpdf st' y = .ok (logGauss y st'.mu (diagonal (fun _ => 2) +
        (Matrix.of fun _ _ => 1 : Matrix (Fin 2) (Fin 1) ℝ) * (Matrix.of fun _ _ => 1 : Matrix (Fin 2) (Fin 1) ℝ)ᵀ))) ∧
    ∃ st', faRun st [.prior h rng] = .ok st' ∧ ∀ y, faLpdf st' y = .error .assertFail := by
  refine ⟨c45_stale_after_draws 0 (fun _ => 2) [] _ (fun _ => two_pos) st [.draw h rng 3 y] ?_, ?_⟩
  · intro op hop
    rw [List.mem_singleton] at hop
    exact ⟨h, rng, 3, y, by omega, hop⟩
  · obtain ⟨st', h1, h2, -⟩ := c45_prior_draw_unusable st h rng _ (Or.inl rfl)
    exact ⟨st', h1, h2⟩

/-- The property as stated fails: two factors, one variable, one draw with one datum. -/
theorem c45_in_sync_violated :
    ¬ ∀ (p q : ℕ) (st st' : FA p q) (ops : List (FAOp p q)), faRun st ops = .ok st' →
      (∀ j, 0 < st.psi j) → (∀ j, 0 < st'.psi j) → ∀ d, st'.derived = some d →
      ∀ j, d.psiInv j = (st'.psi j)⁻¹ := by
  intro hall
  obtain ⟨rng, hrng⟩ : ∃ rng : FARngs 1 1, rng = ⟨fun _ _ _ => 0, fun _ _ _ => 2,
    fun _ _ _ => 0, fun _ _ => 0⟩ := ⟨_, rfl⟩
  obtain ⟨st, hst⟩ : ∃ st : FA 1 1, st = faRead 0 (fun _ => 1) [] 0 := ⟨_, rfl⟩
  obtain ⟨h, _⟩ : ∃ h : FAHypers 1, h = ⟨0, fun _ => 1, 1, 1⟩ := ⟨_, rfl⟩
  have hd0 : st.derived = some (faDerive (fun _ => 1) 0) := by rw [hst]; rfl
  obtain ⟨st', hs'⟩ := faDraw_ok (rng := rng) (h := h) (y := fun (_ : Fin 1) (_ : Fin 1) => (0:ℝ)) hd0
  have hd : st'.derived = some (faDerive (fun _ => 1) 0) := by
    rw [faDraw_derived (by norm_num) hs', hd0]
  have hpsi : st'.psi = fun _ => 2 := by
    unfold faDraw at hs'
    rw [if_neg (by norm_num)] at hs'
    unfold sampleEta useDerived at hs'
    rw [hd0] at hs'
    simp only [ok_bind] at hs'
    unfold sampleMu useDerived at hs'
    simp only [hd0, ok_bind] at hs'
    have := Except.ok.inj hs'
    rw [← this, hrng]
    rfl
  have := hall 1 1 st st' [.draw h rng 1 (fun (_ : Fin 1) (_ : Fin 1) => (0:ℝ))]
    (by
      show (faDraw rng h _ st >>= fun s => pure s) = _
      rw [hs']; rfl)
    (by rw [hst]; intro j; exact one_pos) (by rw [hpsi]; intro j; exact two_pos) _ hd 0
  rw [hpsi] at this
  norm_num [faDerive] at this

/-! ## C77: blocks of the Gibbs sampler -/

/-- Logarithm of the joint density of data, scores, means, noise variances and loadings:
`y_ij ~ N(mu_j + (A eta_i)_j, psi_j)`, `eta_ik ~ N(0,1)`, `mu_j ~ N(mutilde_j, phi)`,
`psi_j ~ IG(alpha0, beta_j)`, `A_jk ~ N(0,1)`. -/
noncomputable def faLogJoint (h : FAHypers p) (y : Fin n → Fin p → ℝ) (eta : Fin n → Fin q → ℝ)
    (mu psi : Fin p → ℝ) (A : Matrix (Fin p) (Fin q) ℝ) : ℝ :=
  (∑ i, ∑ j, normalLpdf (y i j) (mu j + ∑ k, A j k * eta i k) (sqrt (psi j))) +
  (∑ i, ∑ k, normalLpdf (eta i k) 0 1) +
  (∑ j, normalLpdf (mu j) (h.mutilde j) (sqrt h.phi)) +
  (∑ j, invGammaLpdf (psi j) h.alpha0 (h.beta j)) +
  (∑ j, ∑ k, normalLpdf (A j k) 0 1)

/-- Scores: the joint density is the marginal density of the data (the one evaluated by the
likelihood) times the normal density with the mean and precision handed to the generator. -/
theorem c77_scores (h : FAHypers p) (y : Fin n → Fin p → ℝ) (eta : Fin n → Fin q → ℝ)
    (mu psi : Fin p → ℝ) (hpsi : ∀ j, 0 < psi j) (A : Matrix (Fin p) (Fin q) ℝ) :
    faLogJoint h y eta mu psi A =
      (∑ i, logGauss (y i) mu (diagonal psi + A * Aᵀ)) + faPriorLpdf h mu psi A +
      ∑ i, stanMultiNormalPrecLpdf (eta i) (etaMean (fun j => (psi j)⁻¹) A mu (y i))
        (etaPrec (fun j => (psi j)⁻¹) A) := by
  have e1 : ∀ i, (∑ j, normalLpdf (y i j) (mu j + ∑ k, A j k * eta i k) (sqrt (psi j))) +
      (∑ k, normalLpdf (eta i k) 0 1) = logGauss (y i) mu (diagonal psi + A * Aᵀ) +
      stanMultiNormalPrecLpdf (eta i) (etaMean (fun j => (psi j)⁻¹) A mu (y i))
        (etaPrec (fun j => (psi j)⁻¹) A) := by
    intro i
    have hm : etaMean (fun j => (psi j)⁻¹) A mu (y i) =
        (1 + Aᵀ * diagonal (fun j => (psi j)⁻¹) * A)⁻¹ *ᵥ
          ((Aᵀ * diagonal (fun j => (psi j)⁻¹)) *ᵥ (y i - mu)) := by
      unfold etaMean etaPrec
      rw [mulVec_mulVec]
    have hs := regression_split A psi hpsi (y i) mu (eta i)
    rw [← hm] at hs
    refine Eq.trans hs ?_
    rw [hm]
    unfold logGauss etaPrec
    rw [cov_quad psi hpsi, cov_logdet psi hpsi]
    ring
  have e2 : faPriorLpdf h mu psi A = (∑ j, normalLpdf (mu j) (h.mutilde j) (sqrt h.phi)) +
      (∑ j, invGammaLpdf (psi j) h.alpha0 (h.beta j)) + ∑ j, ∑ k, normalLpdf (A j k) 0 1 := by
    unfold faPriorLpdf
    rw [Finset.sum_add_distrib, Finset.sum_add_distrib]
  have e3 : (∑ i, ∑ j, normalLpdf (y i j) (mu j + ∑ k, A j k * eta i k) (sqrt (psi j))) +
      (∑ i, ∑ k, normalLpdf (eta i k) 0 1) =
      ∑ i, (logGauss (y i) mu (diagonal psi + A * Aᵀ) +
        stanMultiNormalPrecLpdf (eta i) (etaMean (fun j => (psi j)⁻¹) A mu (y i))
          (etaPrec (fun j => (psi j)⁻¹) A)) := by
    rw [← Finset.sum_add_distrib]
    exact Finset.sum_congr rfl (fun i _ => e1 i)
  unfold faLogJoint
  rw [e3, e2, Finset.sum_add_distrib]
  ring

/-- Loadings: the joint density as a function of the loadings is, up to a factor that does not
depend on them, the product over the rows of the normal densities with the means and precisions
handed to the generator. -/
theorem c77_loadings (h : FAHypers p) (y : Fin n → Fin p → ℝ) (eta : Fin n → Fin q → ℝ)
    (mu psi : Fin p → ℝ) (hpsi : ∀ j, 0 < psi j) (A A' : Matrix (Fin p) (Fin q) ℝ) :
    faLogJoint h y eta mu psi A - faLogJoint h y eta mu psi A' =
      (∑ j, stanMultiNormalPrecLpdf (A j) (lambdaMean y eta (mu j) (psi j) j)
        (lambdaPrec eta (psi j))) -
      ∑ j, stanMultiNormalPrecLpdf (A' j) (lambdaMean y eta (mu j) (psi j) j)
        (lambdaPrec eta (psi j)) := by
  have e0 : ∀ j, 1 + (Matrix.of eta)ᵀ * diagonal (fun _ : Fin n => (psi j)⁻¹) * Matrix.of eta =
      lambdaPrec eta (psi j) := by
    intro j
    unfold lambdaPrec
    rw [← Matrix.smul_one_eq_diagonal, Matrix.mul_smul, Matrix.mul_one, Matrix.smul_mul]
  have key : ∀ B : Matrix (Fin p) (Fin q) ℝ, ∀ j,
      (∑ i, normalLpdf (y i j) (mu j + ∑ k, B j k * eta i k) (sqrt (psi j))) +
        ∑ k, normalLpdf (B j k) 0 1 =
      (-(n / 2) * log (2 * π) - (1 / 2) * (∑ _i : Fin n, log (psi j))
        - (1 / 2) * log (lambdaPrec eta (psi j)).det
        - (1 / 2) * (((fun i => y i j) - fun _ => mu j) ⬝ᵥ
            (diagonal (fun _ : Fin n => (psi j)⁻¹) *ᵥ ((fun i => y i j) - fun _ => mu j)) -
          (((Matrix.of eta)ᵀ * diagonal (fun _ : Fin n => (psi j)⁻¹)) *ᵥ
              ((fun i => y i j) - fun _ => mu j)) ⬝ᵥ
            ((lambdaPrec eta (psi j))⁻¹ *ᵥ
              (((Matrix.of eta)ᵀ * diagonal (fun _ : Fin n => (psi j)⁻¹)) *ᵥ
                ((fun i => y i j) - fun _ => mu j))))) +
      stanMultiNormalPrecLpdf (B j) (lambdaMean y eta (mu j) (psi j) j)
        (lambdaPrec eta (psi j)) := by
    intro B j
    have h1 := regression_split (Matrix.of eta) (fun _ => psi j) (fun _ => hpsi j)
      (fun i => y i j) (fun _ => mu j) (B j)
    rw [e0] at h1
    have h2 : (lambdaPrec eta (psi j))⁻¹ *ᵥ
        (((Matrix.of eta)ᵀ * diagonal (fun _ : Fin n => (psi j)⁻¹)) *ᵥ
          ((fun i => y i j) - fun _ => mu j)) = lambdaMean y eta (mu j) (psi j) j := by
      unfold lambdaMean
      rw [← mulVec_mulVec]
      congr 2
      funext i
      rw [mulVec_diagonal]
      simp only [Pi.sub_apply]
      ring
    rw [h2] at h1 ⊢
    rw [← h1]
    congr 1
    apply Finset.sum_congr rfl
    intro i _
    simp only [mulVec, dotProduct, Matrix.of_apply]
    congr 2
    exact Finset.sum_congr rfl (fun k _ => mul_comm _ _)
  have sums : ∀ B : Matrix (Fin p) (Fin q) ℝ, faLogJoint h y eta mu psi B =
      (∑ j, ((∑ i, normalLpdf (y i j) (mu j + ∑ k, B j k * eta i k) (sqrt (psi j))) +
        ∑ k, normalLpdf (B j k) 0 1)) + ((∑ i, ∑ k, normalLpdf (eta i k) 0 1) +
      (∑ j, normalLpdf (mu j) (h.mutilde j) (sqrt h.phi)) +
      (∑ j, invGammaLpdf (psi j) h.alpha0 (h.beta j))) := by
    intro B
    unfold faLogJoint
    rw [Finset.sum_add_distrib, Finset.sum_comm (f := fun j i => normalLpdf (y i j) _ _)]
    ring
  rw [sums A, sums A', Finset.sum_congr rfl (fun j _ => key A j),
    Finset.sum_congr rfl (fun j _ => key A' j), Finset.sum_add_distrib, Finset.sum_add_distrib]
  ring

/-- One coordinate of the joint density as a function of the mean. -/
theorem mu_coord (y : Fin n → ℝ) (e : Fin n → ℝ) (w m0 phi x x' : ℝ) (hw : 0 < w) (hphi : 0 < phi) :
    ((∑ i, normalLpdf (y i) (x + e i) (sqrt w)) + normalLpdf x m0 (sqrt phi)) -
      ((∑ i, normalLpdf (y i) (x' + e i) (sqrt w)) + normalLpdf x' m0 (sqrt phi)) =
    -(1 / 2) * ((n * w⁻¹ + phi⁻¹) * (x ^ 2 - x' ^ 2) -
      2 * (phi⁻¹ * m0 + w⁻¹ * ((∑ i, y i) - ∑ i, e i)) * (x - x')) := by
  have e1 : ∀ x, (∑ i, normalLpdf (y i) (x + e i) (sqrt w)) =
      (∑ _i : Fin n, (-(1 / 2) * log 2 - (1 / 2) * log π - (1 / 2) * log w)) -
      ((∑ i, (y i - e i) ^ 2) - 2 * x * ((∑ i, y i) - ∑ i, e i) + n * x ^ 2) / (2 * w) := by
    intro x
    have h1 : (∑ i, (y i - e i) ^ 2) - 2 * x * ((∑ i, y i) - ∑ i, e i) + n * x ^ 2 =
        ∑ i, (y i - (x + e i)) ^ 2 := by
      have : ∀ i, (y i - (x + e i)) ^ 2 = (y i - e i) ^ 2 - 2 * x * (y i - e i) + x ^ 2 := by
        intro i; ring
      simp only [this, Finset.sum_add_distrib, Finset.sum_sub_distrib, ← Finset.mul_sum,
        Finset.sum_const, Finset.card_univ, Fintype.card_fin, nsmul_eq_mul]
    rw [h1, Finset.sum_div, ← Finset.sum_sub_distrib]
    exact Finset.sum_congr rfl (fun i _ => normalLpdf_sqrt _ _ _ hw)
  rw [e1 x, e1 x', normalLpdf_sqrt _ _ _ hphi, normalLpdf_sqrt _ _ _ hphi]
  field_simp
  ring

theorem mu_diff (h : FAHypers p) (hphi : 0 < h.phi) (y : Fin n → Fin p → ℝ)
    (eta : Fin n → Fin q → ℝ) (mu mu' psi : Fin p → ℝ) (hpsi : ∀ j, 0 < psi j)
    (A : Matrix (Fin p) (Fin q) ℝ) :
    faLogJoint h y eta mu psi A - faLogJoint h y eta mu' psi A =
      ∑ j, -(1 / 2) * ((n * (psi j)⁻¹ + h.phi⁻¹) * (mu j ^ 2 - mu' j ^ 2) -
        2 * (h.phi⁻¹ * h.mutilde j + (psi j)⁻¹ * ((∑ i, y i) j - (A *ᵥ (∑ i, eta i)) j)) *
          (mu j - mu' j)) := by
  have sums : ∀ m : Fin p → ℝ, faLogJoint h y eta m psi A =
      (∑ j, ((∑ i, normalLpdf (y i j) (m j + ∑ k, A j k * eta i k) (sqrt (psi j))) +
        normalLpdf (m j) (h.mutilde j) (sqrt h.phi))) + ((∑ i, ∑ k, normalLpdf (eta i k) 0 1) +
      (∑ j, invGammaLpdf (psi j) h.alpha0 (h.beta j)) + ∑ j, ∑ k, normalLpdf (A j k) 0 1) := by
    intro m
    unfold faLogJoint
    rw [Finset.sum_add_distrib, Finset.sum_comm (f := fun j i => normalLpdf (y i j) _ _)]
    ring
  rw [sums mu, sums mu', add_sub_add_right_eq_sub, ← Finset.sum_sub_distrib]
  apply Finset.sum_congr rfl
  intro j _
  rw [mu_coord (fun i => y i j) (fun i => ∑ k, A j k * eta i k) (psi j) (h.mutilde j) h.phi _ _
    (hpsi j) hphi]
  have e2 : (A *ᵥ (∑ i, eta i)) j = ∑ i, ∑ k, A j k * eta i k := by
    rw [Finset.sum_comm]
    simp only [mulVec, dotProduct, Finset.sum_apply, Finset.mul_sum]
  rw [e2, Finset.sum_apply]

theorem normal_diff (x x' m v : ℝ) (hv : 0 < v) :
    normalLpdf x m (sqrt v) - normalLpdf x' m (sqrt v) =
      -(1 / 2) * (v⁻¹ * (x ^ 2 - x' ^ 2) - 2 * (v⁻¹ * m) * (x - x')) := by
  rw [normalLpdf_sqrt _ _ _ hv, normalLpdf_sqrt _ _ _ hv]
  field_simp
  ring

/-- Means: the parameters handed to the generator are those of the full conditional exactly when
the prior variance `phi` is one: the updater uses `phi` as a precision, whereas the prior (its
density and its generator) uses it as a variance. -/
theorem c77_means_partial (h : FAHypers p) (hp : 0 < p) (hphi : 0 < h.phi)
    (y : Fin n → Fin p → ℝ) (eta : Fin n → Fin q → ℝ) (psi : Fin p → ℝ) (hpsi : ∀ j, 0 < psi j)
    (A : Matrix (Fin p) (Fin q) ℝ) :
    (∀ mu mu' : Fin p → ℝ, faLogJoint h y eta mu psi A - faLogJoint h y eta mu' psi A =
      (∑ j, normalLpdf (mu j) (muMean h y eta (fun j => (psi j)⁻¹) A j)
        (sqrt (muVar h n (fun j => (psi j)⁻¹) j))) -
      ∑ j, normalLpdf (mu' j) (muMean h y eta (fun j => (psi j)⁻¹) A j)
        (sqrt (muVar h n (fun j => (psi j)⁻¹) j))) ↔ h.phi = 1 := by
  have hv : ∀ j, 0 < muVar h n (fun j => (psi j)⁻¹) j := by
    intro j
    unfold muVar
    have := hpsi j
    positivity
  have hm : ∀ j, (muVar h n (fun j => (psi j)⁻¹) j)⁻¹ *
      muMean h y eta (fun j => (psi j)⁻¹) A j = h.phi * h.mutilde j +
        (psi j)⁻¹ * ((∑ i, y i) j - (A *ᵥ (∑ i, eta i)) j) := by
    intro j
    unfold muMean
    rw [inv_mul_cancel_left₀ (hv j).ne']
  have hvi : ∀ j, (muVar h n (fun j => (psi j)⁻¹) j)⁻¹ = n * (psi j)⁻¹ + h.phi := by
    intro j; unfold muVar; rw [inv_inv]
  have hr : ∀ mu mu' : Fin p → ℝ,
      (∑ j, normalLpdf (mu j) (muMean h y eta (fun j => (psi j)⁻¹) A j)
        (sqrt (muVar h n (fun j => (psi j)⁻¹) j))) -
      (∑ j, normalLpdf (mu' j) (muMean h y eta (fun j => (psi j)⁻¹) A j)
        (sqrt (muVar h n (fun j => (psi j)⁻¹) j))) =
      ∑ j, -(1 / 2) * ((n * (psi j)⁻¹ + h.phi) * (mu j ^ 2 - mu' j ^ 2) -
        2 * (h.phi * h.mutilde j + (psi j)⁻¹ * ((∑ i, y i) j - (A *ᵥ (∑ i, eta i)) j)) *
          (mu j - mu' j)) := by
    intro mu mu'
    rw [← Finset.sum_sub_distrib]
    apply Finset.sum_congr rfl
    intro j _
    rw [normal_diff _ _ _ _ (hv j), hm, hvi]
  constructor
  · intro hall
    have hS : ∀ c : ℝ, (∑ j : Fin p, -(1 / 2) * ((h.phi⁻¹ - h.phi) * c ^ 2 -
        2 * ((h.phi⁻¹ - h.phi) * h.mutilde j) * c)) = 0 := by
      intro c
      have h1 := hall (fun _ => c) (fun _ => 0)
      rw [mu_diff h hphi y eta _ _ psi hpsi A, hr] at h1
      rw [← sub_eq_zero, ← Finset.sum_sub_distrib] at h1
      rw [← h1]
      exact Finset.sum_congr rfl (fun j _ => by ring)
    have h1 := hS 1
    have h2 := hS (-1)
    have h3 : (∑ j : Fin p, -(h.phi⁻¹ - h.phi)) = 0 := by
      have := congrArg₂ (· + ·) h1 h2
      simp only [← Finset.sum_add_distrib, add_zero] at this
      rw [← this]
      exact Finset.sum_congr rfl (fun j _ => by ring)
    rw [Finset.sum_const, Finset.card_univ, Fintype.card_fin, nsmul_eq_mul] at h3
    have hp' : (p : ℝ) ≠ 0 := by exact_mod_cast hp.ne'
    have h4 : h.phi⁻¹ = h.phi := by
      rcases mul_eq_zero.1 h3 with h5 | h5
      · exact absurd h5 hp'
      · linarith
    have h5 : h.phi * h.phi = 1 := by
      nth_rewrite 1 [← h4]
      exact inv_mul_cancel₀ hphi.ne'
    nlinarith
  · intro hone mu mu'
    rw [mu_diff h hphi y eta _ _ psi hpsi A, hr, hone, inv_one]

/-- The claim for the means fails for the prior variance 2. -/
theorem c77_means_violated :
    ¬ ∀ (h : FAHypers 1), 0 < h.phi → ∀ mu mu' : Fin 1 → ℝ,
      faLogJoint h (fun (_ : Fin 1) _ => 0) (fun (_ : Fin 1) (_ : Fin 1) => 0) mu 1 0 -
        faLogJoint h (fun (_ : Fin 1) _ => 0) (fun (_ : Fin 1) (_ : Fin 1) => 0) mu' 1 0 =
      (∑ j, normalLpdf (mu j) (muMean h (fun (_ : Fin 1) _ => 0)
          (fun (_ : Fin 1) (_ : Fin 1) => 0) (fun _ => 1) 0 j) (sqrt (muVar h 1 (fun _ => 1) j))) -
      ∑ j, normalLpdf (mu' j) (muMean h (fun (_ : Fin 1) _ => 0)
          (fun (_ : Fin 1) (_ : Fin 1) => 0) (fun _ => 1) 0 j) (sqrt (muVar h 1 (fun _ => 1) j)) := by
  intro hall
  have h1 := c77_means_partial (n := 1) (q := 1) ⟨0, fun _ => 1, 2, 1⟩ one_pos two_pos
    (fun (_ : Fin 1) (_ : Fin 1) => 0) (fun (_ : Fin 1) (_ : Fin 1) => 0) 1 (fun _ => one_pos) 0
  have h2 := h1.1 (by
    intro mu mu'
    have := hall ⟨0, fun _ => 1, 2, 1⟩ two_pos mu mu'
    simpa using this)
  norm_num at h2

/-- Noise variances: the parameters handed to the generator are those of the full conditional
exactly when the number of data is even: half of an odd cardinality is rounded down. -/
theorem c77_noise_partial (h : FAHypers p) (hp : 0 < p) (y : Fin n → Fin p → ℝ)
    (eta : Fin n → Fin q → ℝ) (mu : Fin p → ℝ) (A : Matrix (Fin p) (Fin q) ℝ) :
    (∀ psi psi' : Fin p → ℝ, (∀ j, 0 < psi j) → (∀ j, 0 < psi' j) →
      faLogJoint h y eta mu psi A - faLogJoint h y eta mu psi' A =
      (∑ j, invGammaLpdf (psi j) (psiShape h n) (psiScale h y eta mu A j)) -
      ∑ j, invGammaLpdf (psi' j) (psiShape h n) (psiScale h y eta mu A j)) ↔ Even n := by
  have sums : ∀ s : Fin p → ℝ, (∀ j, 0 < s j) → faLogJoint h y eta mu s A =
      (∑ j, (-(n / 2 + h.alpha0 + 1) * log (s j) - psiScale h y eta mu A j / s j)) +
      ((∑ _j : Fin p, n * (-(1 / 2) * log 2 - (1 / 2) * log π)) +
        (∑ j, (h.alpha0 * log (h.beta j) - log (Gamma h.alpha0))) +
        (∑ i, ∑ k, normalLpdf (eta i k) 0 1) +
        (∑ j, normalLpdf (mu j) (h.mutilde j) (sqrt h.phi)) +
        ∑ j, ∑ k, normalLpdf (A j k) 0 1) := by
    intro s hs
    have e1 : ∀ j, (∑ i, normalLpdf (y i j) (mu j + ∑ k, A j k * eta i k) (sqrt (s j))) +
        invGammaLpdf (s j) h.alpha0 (h.beta j) =
        (-(n / 2 + h.alpha0 + 1) * log (s j) - psiScale h y eta mu A j / s j) +
        n * (-(1 / 2) * log 2 - (1 / 2) * log π) +
        (h.alpha0 * log (h.beta j) - log (Gamma h.alpha0)) := by
      intro j
      have e2 : (∑ i, normalLpdf (y i j) (mu j + ∑ k, A j k * eta i k) (sqrt (s j))) =
          n * (-(1 / 2) * log 2 - (1 / 2) * log π) - n * ((1 / 2) * log (s j)) -
          (∑ i, (y i j - mu j - A j ⬝ᵥ eta i) ^ 2) / (2 * s j) := by
        rw [Finset.sum_div, Finset.sum_congr rfl (fun i _ => normalLpdf_sqrt _ _ _ (hs j))]
        simp only [Finset.sum_sub_distrib, Finset.sum_const, Finset.card_univ, Fintype.card_fin,
          nsmul_eq_mul]
        have : ∀ i, y i j - (mu j + ∑ k, A j k * eta i k) = y i j - mu j - A j ⬝ᵥ eta i := by
          intro i; simp only [dotProduct]; ring
        simp only [this]
        ring
      rw [e2]
      unfold invGammaLpdf psiScale
      have := (hs j).ne'
      field_simp
      ring
    have e3 : (∑ j, (∑ i, normalLpdf (y i j) (mu j + ∑ k, A j k * eta i k) (sqrt (s j)))) +
        (∑ j, invGammaLpdf (s j) h.alpha0 (h.beta j)) =
        ∑ j, ((-(n / 2 + h.alpha0 + 1) * log (s j) - psiScale h y eta mu A j / s j) +
        n * (-(1 / 2) * log 2 - (1 / 2) * log π) +
        (h.alpha0 * log (h.beta j) - log (Gamma h.alpha0))) := by
      rw [← Finset.sum_add_distrib]
      exact Finset.sum_congr rfl (fun j _ => e1 j)
    unfold faLogJoint
    rw [Finset.sum_comm (f := fun i j => normalLpdf (y i j) _ _)]
    rw [Finset.sum_add_distrib, Finset.sum_add_distrib] at e3
    linarith
  have rhs : ∀ s s' : Fin p → ℝ,
      (∑ j, invGammaLpdf (s j) (psiShape h n) (psiScale h y eta mu A j)) -
      (∑ j, invGammaLpdf (s' j) (psiShape h n) (psiScale h y eta mu A j)) =
      (∑ j, (-(psiShape h n + 1) * log (s j) - psiScale h y eta mu A j / s j)) -
      ∑ j, (-(psiShape h n + 1) * log (s' j) - psiScale h y eta mu A j / s' j) := by
    intro s s'
    rw [← Finset.sum_sub_distrib, ← Finset.sum_sub_distrib]
    apply Finset.sum_congr rfl
    intro j _
    unfold invGammaLpdf
    ring
  have hdiv : psiShape h n = h.alpha0 + n / 2 ↔ Even n := by
    unfold psiShape
    rw [add_right_inj]
    constructor
    · intro hh
      have h2 : (2 * ((n / 2 : ℕ) : ℝ)) = n := by rw [hh]; ring
      have h3 : 2 * (n / 2) = n := by exact_mod_cast h2
      exact ⟨n / 2, by omega⟩
    · rintro ⟨k, rfl⟩
      have : (k + k) / 2 = k := by omega
      rw [this]
      push_cast
      ring
  rw [← hdiv]
  constructor
  · intro hall
    have h1 := hall (fun _ => exp 1) (fun _ => 1) (fun _ => exp_pos 1) (fun _ => one_pos)
    rw [sums _ (fun _ => exp_pos 1), sums _ (fun _ => one_pos), add_sub_add_right_eq_sub, rhs,
      ← Finset.sum_sub_distrib, ← Finset.sum_sub_distrib, ← sub_eq_zero,
      ← Finset.sum_sub_distrib] at h1
    have h2 : (∑ _j : Fin p, (psiShape h n - (h.alpha0 + n / 2))) = 0 := by
      rw [← h1]
      apply Finset.sum_congr rfl
      intro j _
      rw [log_exp, log_one]
      ring
    rw [Finset.sum_const, Finset.card_univ, Fintype.card_fin, nsmul_eq_mul] at h2
    have hp' : (p : ℝ) ≠ 0 := by exact_mod_cast hp.ne'
    rcases mul_eq_zero.1 h2 with h5 | h5
    · exact absurd h5 hp'
    · linarith
  · intro he s s' hs hs'
    rw [sums s hs, sums s' hs', add_sub_add_right_eq_sub, rhs, he]
    congr 1 <;> exact Finset.sum_congr rfl (fun j _ => by ring)

/-- The claim for the noise variances fails for a cluster with one datum. -/
theorem c77_noise_violated (h : FAHypers 1) (y : Fin 1 → Fin 1 → ℝ) (eta : Fin 1 → Fin 1 → ℝ)
    (mu : Fin 1 → ℝ) (A : Matrix (Fin 1) (Fin 1) ℝ) :
    ¬ ∀ psi psi' : Fin 1 → ℝ, (∀ j, 0 < psi j) → (∀ j, 0 < psi' j) →
      faLogJoint h y eta mu psi A - faLogJoint h y eta mu psi' A =
      (∑ j, invGammaLpdf (psi j) (psiShape h 1) (psiScale h y eta mu A j)) -
      ∑ j, invGammaLpdf (psi' j) (psiShape h 1) (psiScale h y eta mu A j) := by
  intro hall
  have := (c77_noise_partial h one_pos y eta mu A).1 hall
  exact absurd this (by decide)

/-- The draw hands these parameters to the generators: scores given the current mean, means given
the new scores, variances given new scores and means, loadings given everything new. -/
theorem c77_draw_order (rng : FARngs p q) (h : FAHypers p) (y : Fin n → Fin p → ℝ) (hn : 0 < n)
    (st : FA p q) (d : FADerived p q) (hd : st.derived = some d) :
    ∃ st', faDraw rng h y st = .ok st' ∧ ∃ eta : Fin n → Fin q → ℝ,
      st'.eta = List.ofFn eta ∧
      (∀ i, eta i = rng.normalPrec i (etaMean d.psiInv st.lambda st.mu (y i))
        (etaPrec d.psiInv st.lambda)) ∧
      st'.mu = rng.normalDiag (muMean h y eta d.psiInv st.lambda) (muVar h n d.psiInv) ∧
      (∀ j, st'.psi j = rng.invGamma j (psiShape h n) (psiScale h y eta st'.mu st.lambda j)) ∧
      ∀ j, st'.lambda j = rng.normalPrec (n + j) (lambdaMean y eta (st'.mu j) (st'.psi j) j)
        (lambdaPrec eta (st'.psi j)) := by
  unfold faDraw
  rw [if_neg (by omega)]
  unfold sampleEta useDerived
  rw [hd]
  simp only [ok_bind]
  unfold sampleMu useDerived
  simp only [hd, ok_bind]
  exact ⟨_, rfl, _, rfl, fun _ => rfl, rfl, fun _ => rfl, fun _ => rfl⟩

example : ∃ (st : FA 2 1) (d : FADerived 2 1), st.derived = some d ∧ (∀ j, 0 < st.psi j) ∧
    d.psiInv 0 = 1 / 2 := by
  refine ⟨faRead 1 (fun _ => 2) [] (Matrix.of fun _ _ => 1), _, rfl, fun j => two_pos, ?_⟩
  norm_num [faDerive]

end Bayesmix.Hierarchies
