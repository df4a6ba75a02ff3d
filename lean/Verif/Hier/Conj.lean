import Mathlib.LinearAlgebra.Matrix.NonsingularInverse
import Mathlib.LinearAlgebra.Matrix.Trace
import Verif.Hier.Like
import Verif.Hier.Chol

/-!
# Priors, posterior updates and marginals of the (semi)conjugate hierarchies

`src/hierarchies/updaters`, `src/hierarchies/priors`, `src/hierarchies/*_hierarchy.h`,
`src/utils/distributions.cc`. Doubles are reals. Random number generators are arbitrary
functions of their parameters. `stan::math::inverse_spd` and `llt().solve` are the exact
inverse; their checks for positive definiteness are not modelled here (see `Checks.lean` for
the validity checks of the library itself).
-/

namespace Bayesmix.Hierarchies

open Real Matrix

/-! ### Normal - Normal inverse Gamma -/

/-- `Hyperparams::NIG`, `src/hierarchies/priors/hyperparams.h` 8-10. -/
@[ext] structure NIG where
  mean : ℝ
  varScaling : ℝ
  shape : ℝ
  scale : ℝ

/-- `NIGPriorModel::lpdf`, `src/hierarchies/priors/nig_prior_model.cc` 78-85. -/
noncomputable def nigLpdf (h : NIG) (st : UniLS) : ℝ :=
  normalLpdf st.mean h.mean (sqrt (st.var / h.varScaling)) + invGammaLpdf st.var h.shape h.scale

/-- `NIGPriorModel::sample`, `src/hierarchies/priors/nig_prior_model.cc` 87-97: the variance
first, then the mean given the new variance. -/
noncomputable def nigSample (h : NIG) (invGammaRng normalRng : ℝ → ℝ → ℝ) : UniLS :=
  let var := invGammaRng h.shape h.scale
  ⟨normalRng h.mean (sqrt (var / h.varScaling)), var⟩

/-- `NNIGUpdater::compute_posterior_hypers`, `src/hierarchies/updaters/nnig_updater.cc` 6-42. -/
noncomputable def nnigPosterior (h : NIG) (card : ℤ) (s : UniNormStats) : NIG :=
  if card = 0 then h
  else
    let yBar := s.dataSum / (1.0 * card)
    let ss := s.dataSumSquares - card * yBar * yBar
    { mean := (h.varScaling * h.mean + s.dataSum) / (h.varScaling + card)
      varScaling := h.varScaling + card
      shape := h.shape + 0.5 * card
      scale := h.scale + 0.5 * ss +
        0.5 * h.varScaling * card * (yBar - h.mean) * (yBar - h.mean) / (card + h.varScaling) }

/-- `NNIGHierarchy::marg_lpdf`, `src/hierarchies/nnig_hierarchy.h` 59-66. -/
noncomputable def nnigMargLpdf (h : NIG) (y : ℝ) : ℝ :=
  let sigN := sqrt (h.scale * (h.varScaling + 1) / (h.shape * h.varScaling))
  studentTLpdf y (2 * h.shape) h.mean sigN

/-! ### Normal - independent Normal x inverse Gamma -/

/-- `Hyperparams::NxIG`, `src/hierarchies/priors/hyperparams.h` 12-14. -/
@[ext] structure NxIG where
  mean : ℝ
  var : ℝ
  shape : ℝ
  scale : ℝ

/-- `NxIGPriorModel::lpdf`, `src/hierarchies/priors/nxig_prior_model.cc` 25-31. -/
noncomputable def nxigLpdf (h : NxIG) (st : UniLS) : ℝ :=
  normalLpdf st.mean h.mean (sqrt h.var) + invGammaLpdf st.var h.shape h.scale

/-- `NxIGPriorModel::sample`, `src/hierarchies/priors/nxig_prior_model.cc` 33-42. -/
noncomputable def nxigSample (h : NxIG) (normalRng invGammaRng : ℝ → ℝ → ℝ) : UniLS :=
  ⟨normalRng h.mean (sqrt h.var), invGammaRng h.shape h.scale⟩

/-- `NNxIGUpdater::compute_posterior_hypers`, `src/hierarchies/updaters/nnxig_updater.cc` 6-41;
`st` is the state the likelihood holds when it is called. -/
noncomputable def nnxigPosterior (h : NxIG) (st : UniLS) (card : ℤ) (s : UniNormStats) : NxIG :=
  if card = 0 then h
  else
    let varY := s.dataSumSquares - 2 * st.mean * s.dataSum + card * st.mean * st.mean
    { mean := (h.var * s.dataSum + st.var * h.mean) / (card * h.var + st.var)
      var := (st.var * h.var) / (card * h.var + st.var)
      shape := h.shape + 0.5 * card
      scale := h.scale + 0.5 * varY }

/-- `SemiConjugateUpdater::draw` for this hierarchy,
`src/hierarchies/updaters/semi_conjugate_updater.h` 68-83, without a saved posterior: prior
draw for an empty cluster, otherwise a draw with the posterior hyperparameters. -/
noncomputable def nnxigDraw (h : NxIG) (c : Cluster UniNormStats UniLS)
    (normalRng invGammaRng : ℝ → ℝ → ℝ) : Cluster UniNormStats UniLS :=
  if c.card = 0 then { c with state := nxigSample h normalRng invGammaRng }
  else
    let post := nnxigPosterior h c.state c.card c.stats
    { c with state := nxigSample post normalRng invGammaRng }

/-- The same `draw` for the conjugate Normal - Normal inverse Gamma hierarchy. -/
noncomputable def nnigDraw (h : NIG) (c : Cluster UniNormStats UniLS)
    (normalRng invGammaRng : ℝ → ℝ → ℝ) : Cluster UniNormStats UniLS :=
  if c.card = 0 then { c with state := nigSample h invGammaRng normalRng }
  else
    let post := nnigPosterior h c.card c.stats
    { c with state := nigSample post invGammaRng normalRng }

/-! ### Gamma - Gamma (example of the library) -/

/-- `Hyperparams::Gamma`, `examples/gamma_hierarchy/gamma_prior_model.h` 15-19. -/
@[ext] structure GammaHypers where
  rateAlpha : ℝ
  rateBeta : ℝ

/-- `GammaPriorModel::lpdf`, `examples/gamma_hierarchy/gamma_prior_model.h`: density of the
rate. -/
noncomputable def gammaPriorLpdf (h : GammaHypers) (rate : ℝ) : ℝ :=
  gammaLpdf rate h.rateAlpha h.rateBeta

/-- `GammaGammaUpdater::compute_posterior_hypers`,
`examples/gamma_hierarchy/gammagamma_updater.h` 24-49. -/
noncomputable def gammaPosterior (shape : ℝ) (h : GammaHypers) (card : ℤ) (s : GammaStats) :
    GammaHypers :=
  if card = 0 then h
  else ⟨h.rateAlpha + shape * s.ndata, h.rateBeta + s.dataSum⟩

/-- `GammaPriorModel::sample`, `examples/gamma_hierarchy/gamma_prior_model.h` 64-75; the shape is
that of the prior model. -/
noncomputable def gammaSample (shape : ℝ) (h : GammaHypers) (gammaRng : ℝ → ℝ → ℝ) : GammaState :=
  ⟨shape, gammaRng h.rateAlpha h.rateBeta⟩

/-- `SemiConjugateUpdater::draw` for this hierarchy, as above. -/
noncomputable def gammaDraw (shape : ℝ) (h : GammaHypers) (c : Cluster GammaStats GammaState)
    (gammaRng : ℝ → ℝ → ℝ) : Cluster GammaStats GammaState :=
  if c.card = 0 then { c with state := gammaSample shape h gammaRng }
  else
    let post := gammaPosterior shape h c.card c.stats
    { c with state := gammaSample shape post gammaRng }

/-! ### Linear regression - multivariate Normal inverse Gamma -/

/-- `Hyperparams::MNIG`, `src/hierarchies/priors/hyperparams.h` 22-26 (the unused
`var_scaling_inv` is left out). -/
@[ext] structure MNIG (d : ℕ) where
  mean : Fin d → ℝ
  varScaling : Matrix (Fin d) (Fin d) ℝ
  shape : ℝ
  scale : ℝ

/-- `stan::math::multi_normal_prec_lpdf(y, mu, Omega)` (trusted formula). -/
noncomputable def stanMultiNormalPrecLpdf {d : ℕ} (y mu : Fin d → ℝ)
    (omega : Matrix (Fin d) (Fin d) ℝ) : ℝ :=
  -(d / 2) * log (2 * π) + (1 / 2) * log omega.det
    - (1 / 2) * ((y - mu) ⬝ᵥ (omega *ᵥ (y - mu)))

/-- `MNIGPriorModel::lpdf`, `src/hierarchies/priors/mnig_prior_model.cc` 3-12. -/
noncomputable def mnigLpdf {d : ℕ} (h : MNIG d) (st : UniLinRegLS d) : ℝ :=
  stanMultiNormalPrecLpdf st.regressionCoeffs h.mean ((1 / st.var) • h.varScaling) +
    invGammaLpdf st.var h.shape h.scale

/-- `MNIGUpdater::compute_posterior_hypers`, `src/hierarchies/updaters/mnig_updater.cc` 3-44. -/
noncomputable def mnigPosterior {d : ℕ} (h : MNIG d) (card : ℤ) (s : LinRegStats d) : MNIG d :=
  if card = 0 then h
  else
    let varScaling := s.covarSumSquares + h.varScaling
    let mean := varScaling⁻¹ *ᵥ (s.mixedProd + h.varScaling *ᵥ h.mean)
    { mean := mean
      varScaling := varScaling
      shape := h.shape + 0.5 * card
      scale := h.scale + 0.5 * (s.dataSumSquares + h.mean ⬝ᵥ (h.varScaling *ᵥ h.mean)
        - mean ⬝ᵥ (varScaling *ᵥ mean)) }

/-- `MNIGPriorModel::sample`, `src/hierarchies/priors/mnig_prior_model.cc` 14-26. -/
noncomputable def mnigSample {d : ℕ} (h : MNIG d) (invGammaRng : ℝ → ℝ → ℝ)
    (normalPrecRng : (Fin d → ℝ) → Matrix (Fin d) (Fin d) ℝ → Fin d → ℝ) : UniLinRegLS d :=
  let var := invGammaRng h.shape h.scale
  ⟨normalPrecRng h.mean ((1 / var) • h.varScaling), var⟩

/-- `SemiConjugateUpdater::draw` for this hierarchy, as above. -/
noncomputable def mnigDraw {d : ℕ} (h : MNIG d) (c : Cluster (LinRegStats d) (UniLinRegLS d))
    (invGammaRng : ℝ → ℝ → ℝ)
    (normalPrecRng : (Fin d → ℝ) → Matrix (Fin d) (Fin d) ℝ → Fin d → ℝ) :
    Cluster (LinRegStats d) (UniLinRegLS d) :=
  if c.card = 0 then { c with state := mnigSample h invGammaRng normalPrecRng }
  else
    let post := mnigPosterior h c.card c.stats
    { c with state := mnigSample post invGammaRng normalPrecRng }

/-- `LinRegUniHierarchy::marg_lpdf`, `src/hierarchies/lin_reg_uni_hierarchy.h` 66-80. -/
noncomputable def linRegMargLpdf {d : ℕ} (h : MNIG d) (y : ℝ) (x : Fin d → ℝ) : ℝ :=
  let sigN := sqrt ((1 + x ⬝ᵥ (h.varScaling⁻¹ *ᵥ x)) * h.scale / h.shape)
  studentTLpdf y (2 * h.shape) (x ⬝ᵥ h.mean) sigN

/-! ### Multivariate Normal - Normal Wishart -/

/-- `Hyperparams::NW`, `src/hierarchies/priors/hyperparams.h` 16-20. -/
@[ext] structure NW (d : ℕ) where
  mean : Fin d → ℝ
  varScaling : ℝ
  degFree : ℝ
  scale : Matrix (Fin d) (Fin d) ℝ
  scaleInv : Matrix (Fin d) (Fin d) ℝ
  scaleChol : Matrix (Fin d) (Fin d) ℝ

/-- The message `HierarchyHypers::nnw_state` carries no inverse scale. -/
@[ext] structure NWProto (d : ℕ) where
  mean : Fin d → ℝ
  varScaling : ℝ
  degFree : ℝ
  scale : Matrix (Fin d) (Fin d) ℝ
  scaleChol : Matrix (Fin d) (Fin d) ℝ

/-- `NWPriorModel::get_hypers_proto`, `src/hierarchies/priors/nw_prior_model.cc` 233-253. -/
def nwGetProto {d : ℕ} (h : NW d) : NWProto d :=
  ⟨h.mean, h.varScaling, h.degFree, h.scale, h.scaleChol⟩

/-- `NWPriorModel::set_hypers_from_proto`, `src/hierarchies/priors/nw_prior_model.cc` 222-231. -/
noncomputable def nwSetFromProto {d : ℕ} (p : NWProto d) : NW d :=
  ⟨p.mean, p.varScaling, p.degFree, p.scale, p.scale⁻¹, p.scaleChol⟩

/-- `NNWUpdater::compute_posterior_hypers`, `src/hierarchies/updaters/nnw_updater.cc` 8-53. -/
noncomputable def nnwPosterior {d : ℕ} (h : NW d) (card : ℤ) (s : MultiNormStats d) :
    NWProto d :=
  if card = 0 then nwGetProto h
  else
    let mubar := (1 / (card : ℝ)) • s.dataSum
    let mean := (1 / (h.varScaling + card)) • (h.varScaling • h.mean + (card : ℝ) • mubar)
    let tauTemp := s.dataSumSquares - (card : ℝ) • vecMulVec mubar mubar
    let tauTemp := tauTemp + (card * h.varScaling / (card + h.varScaling)) •
      vecMulVec (mubar - h.mean) (mubar - h.mean)
    let scaleInv := tauTemp + h.scaleInv
    let scale := scaleInv⁻¹
    ⟨mean, h.varScaling + card, h.degFree + card, scale, lltU scale⟩

/-- `bayesmix::multi_student_t_invscale_lpdf`, `src/utils/distributions.cc` 120-131. -/
noncomputable def multiStudentTInvscaleLpdf {d : ℕ} (datum : Fin d → ℝ) (df : ℝ)
    (mean : Fin d → ℝ) (invscaleChol : Matrix (Fin d) (Fin d) ℝ) (scaleLogdet : ℝ) : ℝ :=
  let v := invscaleChol *ᵥ (datum - mean)
  let ex := 0.5 * (df + d) * log (1 + (v ⬝ᵥ v) / df)
  let base := log (Gamma ((df + d) * 0.5)) - log (Gamma (df * 0.5)) - (0.5 * d) * log df
    - (0.5 * d) * log π + 0.5 * scaleLogdet
  base - ex

/-- `NNWHierarchy::get_predictive_t_parameters` and `marg_lpdf`,
`src/hierarchies/nnw_hierarchy.h` 66-97. -/
noncomputable def nnwMargLpdf {d : ℕ} (p : NWProto d) (y : Fin d → ℝ) : ℝ :=
  let nuN := p.degFree - d + 1
  let coeff := (p.varScaling + 1) / (p.varScaling * nuN)
  let scaleCholN := (1 / sqrt coeff) • p.scaleChol
  let logdet := 2 * ∑ i, log (scaleCholN i i)
  multiStudentTInvscaleLpdf y nuN p.mean scaleCholN logdet

/-- The log of the multivariate Gamma function, `stan::math::lmgamma(d, x)` (trusted
formula). -/
noncomputable def lmgamma (d : ℕ) (x : ℝ) : ℝ :=
  (d * (d - 1) / 4) * log π + ∑ j : Fin d, log (Gamma (x - j / 2))

/-- `stan::math::wishart_lpdf(W, nu, S)` (trusted formula). -/
noncomputable def wishartLpdf {d : ℕ} (w : Matrix (Fin d) (Fin d) ℝ) (nu : ℝ)
    (s : Matrix (Fin d) (Fin d) ℝ) : ℝ :=
  -(nu * d / 2) * log 2 - lmgamma d (nu / 2) + ((nu - d - 1) / 2) * log w.det
    - (nu / 2) * log s.det - (1 / 2) * (s⁻¹ * w).trace

/-- `NWPriorModel::lpdf`, `src/hierarchies/priors/nw_prior_model.cc` 114-123. -/
noncomputable def nwLpdf {d : ℕ} (h : NW d) (mean : Fin d → ℝ)
    (prec : Matrix (Fin d) (Fin d) ℝ) : ℝ :=
  stanMultiNormalPrecLpdf mean h.mean (h.varScaling • prec) +
    wishartLpdf prec h.degFree h.scale

/-- State `MultiLS`, `src/hierarchies/likelihoods/states/multi_ls_state.h` 61-65. -/
structure MultiLS (d : ℕ) where
  mean : Fin d → ℝ
  prec : Matrix (Fin d) (Fin d) ℝ
  precChol : Matrix (Fin d) (Fin d) ℝ
  precLogdet : ℝ

/-- `NWPriorModel::write_prec_to_state`, `src/hierarchies/priors/nw_prior_model.cc` 255-262:
stores the *upper* factor. -/
noncomputable def writePrecToState {d : ℕ} (prec : Matrix (Fin d) (Fin d) ℝ) (st : MultiLS d) :
    MultiLS d :=
  let chol := lltU prec
  { st with prec := prec, precChol := chol, precLogdet := 2 * ∑ i, log (chol i i) }

/-- `NWPriorModel::sample`, `src/hierarchies/priors/nw_prior_model.cc` 125-141. -/
noncomputable def nwSample {d : ℕ} (p : NWProto d)
    (wishartRng : ℝ → Matrix (Fin d) (Fin d) ℝ → Matrix (Fin d) (Fin d) ℝ)
    (normalPrecRng : (Fin d → ℝ) → Matrix (Fin d) (Fin d) ℝ → Fin d → ℝ) : MultiLS d :=
  let tauNew := wishartRng p.degFree p.scale
  writePrecToState tauNew
    { mean := normalPrecRng p.mean (p.varScaling • tauNew), prec := 0, precChol := 0,
      precLogdet := 0 }

/-- `SemiConjugateUpdater::draw` for this hierarchy, as above. -/
noncomputable def nnwDraw {d : ℕ} (h : NW d) (c : Cluster (MultiNormStats d) (MultiLS d))
    (wishartRng : ℝ → Matrix (Fin d) (Fin d) ℝ → Matrix (Fin d) (Fin d) ℝ)
    (normalPrecRng : (Fin d → ℝ) → Matrix (Fin d) (Fin d) ℝ → Fin d → ℝ) :
    Cluster (MultiNormStats d) (MultiLS d) :=
  if c.card = 0 then { c with state := nwSample (nwGetProto h) wishartRng normalPrecRng }
  else
    let post := nnwPosterior h c.card c.stats
    { c with state := nwSample post wishartRng normalPrecRng }

/-- `MultiLS::set_from_constrained`, `src/hierarchies/likelihoods/states/multi_ls_state.h`
78-84: stores the *lower* factor. -/
noncomputable def multiLSFromConstrained {d : ℕ} (mean : Fin d → ℝ)
    (prec : Matrix (Fin d) (Fin d) ℝ) : MultiLS d :=
  let chol := lltL prec
  ⟨mean, prec, chol, 2 * ∑ i, log (chol i i)⟩

/-- `bayesmix::multi_normal_prec_lpdf`, `src/utils/distributions.cc` 17-25. -/
noncomputable def multiNormalPrecLpdf {d : ℕ} (datum mean : Fin d → ℝ)
    (precChol : Matrix (Fin d) (Fin d) ℝ) (precLogdet : ℝ) : ℝ :=
  let base := 0.5 * precLogdet + -(1 / 2) * log (2 * π) * d
  let v := precCholᵀ *ᵥ (datum - mean)
  let ex := 0.5 * (v ⬝ᵥ v)
  base - ex

/-- `bayesmix::multi_normal_prec_lpdf_grid`, `src/utils/distributions.cc` 27-40: the row of
each datum times the factor. -/
noncomputable def multiNormalPrecLpdfGrid {d : ℕ} (data : List (Fin d → ℝ)) (mean : Fin d → ℝ)
    (precChol : Matrix (Fin d) (Fin d) ℝ) (precLogdet : ℝ) : List ℝ :=
  data.map (fun x =>
    let v := (x - mean) ᵥ* precChol
    let ex := (v ⬝ᵥ v) * 0.5
    let base := 1 * precLogdet * 0.5 + -(1 / 2) * log (2 * π) * d
    base - ex)

/-- `bayesmix::multi_student_t_invscale_lpdf_grid`, `src/utils/distributions.cc` 133-150. -/
noncomputable def multiStudentTInvscaleLpdfGrid {d : ℕ} (data : List (Fin d → ℝ)) (df : ℝ)
    (mean : Fin d → ℝ) (invscaleChol : Matrix (Fin d) (Fin d) ℝ) (scaleLogdet : ℝ) : List ℝ :=
  data.map (fun x =>
    let base := log (Gamma ((df + d) * 0.5)) - log (Gamma (df * 0.5)) - (0.5 * d) * log df
      - (0.5 * d) * log π + 0.5 * scaleLogdet
    let v := (x - mean) ᵥ* invscaleCholᵀ
    let ex := log ((v ⬝ᵥ v) / df + 1.0) * 0.5 * (df + d)
    base - ex)

/-- `MultiNormLikelihood::compute_lpdf`,
`src/hierarchies/likelihoods/multi_norm_likelihood.cc` 7-11. -/
noncomputable def multiNormLpdf {d : ℕ} (st : MultiLS d) (y : Fin d → ℝ) : ℝ :=
  multiNormalPrecLpdf y st.mean st.precChol st.precLogdet

end Bayesmix.Hierarchies
