import Verif.Hier.Serial
import Verif.Hier.PropsStats
import Verif.Hier.NigLaw
import Verif.Algo.PropsBlocked
import Verif.Alloc.InitModel
import Mathlib.Analysis.SpecialFunctions.Gamma.Beta
import Mathlib.MeasureTheory.Constructions.BorelSpace.Complex

/-!
# The gamma-gamma hierarchy of the examples

`examples/gamma_hierarchy`: the hierarchy that the documentation uses to show how to write one. Data
are gamma with a fixed shape and an unknown rate; the rate has a gamma prior. Likelihood, prior and
posterior are modelled in `Hier/Like.lean`, `Hier/Conj.lean` and `Hier/Checks.lean`.
-/

namespace Bayesmix.Example
open Bayesmix Hierarchies Gibbs Cond MeasureTheory ENNReal Real

/-- `get_as_proto`, `gamma_likelihood.h` 20-26. -/
def gammaToProto (st : GammaState) : ClusterMsg := ⟨.general ⟨2, [st.shape, st.rate]⟩, 0⟩

/-- `data()[i]` of a repeated field: no check outside debug builds. -/
def fieldAt (l : List ℝ) (i : ℕ) : Except Fault ℝ :=
  match l[i]? with
  | some x => .ok x
  | none => .error .ub

/-- `set_from_proto`, `gamma_likelihood.h` 28-34 (without the cardinality). -/
def gammaFromProto (m : ClusterMsg) : Except Fault GammaState := do
  let s ← fieldAt m.general.data 0
  let r ← fieldAt m.general.data 1
  .ok ⟨s, r⟩

/-- `get_hypers_proto`, `gamma_prior_model.h` 84-89: the entries are added, the size is not set. -/
def gammaHypToProto (h : GammaHypers) : Utils.VecMsg ℝ := ⟨0, [h.rateAlpha, h.rateBeta]⟩

/-- `set_hypers_from_proto`, `gamma_prior_model.h` 77-82. -/
def gammaHypFromProto (m : Utils.VecMsg ℝ) : Except Fault GammaHypers := do
  let a ← fieldAt m.data 0
  let b ← fieldAt m.data 1
  .ok ⟨a, b⟩

/-- `sample` with hyperparameters read from a message, `gamma_prior_model.h` 64-75. -/
noncomputable def gammaSampleMsg (shape : ℝ) (m : Utils.VecMsg ℝ) (gammaRng : ℝ → ℝ → ℝ) :
    Except Fault GammaState := do
  let a ← fieldAt m.data 0
  let b ← fieldAt m.data 1
  .ok (gammaSample shape ⟨a, b⟩ gammaRng)

/-- `initialize_state`, `gammagamma_hierarchy.h` 29-37. -/
noncomputable def gammaInitState (shape : ℝ) (h : GammaHypers) : GammaState := ⟨shape, h.rateAlpha / h.rateBeta⟩

/-- `marg_lpdf`, `gammagamma_hierarchy.h` 39-44. -/
def gammaMargCall (_h : GammaHypers) (_y : ℝ) : Except Fault ℝ := .error .throw

/-- The hierarchy over the data `y` (`gammagamma_hierarchy.h` 10-45, `is_conjugate`:
`gammagamma_updater.h` 14; `update_hypers` does nothing: `gamma_prior_model.h` 36-39). -/
noncomputable def gammaEnv (shape : ℝ) (y : ℕ → ℝ) (draw : ℝ → ℝ → ℕ → ℝ) :
    Env (ℝ × ℤ) GammaHypers GammaState where
  kind := .conjugate
  contrib := fun x => (y x, 1)
  post := fun h c ss => gammaPosterior shape h c ⟨ss.1, ss.2⟩
  sample := fun h r => ⟨shape, draw h.rateAlpha h.rateBeta r⟩
  otherDraw := fun θ _ _ _ _ _ => θ
  hyperUpdate := fun h _ _ => h

/-- What `BaseAlgorithm::initialize` sees in `run_gamma_gamma.cc` 19-48: an algorithm that does not
update hyperparameters while moving rows, `n` rows of one column, no covariates, a Dirichlet process
(marginal, not dependent) whose prior is accepted and which leaves the number of components. The
program sets 5 components (27); `initialize` overwrites them with the initial number of clusters `K`. -/
noncomputable def gammaSetup (conj : Bool) (shape alpha beta : ℝ) (K n : ℕ) :
    Setup GammaHypers GammaState where
  algConditional := false
  algRequiresConjugate := conj
  algUpdatesParams := false
  rows := n
  cols := 1
  hierMultivariate := false
  hierDependent := false
  hierCovRows := 0
  hierCovCols := 0
  hasMixing := true
  mixConditional := false
  mixDependent := false
  mixCovRows := 0
  mixCovCols := 0
  initClusters := K
  mixInit := some
  hierInit := match gammaInit shape alpha beta with
    | .ok h => some (h, gammaInitState shape h)
    | .error _ => none

/-- Initialization of the Neal8 run in `run_gamma_gamma.cc` 19-48, with the constants of the program as
arguments: there the shape is 1, the prior of the rate gamma with parameters 2 and 2, and there are 50
rows, 10 initial clusters and one auxiliary block. -/
noncomputable def gammaStart8 (shape alpha beta : ℝ) (K n nAux : ℕ) (y : ℕ → ℝ)
    (draw : ℝ → ℝ → ℕ → ℝ) (z : InitNoise) (o : Hier (ℝ × ℤ) GammaHypers GammaState) :
    Except Fault (Alg8 (ℝ × ℤ) GammaHypers GammaState) := do
  let (_, s) ← initAlgorithm8 (gammaEnv shape y draw) (gammaSetup false shape alpha beta K n) nAux z [o]
  .ok s

/-- The same with Neal2 in place of Neal8. -/
noncomputable def gammaStart2 (shape alpha beta : ℝ) (K n : ℕ) (y : ℕ → ℝ)
    (draw : ℝ → ℝ → ℕ → ℝ) (z : InitNoise) (o : Hier (ℝ × ℤ) GammaHypers GammaState) :
    Except Fault (Alg (ℝ × ℤ) GammaHypers GammaState) := do
  let (_, s) ← initAlgorithm (gammaEnv shape y draw) (gammaSetup true shape alpha beta K n) z [o]
  .ok s

/-- The pass of the loop of `Neal2Algorithm::sample_allocations` for row `i` up to the evaluation of
`get_cluster_lpdf` (`src/algorithms/neal2_algorithm.cc` 29-42, 94-108) with a hierarchy whose predictive
density may throw (`marg`). -/
def neal2RowLpdf {G H Θ : Type} [Sub G] (E : Env G H Θ) (like : Θ → ℕ → ℝ)
    (marg : H → ℕ → Except Fault ℝ) (s : Alg G H Θ) (i : ℕ) : Except Fault (List ℝ) := do
  let (s1, _, _) ← detach E false s i
  let _ ← vget s1.clus 0
  let m ← marg s1.hyp i
  .ok (s1.clus.map (fun o => like o.state i) ++ [m])

/-! ### Densities -/

/-- The log-density of a datum with the rate integrated out. -/
noncomputable def gammaPred (shape : ℝ) (h : GammaHypers) (y : ℝ) : ℝ :=
  log (Gamma (h.rateAlpha + shape)) - log (Gamma shape) - log (Gamma h.rateAlpha) + h.rateAlpha * log h.rateBeta +
    (shape - 1) * log y - (h.rateAlpha + shape) * log (h.rateBeta + y)

theorem gamma_bayes (shape : ℝ) (h : GammaHypers) (y r : ℝ) :
    gammaLpdf y shape r + gammaLpdf r h.rateAlpha h.rateBeta =
      gammaPred shape h y + gammaLpdf r (h.rateAlpha + shape) (h.rateBeta + y) := by
  unfold gammaPred gammaLpdf
  ring

theorem gammaInit_ok {shape alpha beta : ℝ} {h : GammaHypers}
    (hi : gammaInit shape alpha beta = .ok h) :
    0 < shape ∧ 0 < alpha ∧ 0 < beta ∧ h = ⟨alpha, beta⟩ := by
  unfold gammaInit at hi
  split at hi
  · cases hi
  · split at hi
    · cases hi
    · split at hi
      · cases hi
      · rename_i h1 h2 h3
        push Not at h1 h2 h3
        exact ⟨h1, h2, h3, (Except.ok.inj hi).symm⟩

/-- Hyperparameters from which rates can be drawn. -/
def GammaValid (h : GammaHypers) : Prop := 0 < h.rateAlpha ∧ 0 < h.rateBeta

/-! ### Laws -/

instance : MeasurableSpace GammaState := MeasurableSpace.comap (fun s => (s.shape, s.rate)) inferInstance

theorem measurable_gammaPair : Measurable fun s : GammaState => (s.shape, s.rate) := comap_measurable _

theorem measurable_shape : Measurable fun s : GammaState => s.shape :=
  measurable_fst.comp measurable_gammaPair

theorem measurable_rate : Measurable fun s : GammaState => s.rate :=
  measurable_snd.comp measurable_gammaPair

theorem measurable_gammaMk (shape : ℝ) : Measurable fun r : ℝ => (⟨shape, r⟩ : GammaState) := by
  rintro _ ⟨t, ht, rfl⟩
  exact (measurable_const.prodMk measurable_id) ht

theorem measurable_logGamma : Measurable fun x : ℝ => log (Gamma x) := by
  refine Real.measurable_log.comp ?_
  have h1 : Measurable fun s : ℂ => (Complex.Gamma s)⁻¹ :=
    Complex.differentiable_one_div_Gamma.continuous.measurable
  have h2 : Measurable fun x : ℝ => (Complex.Gamma x).re :=
    Complex.measurable_re.comp (by
      simpa [Function.comp_def] using (h1.inv.comp Complex.measurable_ofReal))
  exact h2

theorem measurable_gammaLpdf {α : Type*} [MeasurableSpace α] {f g k : α → ℝ} (hf : Measurable f)
    (hg : Measurable g) (hk : Measurable k) : Measurable fun x => gammaLpdf (f x) (g x) (k x) := by
  have := measurable_logGamma.comp hg
  unfold gammaLpdf
  simp only [Function.comp_def] at this
  fun_prop

/-- The law of a drawn state: the configured shape and a rate with log-density `gammaLpdf`. -/
noncomputable def gammaLaw (shape : ℝ) (h : GammaHypers) : Measure GammaState :=
  ((volume.restrict (Set.Ioi (0 : ℝ))).withDensity
    fun r => ENNReal.ofReal (exp (gammaLpdf r h.rateAlpha h.rateBeta))).map fun r => ⟨shape, r⟩

theorem lintegral_gammaLaw (shape : ℝ) (h : GammaHypers) {φ : GammaState → ℝ≥0∞} (hφ : Measurable φ) :
    ∫⁻ s, φ s ∂(gammaLaw shape h) = ∫⁻ r in Set.Ioi 0,
      ENNReal.ofReal (exp (gammaLpdf r h.rateAlpha h.rateBeta)) * φ ⟨shape, r⟩ := by
  have hm : Measurable fun r : ℝ => ENNReal.ofReal (exp (gammaLpdf r h.rateAlpha h.rateBeta)) :=
    ENNReal.measurable_ofReal.comp (Real.measurable_exp.comp
      (measurable_gammaLpdf measurable_id measurable_const measurable_const))
  rw [gammaLaw, lintegral_map hφ (measurable_gammaMk shape)]
  exact lintegral_withDensity_eq_lintegral_mul _ hm (hφ.comp (measurable_gammaMk shape))

theorem gammaLaw_prob (shape : ℝ) {h : GammaHypers} (hv : GammaValid h) :
    IsProbabilityMeasure (gammaLaw shape h) := by
  constructor
  have h1 := lintegral_gammaLaw shape h (φ := fun _ => 1) measurable_const
  rw [lintegral_const, one_mul] at h1
  rw [h1]
  simpa using lintegral_gammaLpdf h.rateAlpha h.rateBeta hv.1 hv.2

theorem gammaLaw_bayes (shape : ℝ) (h : GammaHypers) (y : ℝ) {φ : GammaState → ℝ≥0∞}
    (hφ : Measurable φ) :
    ∫⁻ s, ENNReal.ofReal (exp (gammaLikeLpdf s y)) * φ s ∂(gammaLaw shape h) =
      ENNReal.ofReal (exp (gammaPred shape h y)) *
        ∫⁻ s, φ s ∂(gammaLaw shape ⟨h.rateAlpha + shape, h.rateBeta + y⟩) := by
  have hL : Measurable fun s : GammaState => ENNReal.ofReal (exp (gammaLikeLpdf s y)) :=
    ENNReal.measurable_ofReal.comp (Real.measurable_exp.comp
      (measurable_gammaLpdf measurable_const measurable_shape measurable_rate))
  have hLφ : Measurable fun s : GammaState => ENNReal.ofReal (exp (gammaLikeLpdf s y)) * φ s :=
    hL.mul hφ
  rw [← lintegral_const_mul _ hφ, lintegral_gammaLaw shape h hLφ,
    lintegral_gammaLaw _ _ (hφ.const_mul _)]
  refine lintegral_congr fun r => ?_
  have key : ENNReal.ofReal (exp (gammaLpdf r h.rateAlpha h.rateBeta)) *
      ENNReal.ofReal (exp (gammaLikeLpdf ⟨shape, r⟩ y)) =
      ENNReal.ofReal (exp (gammaLpdf r (h.rateAlpha + shape) (h.rateBeta + y))) *
        ENNReal.ofReal (exp (gammaPred shape h y)) := by
    rw [← ENNReal.ofReal_mul (exp_pos _).le, ← ENNReal.ofReal_mul (exp_pos _).le, ← exp_add, ← exp_add,
      add_comm, gammaLikeLpdf, gamma_bayes, add_comm]
  rw [← mul_assoc, ← mul_assoc, key]

theorem gamma_conjugate {shape : ℝ} (hs : 0 < shape) {y : ℕ → ℝ} (hy : ∀ i, 0 < y i)
    (draw : ℝ → ℝ → ℕ → ℝ) :
    Conjugate (gammaEnv shape y draw) (fun st i => gammaLikeLpdf st (y i))
      (fun h i => gammaPred shape h (y i)) (gammaLaw shape) GammaValid := by
  have hval : ∀ h i, GammaValid h → GammaValid ⟨h.rateAlpha + shape, h.rateBeta + y i⟩ := fun h i hv =>
    ⟨add_pos hv.1 hs, add_pos hv.2 (hy i)⟩
  have hone : ∀ h i, (gammaEnv shape y draw).post h 1 ((gammaEnv shape y draw).contrib i) =
      ⟨h.rateAlpha + shape, h.rateBeta + y i⟩ := fun h i => by simp [gammaEnv, gammaPosterior]
  refine ⟨fun i => measurable_gammaLpdf measurable_const measurable_shape measurable_rate,
    fun h i hv => ⟨gammaLaw_prob shape hv, ?_, fun φ hφ => ?_⟩, fun h i hv => ?_,
    fun h hv D i hD hi => ?_⟩
  · rw [hone]; exact gammaLaw_prob shape (hval h i hv)
  · rw [hone]; exact gammaLaw_bayes shape h (y i) hφ
  · rw [hone]; exact hval h i hv
  · rw [hone, Finset.card_insert_of_notMem hi, Finset.sum_insert hi]
    have h0 : D.card ≠ 0 := hD.card_ne_zero
    have h1 : ((D.card + 1 : ℕ) : ℤ) ≠ 0 := by omega
    simp only [gammaEnv, gammaPosterior, Prod.fst_sum, Prod.snd_sum, Prod.fst_add, Prod.snd_add,
      Nat.cast_eq_zero, if_neg h0, if_neg h1]
    ext
    · push_cast; ring
    · change _ + _ + _ = _ + (_ + _); ring

end Bayesmix.Example
