import Verif.Hier.StudentLaw
import Verif.Hier.WishartLaw
import Verif.Hier.PropsConj
import Verif.Hier.PropsNW
import Verif.Hier.PropsFA

/-!
# C95, C96: densities are normalized; marginals are integrated likelihoods
-/

namespace Bayesmix.Hierarchies
open Real MeasureTheory ENNReal Matrix

variable {P : Type} {d p q : ℕ}

/-! ## C95: likelihoods -/

/-- **C95, univariate likelihoods.** -/
theorem c95_uni_likelihoods (st : UniLS) (hv : 0 < st.var) :
    ∫⁻ y, ENNReal.ofReal (exp (uniNormLpdf st y)) = 1 ∧
    ∫⁻ y, ENNReal.ofReal (exp (laplaceLpdf st y)) = 1 :=
  ⟨lintegral_normalLpdf _ _ hv, lintegral_doubleExponential _ _
    (sqrt_pos.2 (div_pos hv (by norm_num)))⟩

example : ∫⁻ y, ENNReal.ofReal (exp (laplaceLpdf ⟨1, 3⟩ y)) = 1 :=
  (c95_uni_likelihoods ⟨1, 3⟩ (by norm_num)).2

/-- **C95, regression likelihood.** -/
theorem c95_linreg_likelihood (st : UniLinRegLS d) (hv : 0 < st.var) (x : Fin d → ℝ) :
    ∫⁻ y, ENNReal.ofReal (exp (linRegLpdf st y x)) = 1 :=
  lintegral_normalLpdf _ _ hv

example : ∫⁻ y, ENNReal.ofReal (exp (linRegLpdf ⟨![1, 2], 3⟩ y ![5, 4])) = 1 :=
  c95_linreg_likelihood _ (by norm_num) _

/-- **C95, Gamma likelihood.** Data are positive. -/
theorem c95_gamma_likelihood (st : GammaState) (hs : 0 < st.shape) (hr : 0 < st.rate) :
    ∫⁻ y in Set.Ioi 0, ENNReal.ofReal (exp (gammaLikeLpdf st y)) = 1 :=
  lintegral_gammaLpdf _ _ hs hr

example : ∫⁻ y in Set.Ioi 0, ENNReal.ofReal (exp (gammaLikeLpdf ⟨2, 3⟩ y)) = 1 :=
  c95_gamma_likelihood _ (by norm_num) (by norm_num)

theorem exp_multiNormLpdf (st : MultiLS d) (hp : ∀ i, 0 < st.precChol i i)
    (hl : st.precLogdet = 2 * ∑ i, log (st.precChol i i)) (hdet : st.precChol.det =
      ∏ i, st.precChol i i) (y : Fin d → ℝ) :
    exp (multiNormLpdf st y) = |st.precCholᵀ.det| *
      ∏ i, exp (normalLpdf ((st.precCholᵀ *ᵥ (y - st.mean)) i) 0 (sqrt 1)) := by
  have hpos : 0 < st.precChol.det := by rw [hdet]; exact Finset.prod_pos fun i _ => hp i
  have hlog : st.precChol.det = exp (∑ i, log (st.precChol i i)) := by
    rw [← log_prod (fun i _ => (hp i).ne'), ← hdet, exp_log hpos]
  rw [det_transpose, abs_of_pos hpos, ← exp_sum, hlog, ← exp_add]
  congr 1
  unfold multiNormLpdf multiNormalPrecLpdf normalLpdf
  simp only [hl, sqrt_one, log_one, sub_zero, div_one, Finset.sum_sub_distrib, Finset.sum_const,
    Finset.card_univ, Fintype.card_fin, nsmul_eq_mul, dotProduct, ← Finset.mul_sum, ← sq]
  ring

/-- **C95, multivariate Normal likelihood.** Also for the states drawn by the Normal-Wishart
model, whose likelihood is not the Normal density with the drawn precision (C74): it is still a
density. -/
theorem c95_multi_norm_likelihood (pr : NWProto d)
    (wishartRng : ℝ → Matrix (Fin d) (Fin d) ℝ → Matrix (Fin d) (Fin d) ℝ)
    (normalPrecRng : (Fin d → ℝ) → Matrix (Fin d) (Fin d) ℝ → Fin d → ℝ) (st : MultiLS d)
    (hst : st = nwSample pr wishartRng normalPrecRng ∨
      ∃ m W, st = multiLSFromConstrained m W) (hW : st.prec.PosDef) :
    ∫⁻ y, ENNReal.ofReal (exp (multiNormLpdf st y)) = 1 := by
  obtain ⟨h1, h2, h3⟩ : (∀ i, 0 < st.precChol i i) ∧
      st.precLogdet = 2 * ∑ i, log (st.precChol i i) ∧
      st.precChol.det = ∏ i, st.precChol i i := by
    rcases hst with rfl | ⟨m, W, rfl⟩
    · obtain ⟨W, hWd⟩ : ∃ W, W = wishartRng pr.degFree pr.scale := ⟨_, rfl⟩
      have hW' : W.PosDef := by rw [hWd]; exact hW
      have h := lltL_spec hW'
      have ht : (lltL W).BlockTriangular OrderDual.toDual := fun i j hij => h.1 i j hij
      have hdet := Matrix.det_of_isLowerTriangular _ ht
      unfold nwSample
      rw [← hWd]
      refine ⟨fun i => h.2.1 i, rfl, ?_⟩
      show (lltU W).det = ∏ i, lltU W i i
      simp only [lltU, det_transpose, transpose_apply]
      exact hdet
    · have hW' : W.PosDef := hW
      have h := lltL_spec hW'
      have ht : (lltL W).BlockTriangular OrderDual.toDual := fun i j hij => h.1 i j hij
      exact ⟨fun i => h.2.1 i, rfl, Matrix.det_of_isLowerTriangular _ ht⟩
  have hne : st.precCholᵀ.det ≠ 0 := by
    rw [det_transpose, h3]
    exact Finset.prod_ne_zero_iff.2 fun i _ => (h1 i).ne'
  refine Eq.trans ?_ (lintegral_affine st.mean hne)
  refine lintegral_congr fun y => ?_
  rw [exp_multiNormLpdf st h1 h2 h3]

example : ∃ st : MultiLS 2, st = nwSample (nwGetProto exNW) (fun _ _ => !![1, 1; 1, 2])
    (fun _ _ => ![1, 3]) ∧ ∫⁻ y, ENNReal.ofReal (exp (multiNormLpdf st y)) = 1 :=
  ⟨_, rfl, c95_multi_norm_likelihood _ _ _ _ (.inl rfl) exLLT.posDef⟩

theorem logGauss_eq {S : Matrix (Fin p) (Fin p) ℝ} (y m : Fin p → ℝ) :
    logGauss y m S = stanMultiNormalPrecLpdf y m S⁻¹ := by
  rw [logGauss, stanMultiNormalPrecLpdf, det_nonsing_inv, Ring.inverse_eq_inv', log_inv]
  ring

/-- **C95, factor-analytic likelihood.** After a state was initialised or read, whatever came
before. -/
theorem c95_fa_likelihood (st st' : FA p q) (ops : List (FAOp p q)) (op : FAOp p q)
    (hop : (∃ h, op = .init h) ∨ ∃ mu psi eta A, op = .read mu psi eta A)
    (hrun : faRun st (ops ++ [op]) = .ok st') (hpos : ∀ j, 0 < st'.psi j) :
    ∃ f : (Fin p → ℝ) → ℝ, (∀ y, faLpdf st' y = .ok (f y)) ∧
      ∫⁻ y, ENNReal.ofReal (exp (f y)) = 1 := by
  refine ⟨_, c45_in_sync_partial st st' ops op hop hrun hpos, ?_⟩
  refine Eq.trans ?_ (lintegral_multiNormal st'.mu
    (c59_logdet st'.psi hpos st'.lambda).1.inv)
  refine lintegral_congr fun y => ?_
  rw [logGauss_eq]

/-- **C95, factor-analytic likelihood after draws.** The likelihood then uses noise and loadings
of the state that was read (C45), but it remains a density. -/
theorem c95_fa_likelihood_draws (mu psi : Fin p → ℝ) (eta : List (Fin q → ℝ))
    (A : Matrix (Fin p) (Fin q) ℝ) (hpsi : ∀ j, 0 < psi j) (st : FA p q)
    (draws : List (FAOp p q))
    (hdraws : ∀ op ∈ draws, ∃ h rng, ∃ n, ∃ y : Fin n → Fin p → ℝ, 0 < n ∧ op = .draw h rng n y) :
    ∃ st', faRun st (.read mu psi eta A :: draws) = .ok st' ∧
      ∃ f : (Fin p → ℝ) → ℝ, (∀ y, faLpdf st' y = .ok (f y)) ∧
        ∫⁻ y, ENNReal.ofReal (exp (f y)) = 1 := by
  obtain ⟨st', h1, h2⟩ := c45_stale_after_draws mu psi eta A hpsi st draws hdraws
  refine ⟨st', h1, _, h2, ?_⟩
  refine Eq.trans ?_ (lintegral_multiNormal st'.mu (c59_logdet psi hpsi A).1.inv)
  refine lintegral_congr fun y => ?_
  rw [logGauss_eq]

example : ∃ st : FA 2 1, faRun (faInitializeState 1 ⟨0, 1, 1, 1⟩)
      [.read 1 (fun _ => 2) [] (Matrix.of fun _ _ => 1)] = .ok st ∧
    ∃ f : (Fin 2 → ℝ) → ℝ, (∀ y, faLpdf st y = .ok (f y)) ∧
      ∫⁻ y, ENNReal.ofReal (exp (f y)) = 1 :=
  ⟨_, rfl, c95_fa_likelihood (faInitializeState 1 ⟨0, 1, 1, 1⟩) _ [] _
    (.inr ⟨1, fun _ => 2, [], Matrix.of fun _ _ => 1, rfl⟩) rfl fun _ => two_pos⟩

/-! ## C95: priors -/

/-- **C95, Normal inverse Gamma prior**, for all hyperparameters that initialization accepts, hence
(C36) for the posterior hyperparameters of every reachable cluster. -/
theorem c95_nig_prior (p : NIGPrior) (h : NIG) (hp : nigInit p = .ok h) :
    ∫⁻ v in Set.Ioi 0, ∫⁻ m, ENNReal.ofReal (exp (nigLpdf h ⟨m, v⟩)) = 1 := by
  obtain ⟨hl, ha, hb⟩ := nigInit_pos hp
  have := nigLaw_prob h hl ha hb
  have h1 := lintegral_nigLaw h (φ := fun _ => 1) measurable_const
  simpa using h1.symm

example : ∫⁻ v in Set.Ioi 0, ∫⁻ m, ENNReal.ofReal (exp (nigLpdf ⟨3, 1, 2, 4⟩ ⟨m, v⟩)) = 1 :=
  c95_nig_prior (.fixed 3 1 2 4) _ (nigInit_fixed (by norm_num) (by norm_num) (by norm_num))

/-- **C95, independent Normal and inverse Gamma prior.** -/
theorem c95_nxig_prior (p : NxIGPrior) (h : NxIG) (hp : nxigInit p = .ok h) :
    ∫⁻ v in Set.Ioi 0, ∫⁻ m, ENNReal.ofReal (exp (nxigLpdf h ⟨m, v⟩)) = 1 := by
  obtain ⟨hl, ha, hb⟩ := nxigInit_pos hp
  refine Eq.trans ?_ (lintegral_invGammaLpdf h.shape h.scale ha hb)
  refine setLIntegral_congr_fun measurableSet_Ioi fun v _ => ?_
  have e : ∀ m, ENNReal.ofReal (exp (nxigLpdf h ⟨m, v⟩)) =
      ENNReal.ofReal (exp (invGammaLpdf v h.shape h.scale)) *
        ENNReal.ofReal (exp (normalLpdf m h.mean (sqrt h.var))) := by
    intro m
    rw [← ENNReal.ofReal_mul (exp_pos _).le, ← exp_add, nxigLpdf, add_comm]
  rw [lintegral_congr e, lintegral_const_mul' _ _ ENNReal.ofReal_ne_top,
    lintegral_normalLpdf _ _ hl, mul_one]

example : ∫⁻ v in Set.Ioi 0, ∫⁻ m, ENNReal.ofReal (exp (nxigLpdf ⟨3, 1, 2, 4⟩ ⟨m, v⟩)) = 1 :=
  c95_nxig_prior (.fixed 3 1 2 4) _ (nxigInit_fixed (by norm_num) (by norm_num) (by norm_num))

/-- **C95, regression prior.** -/
theorem c95_mnig_prior (p : MNIGPrior d) (h : MNIG d) (hp : mnigInit p = .ok h) :
    ∫⁻ v in Set.Ioi 0, ∫⁻ m, ENNReal.ofReal (exp (mnigLpdf h ⟨m, v⟩)) = 1 := by
  obtain ⟨hl, ha, hb⟩ := mnigInit_pos hp
  have := mnigLaw_prob h hl ha hb
  have h1 := lintegral_mnigLaw h (φ := fun _ => 1) measurable_const
  simpa using h1.symm

example : ∫⁻ v in Set.Ioi 0, ∫⁻ m, ENNReal.ofReal (exp (mnigLpdf exMNIG ⟨m, v⟩)) = 1 :=
  c95_mnig_prior _ _ exMNIG_valid

/-- **C95, Gamma prior** of the example hierarchy. -/
theorem c95_gamma_prior (shape ra rb : ℝ) (h : GammaHypers) (hp : gammaInit shape ra rb = .ok h) :
    ∫⁻ r in Set.Ioi 0, ENNReal.ofReal (exp (gammaPriorLpdf h r)) = 1 := by
  obtain ⟨-, ha, hb⟩ := gammaInit_pos hp
  exact lintegral_gammaLpdf _ _ ha hb

example : ∫⁻ r in Set.Ioi 0, ENNReal.ofReal (exp (gammaPriorLpdf ⟨2, 3⟩ r)) = 1 :=
  c95_gamma_prior 1 2 3 _ (gammaInit_of_pos (by norm_num) (by norm_num) (by norm_num))

theorem lintegral_nw {h : NW d} (hv : NWValid h) :
    ∫⁻ w in {w : UT d → ℝ | (symOf w).PosDef}, ∫⁻ m,
      ENNReal.ofReal (exp (nwLpdf h m (symOf w))) = 1 := by
  refine Eq.trans ?_ (lintegral_wishart hv.posDef hv.df)
  refine setLIntegral_congr_fun measurableSet_posDef fun w hw => ?_
  have hw : (symOf w).PosDef := hw
  have e : ∀ m, ENNReal.ofReal (exp (nwLpdf h m (symOf w))) =
      ENNReal.ofReal (exp (wishartLpdf (symOf w) h.degFree h.scale)) *
        ENNReal.ofReal (exp (stanMultiNormalPrecLpdf m h.mean (h.varScaling • symOf w))) := by
    intro m
    rw [← ENNReal.ofReal_mul (exp_pos _).le, ← exp_add, nwLpdf, add_comm]
  rw [lintegral_congr e, lintegral_const_mul' _ _ ENNReal.ofReal_ne_top,
    lintegral_multiNormal _ (hw.smul hv.scaling), mul_one]

/-- **C95, Normal-Wishart prior.** The integral runs over all means and all positive definite
precisions, given by their entries on and above the diagonal. -/
theorem c95_nw_prior (p : NWPrior d) (h : NW d) (hp : nwInit p = .ok h) :
    ∫⁻ w in {w : UT d → ℝ | (symOf w).PosDef}, ∫⁻ m,
      ENNReal.ofReal (exp (nwLpdf h m (symOf w))) = 1 :=
  lintegral_nw (nwInit_valid hp)

example : ∫⁻ w in {w : UT 2 → ℝ | (symOf w).PosDef}, ∫⁻ m,
      ENNReal.ofReal (exp (nwLpdf exNW m (symOf w))) = 1 :=
  c95_nw_prior _ _ exNW_init

theorem integrable_of_lintegral_one {f : ℝ → ℝ} (hm : Measurable f) (h0 : ∀ x, 0 ≤ f x)
    (h1 : ∫⁻ x, ENNReal.ofReal (f x) = 1) : Integrable f ∧ ∫ x, f x = 1 := by
  have hi : Integrable f := by
    refine ⟨hm.aestronglyMeasurable, ?_⟩
    rw [hasFiniteIntegral_iff_ofReal (Filter.Eventually.of_forall h0), h1]
    exact ENNReal.one_lt_top
  refine ⟨hi, ?_⟩
  rw [integral_eq_lintegral_of_nonneg_ae (Filter.Eventually.of_forall h0) hm.aestronglyMeasurable,
    h1, ENNReal.toReal_one]

theorem lintegral_prod_one {ι : Type} [Fintype ι] {f : ι → ℝ → ℝ} (hm : ∀ i, Measurable (f i))
    (h0 : ∀ i x, 0 ≤ f i x) (h1 : ∀ i, ∫⁻ x, ENNReal.ofReal (f i x) = 1) :
    ∫⁻ z : ι → ℝ, ENNReal.ofReal (∏ i, f i (z i)) = 1 := by
  have h := fun i => integrable_of_lintegral_one (hm i) (h0 i) (h1 i)
  rw [← ofReal_integral_eq_lintegral_ofReal]
  · rw [integral_fintype_prod_volume_eq_prod f]
    simp [fun i => (h i).2]
  · exact Integrable.fintype_prod fun i => (h i).1
  · exact Filter.Eventually.of_forall fun z => Finset.prod_nonneg fun i _ => h0 i _

/-- **C95, factor-analytic prior.** The integral runs over means, positive noise variances and
loadings. -/
theorem c95_fa_prior (mutilde beta : Fin p → ℝ) (phi alpha0 : ℝ) (h : FAHypers p)
    (hin : faInit mutilde beta phi alpha0 q = .ok h) :
    ∫⁻ L : Fin p × Fin q → ℝ, ∫⁻ psi in {psi : Fin p → ℝ | ∀ j, 0 < psi j}, ∫⁻ mu : Fin p → ℝ,
      ENNReal.ofReal (exp (faPriorLpdf h mu psi (Matrix.of fun j i => L (j, i)))) = 1 := by
  obtain ⟨hphi, halpha, hbeta⟩ : 0 < h.phi ∧ 0 < h.alpha0 ∧ ∀ j, 0 < h.beta j := by
    unfold faInit at hin
    (repeat' split at hin) <;> cases hin
    rename_i h1 h2 h3 h4
    push Not at h1 h2 h3
    exact ⟨by assumption, by assumption, h1⟩
  have hS : MeasurableSet {psi : Fin p → ℝ | ∀ j, 0 < psi j} := by
    rw [Set.ofPred_forall]
    exact MeasurableSet.iInter fun j => measurableSet_lt measurable_const (measurable_pi_apply j)
  have hmu := lintegral_prod_one (ι := Fin p)
    (f := fun j x => exp (normalLpdf x (h.mutilde j) (sqrt h.phi)))
    (fun j => by unfold normalLpdf; fun_prop) (fun j x => (exp_pos _).le)
    (fun j => lintegral_normalLpdf _ _ hphi)
  have hL := lintegral_prod_one (ι := Fin p × Fin q)
    (f := fun _ x => exp (normalLpdf x 0 1))
    (fun j => by unfold normalLpdf; fun_prop) (fun j x => (exp_pos _).le)
    (fun j => by simpa using lintegral_normalLpdf 0 1 one_pos)
  have hpsi := lintegral_prod_one (ι := Fin p)
    (f := fun j => (Set.Ioi (0 : ℝ)).indicator fun x => exp (invGammaLpdf x h.alpha0 (h.beta j)))
    (fun j => Measurable.indicator (by unfold invGammaLpdf; fun_prop) measurableSet_Ioi)
    (fun j x => Set.indicator_nonneg (fun x _ => (exp_pos _).le) x)
    (fun j => by
      rw [← lintegral_invGammaLpdf _ _ halpha (hbeta j), ← lintegral_indicator measurableSet_Ioi]
      refine lintegral_congr fun x => ?_
      by_cases hx : x ∈ Set.Ioi (0 : ℝ)
      · rw [Set.indicator_of_mem hx, Set.indicator_of_mem hx]
      · rw [Set.indicator_of_notMem hx, Set.indicator_of_notMem hx, ENNReal.ofReal_zero])
  have hpsi2 : ∫⁻ psi in {psi : Fin p → ℝ | ∀ j, 0 < psi j},
      ENNReal.ofReal (∏ j, exp (invGammaLpdf (psi j) h.alpha0 (h.beta j))) = 1 := by
    rw [← hpsi, ← lintegral_indicator hS]
    refine lintegral_congr fun psi => ?_
    by_cases hx : ∀ j, 0 < psi j
    · rw [Set.indicator_of_mem (show psi ∈ {psi : Fin p → ℝ | ∀ j, 0 < psi j} from hx)]
      congr 1
      refine Finset.prod_congr rfl fun j _ => ?_
      rw [Set.indicator_of_mem (show psi j ∈ Set.Ioi (0 : ℝ) from hx j)]
    · rw [Set.indicator_of_notMem (show psi ∉ {psi : Fin p → ℝ | ∀ j, 0 < psi j} from hx)]
      push Not at hx
      obtain ⟨j, hj⟩ := hx
      rw [Finset.prod_eq_zero (Finset.mem_univ j)
        (Set.indicator_of_notMem (show psi j ∉ Set.Ioi (0 : ℝ) from not_lt.2 hj) _),
        ENNReal.ofReal_zero]
  have e : ∀ (L : Fin p × Fin q → ℝ) (psi mu : Fin p → ℝ),
      ENNReal.ofReal (exp (faPriorLpdf h mu psi (Matrix.of fun j i => L (j, i)))) =
      ENNReal.ofReal (∏ x, exp (normalLpdf (L x) 0 1)) *
        (ENNReal.ofReal (∏ j, exp (invGammaLpdf (psi j) h.alpha0 (h.beta j))) *
          ENNReal.ofReal (∏ j, exp (normalLpdf (mu j) (h.mutilde j) (sqrt h.phi)))) := by
    intro L psi mu
    have hp0 : ∀ (ι : Type) [Fintype ι] (f : ι → ℝ), 0 ≤ ∏ i, exp (f i) := fun ι _ f =>
      Finset.prod_nonneg fun i _ => (exp_pos _).le
    rw [← ENNReal.ofReal_mul (hp0 _ _), ← ENNReal.ofReal_mul (hp0 _ _), ← exp_sum, ← exp_sum,
      ← exp_sum, ← exp_add, ← exp_add, Fintype.sum_prod_type]
    congr 2
    unfold faPriorLpdf
    simp only [Finset.sum_add_distrib, of_apply]
    ring
  simp only [e]
  simp only [lintegral_const_mul' _ _ ENNReal.ofReal_ne_top, hmu, mul_one, hpsi2, hL]

example : ∃ h : FAHypers 2, faInit (fun _ => 1) (fun _ => 3) 2 4 1 = .ok h ∧
    ∫⁻ L : Fin 2 × Fin 1 → ℝ, ∫⁻ psi in {psi : Fin 2 → ℝ | ∀ j, 0 < psi j}, ∫⁻ mu : Fin 2 → ℝ,
      ENNReal.ofReal (exp (faPriorLpdf h mu psi (Matrix.of fun j i => L (j, i)))) = 1 := by
  have h : faInit (p := 2) (fun _ => 1) (fun _ => 3) 2 4 1 =
      .ok ⟨fun _ => 1, fun _ => 3, 2, 4⟩ := by
    unfold faInit
    norm_num
  exact ⟨_, h, c95_fa_prior _ _ _ _ _ h⟩

/-! ## C96: marginals -/

/-- From Bayes' rule with normalized posteriors to integrals, for parameters `(v, m)`. -/
theorem predictive_core {V M : Type} [MeasurableSpace V] [MeasurableSpace M] (μ : Measure V)
    (ν : Measure M) {s : Set V} (hs : MeasurableSet s) (f L π₀ πq πp : V → M → ℝ) (k marg : ℝ)
    (h1 : ∀ v ∈ s, ∀ m, L v m + π₀ v m = k + πq v m)
    (h2 : ∀ v ∈ s, ∀ m, f v m + πq v m = marg + πp v m)
    (hq : ∫⁻ v in s, ∫⁻ m, ENNReal.ofReal (exp (πq v m)) ∂ν ∂μ = 1)
    (hp : ∫⁻ v in s, ∫⁻ m, ENNReal.ofReal (exp (πp v m)) ∂ν ∂μ = 1) :
    ∫⁻ v in s, ∫⁻ m, ENNReal.ofReal (exp (L v m + π₀ v m)) ∂ν ∂μ = ENNReal.ofReal (exp k) ∧
    ∫⁻ v in s, ∫⁻ m, ENNReal.ofReal (exp (f v m + (L v m + π₀ v m))) ∂ν ∂μ =
      ENNReal.ofReal (exp marg) * ENNReal.ofReal (exp k) := by
  have key : ∀ (g πr : V → M → ℝ) (r : ℝ), (∀ v ∈ s, ∀ m, g v m = r + πr v m) →
      ∫⁻ v in s, ∫⁻ m, ENNReal.ofReal (exp (πr v m)) ∂ν ∂μ = 1 →
      ∫⁻ v in s, ∫⁻ m, ENNReal.ofReal (exp (g v m)) ∂ν ∂μ = ENNReal.ofReal (exp r) := by
    intro g πr r hg hr
    rw [← mul_one (ENNReal.ofReal (exp r)), ← hr, ← lintegral_const_mul' _ _ ENNReal.ofReal_ne_top]
    refine setLIntegral_congr_fun hs fun v hv => ?_
    rw [← lintegral_const_mul' _ _ ENNReal.ofReal_ne_top]
    refine lintegral_congr fun m => ?_
    rw [hg v hv, exp_add, ENNReal.ofReal_mul (exp_pos _).le]
  refine ⟨key _ πq k h1 hq, ?_⟩
  rw [← ENNReal.ofReal_mul (exp_pos _).le, ← exp_add]
  refine key _ πp (marg + k) (fun v hv m => ?_) hp
  have a := h1 v hv m
  have b := h2 v hv m
  linarith

/-- **C96, Normal - Normal inverse Gamma.** For a cluster reached by any sequence of insertions and
removals (an empty one in particular), the marginal log density at the posterior hyperparameters is
the predictive density given the members: the ratio of the integrals of likelihood times prior with
and without the new datum. The denominator is positive and finite, and the predictive density
integrates to one. -/
theorem c96_nnig (p : NIGPrior) (h : NIG) (hp : nigInit p = .ok h) (data : ℤ → ℝ)
    (c0 c : Cluster UniNormStats P) (ops : List DataOp)
    (hrun : runOps uniNormUpd data (clearAll uniNormZero c0) ops = .ok c) (q : NIG)
    (hq : q = nnigPosterior h c.card c.stats) :
    (∃ Z : ℝ, 0 < Z ∧
      ∫⁻ v in Set.Ioi 0, ∫⁻ m, ENNReal.ofReal (exp ((∑ i ∈ c.idx, uniNormLpdf ⟨m, v⟩ (data i)) +
        nigLpdf h ⟨m, v⟩)) = ENNReal.ofReal Z ∧
      ∀ y, ∫⁻ v in Set.Ioi 0, ∫⁻ m, ENNReal.ofReal (exp (uniNormLpdf ⟨m, v⟩ y +
        ((∑ i ∈ c.idx, uniNormLpdf ⟨m, v⟩ (data i)) + nigLpdf h ⟨m, v⟩))) =
          ENNReal.ofReal (exp (nnigMargLpdf q y)) * ENNReal.ofReal Z) ∧
    ∫⁻ y, ENNReal.ofReal (exp (nnigMargLpdf q y)) = 1 := by
  obtain ⟨k, hk⟩ := c35_cluster_bayes p h hp data c0 c ops hrun
  rw [← hq] at hk
  have hv := c36_nig_valid p h hp data c0 c ops hrun q hq
  obtain ⟨a, b, e⟩ := nigInit_pos hv
  have hpost : ∀ y : ℝ, nigInit (.fixed (nnigPosterior q 1 ⟨y, y ^ 2⟩).mean
      (nnigPosterior q 1 ⟨y, y ^ 2⟩).varScaling (nnigPosterior q 1 ⟨y, y ^ 2⟩).shape
      (nnigPosterior q 1 ⟨y, y ^ 2⟩).scale) = .ok (nnigPosterior q 1 ⟨y, y ^ 2⟩) := by
    intro y
    obtain ⟨a', b', d'⟩ := nnigPosterior_one_pos q a b e y
    exact nigInit_fixed a' b' d'
  have core := fun y => predictive_core (volume : Measure ℝ) (volume : Measure ℝ) measurableSet_Ioi
    (fun v m => uniNormLpdf ⟨m, v⟩ y) (fun v m => ∑ i ∈ c.idx, uniNormLpdf ⟨m, v⟩ (data i))
    (fun v m => nigLpdf h ⟨m, v⟩) (fun v m => nigLpdf q ⟨m, v⟩)
    (fun v m => nigLpdf (nnigPosterior q 1 ⟨y, y ^ 2⟩) ⟨m, v⟩) k (nnigMargLpdf q y)
    (fun v hv m => hk ⟨m, v⟩ hv) (fun v h0 m => c35_bayes_rule _ q hv y ⟨m, v⟩ h0)
    (c95_nig_prior _ q hv) (c95_nig_prior _ _ (hpost y))
  refine ⟨⟨exp k, exp_pos k, (core 0).1, fun y => (core y).2⟩, ?_⟩
  refine lintegral_nnigMarg q a b e fun y => ?_
  obtain ⟨a', b', d'⟩ := nigInit_pos (hpost y)
  exact nigLaw_prob _ a' b' d'

example : ∃ c, runOps uniNormUpd (fun i => (i : ℝ)) (clearAll uniNormZero (exCluster ⟨1, 2⟩))
    exOps = .ok c ∧
    ∫⁻ y, ENNReal.ofReal (exp (nnigMargLpdf (nnigPosterior ⟨3, 1, 2, 4⟩ c.card c.stats) y)) = 1 := by
  obtain ⟨c, hc, hi⟩ := exOps_run uniNormUpd (fun i => (i : ℝ)) uniNormZero (exCluster ⟨1, 2⟩)
  exact ⟨c, hc, (c96_nnig (.fixed 3 1 2 4) _
    (nigInit_fixed (by norm_num) (by norm_num) (by norm_num)) _ _ c exOps hc _ rfl).2⟩

/-- **C96, linear regression.** -/
theorem c96_linreg (p : MNIGPrior d) (h : MNIG d) (hp : mnigInit p = .ok h)
    (data : ℤ → ℝ × (Fin d → ℝ)) (c0 c : Cluster (LinRegStats d) P) (ops : List DataOp)
    (hrun : runOps linRegUpd data (clearAll (linRegZero d) c0) ops = .ok c) (q : MNIG d)
    (hq : q = mnigPosterior h c.card c.stats) (x : Fin d → ℝ) :
    (∃ Z : ℝ, 0 < Z ∧
      ∫⁻ v in Set.Ioi 0, ∫⁻ m, ENNReal.ofReal (exp
        ((∑ i ∈ c.idx, linRegLpdf ⟨m, v⟩ (data i).1 (data i).2) + mnigLpdf h ⟨m, v⟩)) =
          ENNReal.ofReal Z ∧
      ∀ y, ∫⁻ v in Set.Ioi 0, ∫⁻ m, ENNReal.ofReal (exp (linRegLpdf ⟨m, v⟩ y x +
        ((∑ i ∈ c.idx, linRegLpdf ⟨m, v⟩ (data i).1 (data i).2) + mnigLpdf h ⟨m, v⟩))) =
          ENNReal.ofReal (exp (linRegMargLpdf q y x)) * ENNReal.ofReal Z) ∧
    ∫⁻ y, ENNReal.ofReal (exp (linRegMargLpdf q y x)) = 1 := by
  obtain ⟨⟨k, hk⟩, hv⟩ := c37_cluster_bayes p h hp data c0 c ops hrun q hq
  obtain ⟨a, b, e⟩ := mnigInit_pos hv
  have hpost : ∀ y : ℝ, ∃ r, r = mnigPosterior q 1 ⟨y ^ 2, vecMulVec x x, y • x⟩ ∧
      mnigInit (.fixed r.mean r.varScaling r.shape r.scale) = .ok r := by
    intro y
    obtain ⟨a', b', d'⟩ := mnigPosterior_one_pos q a b e y x
    exact ⟨_, rfl, mnigInit_fixed a' b' d'⟩
  have core := fun y => predictive_core (volume : Measure ℝ) (volume : Measure (Fin d → ℝ))
    measurableSet_Ioi
    (fun v m => linRegLpdf ⟨m, v⟩ y x)
    (fun v m => ∑ i ∈ c.idx, linRegLpdf ⟨m, v⟩ (data i).1 (data i).2)
    (fun v m => mnigLpdf h ⟨m, v⟩) (fun v m => mnigLpdf q ⟨m, v⟩)
    (fun v m => mnigLpdf (mnigPosterior q 1 ⟨y ^ 2, vecMulVec x x, y • x⟩) ⟨m, v⟩) k
    (linRegMargLpdf q y x)
    (fun v hv m => hk ⟨m, v⟩ hv) (fun v h0 m => c37_bayes_rule _ q hv y x ⟨m, v⟩ h0)
    (c95_mnig_prior _ q hv) (by
      obtain ⟨r, hr, hr2⟩ := hpost y
      rw [← hr]
      exact c95_mnig_prior _ r hr2)
  refine ⟨⟨exp k, exp_pos k, (core 0).1, fun y => (core y).2⟩, ?_⟩
  refine lintegral_linRegMarg q a b e x fun y => ?_
  obtain ⟨r, hr, hr2⟩ := hpost y
  obtain ⟨a', b', d'⟩ := mnigInit_pos hr2
  rw [← hr]
  exact mnigLaw_prob _ a' b' d'

example : ∃ c, runOps linRegUpd (fun i => ((i : ℝ), ![(2 : ℝ), i]))
    (clearAll (linRegZero 2) (exCluster ⟨1, 2, 3⟩)) exOps = .ok c ∧
    ∫⁻ y, ENNReal.ofReal (exp (linRegMargLpdf (mnigPosterior exMNIG c.card c.stats) y ![1, 4])) =
      1 := by
  obtain ⟨c, hc, hi⟩ := exOps_run linRegUpd (fun i => ((i : ℝ), ![(2 : ℝ), i])) (linRegZero 2)
    (exCluster ⟨1, 2, 3⟩)
  exact ⟨c, hc, (c96_linreg _ _ exMNIG_valid _ _ c exOps hc _ rfl _).2⟩

/-- **C96, multivariate Normal - Normal Wishart.** The likelihood is the one the library evaluates
for states with the lower Cholesky factor (the Normal density; C74 says for which states it evaluates
something else). Missing: the same for the likelihood evaluated at states drawn by the
Normal-Wishart model, which C74 shows to be another function. -/
theorem c96_nnw_partial (p : NWPrior d) (h : NW d) (hp : nwInit p = .ok h)
    (data : ℤ → Fin d → ℝ) (c0 c : Cluster (MultiNormStats d) P) (ops : List DataOp)
    (hrun : runOps multiNormUpd data (clearAll (multiNormZero d) c0) ops = .ok c) (q : NW d)
    (hq : q = nwSetFromProto (nnwPosterior h c.card c.stats)) :
    (∃ Z : ℝ, 0 < Z ∧
      ∫⁻ w in {w : UT d → ℝ | (symOf w).PosDef}, ∫⁻ m, ENNReal.ofReal (exp
        ((∑ i ∈ c.idx, multiNormLpdf (multiLSFromConstrained m (symOf w)) (data i)) +
          nwLpdf h m (symOf w))) = ENNReal.ofReal Z ∧
      ∀ y, ∫⁻ w in {w : UT d → ℝ | (symOf w).PosDef}, ∫⁻ m, ENNReal.ofReal (exp
        (multiNormLpdf (multiLSFromConstrained m (symOf w)) y +
        ((∑ i ∈ c.idx, multiNormLpdf (multiLSFromConstrained m (symOf w)) (data i)) +
          nwLpdf h m (symOf w)))) =
          ENNReal.ofReal (exp (nnwMargLpdf (nwGetProto q) y)) * ENNReal.ofReal Z) ∧
    ∫⁻ y, ENNReal.ofReal (exp (nnwMargLpdf (nwGetProto q) y)) = 1 := by
  obtain ⟨k, hk⟩ := c73_cluster_bayes p h hp data c0 c ops hrun q hq
  have hv := c36_nw_valid p h hp data c0 c ops hrun q hq
  have hval := nwInit_valid hv
  have core := fun y => predictive_core (volume : Measure (UT d → ℝ)) (volume : Measure (Fin d → ℝ))
    measurableSet_posDef
    (fun w m => multiNormLpdf (multiLSFromConstrained m (symOf w)) y)
    (fun w m => ∑ i ∈ c.idx, multiNormLpdf (multiLSFromConstrained m (symOf w)) (data i))
    (fun w m => nwLpdf h m (symOf w)) (fun w m => nwLpdf q m (symOf w))
    (fun w m => nwLpdf (nwSetFromProto (nnwPosterior q 1 ⟨y, vecMulVec y y⟩)) m (symOf w)) k
    (nnwMargLpdf (nwGetProto q) y)
    (fun w hw m => by
      rw [← hk m (symOf w) hw]
      congr 1
      exact Finset.sum_congr rfl fun i _ => multiNormLpdf_lower m (data i) _ hw)
    (fun w hw m => by
      rw [multiNormLpdf_lower m y _ hw]
      exact c73_bayes_rule _ q hv y m (symOf w) hw)
    (lintegral_nw hval) (lintegral_nw (nnwPosterior_one_valid q hval y))
  exact ⟨⟨exp k, exp_pos k, (core 0).1, fun y => (core y).2⟩, lintegral_nnwMarg q hval⟩

example : ∃ c, runOps multiNormUpd (fun i => ![(i : ℝ), 1])
    (clearAll (multiNormZero 2) (exCluster ⟨1, 2⟩)) exOps = .ok c ∧
    ∫⁻ y, ENNReal.ofReal (exp (nnwMargLpdf (nwGetProto
      (nwSetFromProto (nnwPosterior exNW c.card c.stats))) y)) = 1 := by
  obtain ⟨c, hc, hi⟩ := exOps_run multiNormUpd (fun i => ![(i : ℝ), 1]) (multiNormZero 2)
    (exCluster ⟨1, 2⟩)
  exact ⟨c, hc, (c96_nnw_partial _ _ exNW_init _ _ c exOps hc _ rfl).2⟩

end Bayesmix.Hierarchies
