import Verif.Hier.PropsConj
import Verif.Hier.PropsLinReg
import Verif.Hier.PropsNW
import Verif.Hier.FA

/-!
# C81, C82: draws and densities

Generators are arbitrary functions of their parameters, so a statement "for all generators, the
result is this generator called with these parameters" says which distribution is drawn from.
-/

namespace Bayesmix.Hierarchies

open Real Matrix

variable {d : ℕ}

/-! ### C81: prior draws follow the prior density -/

/-- **C81, Normal inverse Gamma.** The variance is drawn first, the mean given the variance,
and the prior log density is the sum of the log densities of the two draws. -/
theorem c81_nig (h : NIG) : ∃ (a b : ℝ) (m s : ℝ → ℝ),
    (∀ invGammaRng normalRng : ℝ → ℝ → ℝ, ∀ st, st = nigSample h invGammaRng normalRng →
      st.var = invGammaRng a b ∧ st.mean = normalRng (m st.var) (s st.var)) ∧
    ∀ st, nigLpdf h st =
      invGammaLpdf st.var a b + normalLpdf st.mean (m st.var) (s st.var) :=
  ⟨h.shape, h.scale, fun _ => h.mean, fun v => sqrt (v / h.varScaling),
    fun ig nr st hst => by subst hst; exact ⟨rfl, rfl⟩, fun st => by rw [nigLpdf, add_comm]⟩

example : (nigSample ⟨3, 4, 2, 9⟩ (fun a b => a * b) (fun m s => m + s)).mean =
    3 + sqrt (18 / 4) := by norm_num [nigSample]

/-- **C81, independent Normal and inverse Gamma.** -/
theorem c81_nxig (h : NxIG) : ∃ a b m s : ℝ,
    (∀ normalRng invGammaRng : ℝ → ℝ → ℝ, ∀ st, st = nxigSample h normalRng invGammaRng →
      st.var = invGammaRng a b ∧ st.mean = normalRng m s) ∧
    ∀ st, nxigLpdf h st = invGammaLpdf st.var a b + normalLpdf st.mean m s :=
  ⟨h.shape, h.scale, h.mean, sqrt h.var,
    fun nr ig st hst => by subst hst; exact ⟨rfl, rfl⟩, fun st => by rw [nxigLpdf, add_comm]⟩

example : (nxigSample ⟨3, 4, 2, 9⟩ (fun m s => m + s) (fun a b => a * b)).mean = 3 + 2 ∧
    (nxigSample ⟨3, 4, 2, 9⟩ (fun m s => m + s) (fun a b => a * b)).var = 18 := by
  have h : sqrt 4 = 2 := by rw [show (4 : ℝ) = 2 ^ 2 by norm_num, Real.sqrt_sq (by norm_num)]
  norm_num [nxigSample, h]

/-- **C81, Normal Wishart.** -/
theorem c81_nw (h : NW d) : ∃ (nu : ℝ) (S : Matrix (Fin d) (Fin d) ℝ) (m : Fin d → ℝ)
    (P : Matrix (Fin d) (Fin d) ℝ → Matrix (Fin d) (Fin d) ℝ),
    (∀ (wishartRng : ℝ → Matrix (Fin d) (Fin d) ℝ → Matrix (Fin d) (Fin d) ℝ)
      (normalPrecRng : (Fin d → ℝ) → Matrix (Fin d) (Fin d) ℝ → Fin d → ℝ),
      ∀ st, st = nwSample (nwGetProto h) wishartRng normalPrecRng →
        st.prec = wishartRng nu S ∧ st.mean = normalPrecRng m (P st.prec)) ∧
    ∀ mu W, nwLpdf h mu W = wishartLpdf W nu S + stanMultiNormalPrecLpdf mu m (P W) :=
  ⟨h.degFree, h.scale, h.mean, fun W => h.varScaling • W,
    fun wr nr st hst => by subst hst; exact ⟨rfl, rfl⟩, fun mu W => by rw [nwLpdf, add_comm]⟩

/-- **C81, multivariate Normal inverse Gamma.** -/
theorem c81_mnig (h : MNIG d) : ∃ (a b : ℝ) (m : Fin d → ℝ)
    (P : ℝ → Matrix (Fin d) (Fin d) ℝ),
    (∀ (invGammaRng : ℝ → ℝ → ℝ)
      (normalPrecRng : (Fin d → ℝ) → Matrix (Fin d) (Fin d) ℝ → Fin d → ℝ),
      ∀ st, st = mnigSample h invGammaRng normalPrecRng →
        st.var = invGammaRng a b ∧ st.regressionCoeffs = normalPrecRng m (P st.var)) ∧
    ∀ st, mnigLpdf h st =
      invGammaLpdf st.var a b + stanMultiNormalPrecLpdf st.regressionCoeffs m (P st.var) :=
  ⟨h.shape, h.scale, h.mean, fun v => (1 / v) • h.varScaling,
    fun ig nr st hst => by subst hst; exact ⟨rfl, rfl⟩, fun st => by rw [mnigLpdf, add_comm]⟩

/-- **C81, Gamma.** The rate is drawn, the shape is the fixed one of the prior model. -/
theorem c81_gamma (shape : ℝ) (h : GammaHypers) : ∃ a b : ℝ,
    (∀ gammaRng : ℝ → ℝ → ℝ, ∀ st, st = gammaSample shape h gammaRng →
      st.rate = gammaRng a b ∧ st.shape = shape) ∧
    ∀ rate, gammaPriorLpdf h rate = gammaLpdf rate a b :=
  ⟨h.rateAlpha, h.rateBeta, fun gr st hst => by subst hst; exact ⟨rfl, rfl⟩, fun _ => rfl⟩

example : gammaSample 5 ⟨2, 3⟩ (fun a b => a / b) = ⟨5, 2 / 3⟩ := rfl

/-- **C81, factor analysis.** Means, noise variances and loadings are separate draws (no two of
the calls of `normal_rng` are the same), and the prior log density is the sum of theirs. -/
theorem c81_fa {p q : ℕ} (h : FAHypers p) : ∃ (m s a b : Fin p → ℝ) (ml sl : Fin p → Fin q → ℝ)
    (call : Fin p ⊕ Fin p × Fin q → ℕ) (callPsi : Fin p → ℕ),
    Function.Injective call ∧ Function.Injective callPsi ∧
    (∀ (rng : FARngs p q) st, st = faPriorSample q h rng →
      (∀ j, st.mu j = rng.normal (call (.inl j)) (m j) (s j)) ∧
      (∀ j, st.psi j = rng.invGamma (callPsi j) (a j) (b j)) ∧
      ∀ j i, st.lambda j i = rng.normal (call (.inr (j, i))) (ml j i) (sl j i)) ∧
    ∀ (mu psi : Fin p → ℝ) (lambda : Matrix (Fin p) (Fin q) ℝ), faPriorLpdf h mu psi lambda =
      (∑ j, normalLpdf (mu j) (m j) (s j)) + (∑ j, invGammaLpdf (psi j) (a j) (b j)) +
        ∑ j, ∑ i, normalLpdf (lambda j i) (ml j i) (sl j i) := by
  refine ⟨h.mutilde, fun _ => sqrt h.phi, fun _ => h.alpha0, h.beta, fun _ _ => 0, fun _ _ => 1,
    fun x => match x with
      | .inl j => j * (q + 1)
      | .inr (j, i) => j * (q + 1) + 1 + i, fun j => j, ?_, Fin.val_injective, ?_, ?_⟩
  · have key : ∀ (j j' i i' : ℕ), i < q + 1 → i' < q + 1 →
        j * (q + 1) + i = j' * (q + 1) + i' → j = j' ∧ i = i' := by
      intro j j' i i' hi hi' he
      have h1 : j = j' := by
        have e1 : (j * (q + 1) + i) / (q + 1) = j := by
          rw [mul_comm, Nat.mul_add_div (by omega), Nat.div_eq_of_lt hi, add_zero]
        have e2 : (j' * (q + 1) + i') / (q + 1) = j' := by
          rw [mul_comm, Nat.mul_add_div (by omega), Nat.div_eq_of_lt hi', add_zero]
        rw [← e1, ← e2, he]
      subst h1
      exact ⟨rfl, by omega⟩
    rintro (j | ⟨j, i⟩) (j' | ⟨j', i'⟩) he
    · obtain ⟨h1, -⟩ := key j j' 0 0 (by omega) (by omega) (by simpa using he)
      rw [Fin.ext h1]
    · obtain ⟨-, h2⟩ := key j j' 0 (1 + i') (by omega) (by omega) (by simpa [add_assoc] using he)
      omega
    · obtain ⟨-, h2⟩ := key j j' (1 + i) 0 (by omega) (by omega) (by simpa [add_assoc] using he)
      omega
    · obtain ⟨h1, h2⟩ := key j j' (1 + i) (1 + i') (by omega) (by omega)
        (by simpa [add_assoc] using he)
      rw [Fin.ext h1, Fin.ext (by omega : (i : ℕ) = i')]
  · rintro rng st rfl
    exact ⟨fun j => rfl, fun j => rfl, fun j i => rfl⟩
  · intro mu psi lambda
    rw [faPriorLpdf, Finset.sum_add_distrib, Finset.sum_add_distrib]

/-- C81: two variables, one factor; the generators return the number of the call. -/
example : ∃ st : FA 2 1, st = faPriorSample 1 ⟨0, fun _ => 1, 1, 3⟩
      ⟨fun k _ _ => (k : ℝ), fun k _ _ => (k : ℝ) + 1, fun _ _ _ => 0, fun _ _ => 0⟩ ∧
    st.mu 1 = 2 ∧ st.psi 1 = 2 ∧ st.lambda 0 0 = 1 ∧ st.lambda 1 0 = 3 := by
  refine ⟨_, rfl, ?_, ?_, ?_, ?_⟩ <;> norm_num [faPriorSample]

/-! ### C82: conjugate draws are draws from the full conditional -/

/-- **C82, Gamma.** Likelihood times prior is proportional to the density with the posterior
hyperparameters, for a cluster reached by any insertions and removals. -/
theorem c82_gamma_bayes {P : Type} (shape : ℝ) (h : GammaHypers) (data : ℤ → ℝ)
    (c0 c : Cluster GammaStats P) (ops : List DataOp)
    (hrun : runOps gammaUpd data (clearAll gammaZero c0) ops = .ok c) :
    ∃ k : ℝ, ∀ rate : ℝ,
      (∑ i ∈ c.idx, gammaLikeLpdf ⟨shape, rate⟩ (data i)) + gammaPriorLpdf h rate =
        k + gammaPriorLpdf (gammaPosterior shape h c.card c.stats) rate := by
  obtain ⟨h1, h2⟩ := c34_gamma data c0 c ops hrun
  have h3 := (c34_cardinality gammaUpd data gammaZero c0 c ops hrun).1
  rcases eq_or_ne c.card 0 with h0 | h0
  · have he : c.idx = ∅ := by
      rw [h0] at h3
      exact Finset.card_eq_zero.mp (by exact_mod_cast h3.symm)
    refine ⟨0, fun rate => ?_⟩
    rw [he, gammaPosterior, if_pos h0]; simp
  · obtain ⟨q, hq⟩ : ∃ q, q = gammaPosterior shape h c.card c.stats := ⟨_, rfl⟩
    rw [← hq]
    rw [gammaPosterior, if_neg h0] at hq
    refine ⟨h.rateAlpha * log h.rateBeta - log (Gamma h.rateAlpha)
      + (∑ i ∈ c.idx, ((shape - 1) * log (data i) - log (Gamma shape)))
      - (q.rateAlpha * log q.rateBeta - log (Gamma q.rateAlpha)), fun rate => ?_⟩
    have e : ∑ i ∈ c.idx, gammaLikeLpdf ⟨shape, rate⟩ (data i) =
        (∑ i ∈ c.idx, ((shape - 1) * log (data i) - log (Gamma shape)))
          + c.idx.card * (shape * log rate) - rate * ∑ i ∈ c.idx, data i := by
      rw [Finset.mul_sum, ← nsmul_eq_mul, ← Finset.sum_const, ← Finset.sum_add_distrib,
        ← Finset.sum_sub_distrib]
      refine Finset.sum_congr rfl fun i _ => ?_
      simp only [gammaLikeLpdf, gammaLpdf]
      ring
    have e1 : q.rateAlpha = h.rateAlpha + shape * c.idx.card := by rw [hq, h2]; push_cast; rfl
    have e2 : q.rateBeta = h.rateBeta + ∑ i ∈ c.idx, data i := by rw [hq, h1]
    rw [e]
    simp only [gammaPriorLpdf, gammaLpdf]
    rw [← sub_eq_zero]
    rw [show (q.rateAlpha - 1) * log rate =
      (h.rateAlpha - 1) * log rate + shape * c.idx.card * log rate by rw [e1]; ring]
    rw [show q.rateBeta * rate = h.rateBeta * rate + rate * ∑ i ∈ c.idx, data i by rw [e2]; ring]
    ring

example : ∃ c, runOps gammaUpd (fun i => (i : ℝ) ^ 2 + 1) (clearAll gammaZero (exCluster ⟨1, 2⟩))
    exOps = .ok c ∧ c.card = 2 := by
  obtain ⟨c, hc, hi⟩ := exOps_run gammaUpd (fun i => (i : ℝ) ^ 2 + 1) gammaZero (exCluster ⟨1, 2⟩)
  refine ⟨c, hc, ?_⟩
  rw [(c34_cardinality gammaUpd _ gammaZero _ c exOps hc).1, hi]; rfl

/-- **C82, Gamma draws.** -/
theorem c82_gamma_draw (shape : ℝ) (h : GammaHypers) (data : ℤ → ℝ)
    (c0 c : Cluster GammaStats GammaState) (ops : List DataOp)
    (hrun : runOps gammaUpd data (clearAll gammaZero c0) ops = .ok c) :
    ∃ a b : ℝ,
      (∀ gammaRng : ℝ → ℝ → ℝ, ∀ c', c' = gammaDraw shape h c gammaRng →
        c'.state.rate = gammaRng a b ∧ c'.state.shape = shape ∧
        c'.idx = c.idx ∧ c'.card = c.card ∧ c'.stats = c.stats) ∧
      ∃ k : ℝ, ∀ rate : ℝ,
        (∑ i ∈ c.idx, gammaLikeLpdf ⟨shape, rate⟩ (data i)) + gammaPriorLpdf h rate =
          k + gammaLpdf rate a b := by
  obtain ⟨k, hk⟩ := c82_gamma_bayes shape h data c0 c ops hrun
  refine ⟨(gammaPosterior shape h c.card c.stats).rateAlpha,
    (gammaPosterior shape h c.card c.stats).rateBeta, ?_, k, fun rate => ?_⟩
  · rintro gr c' rfl
    unfold gammaDraw
    by_cases h0 : c.card = 0
    · rw [if_pos h0, gammaPosterior, if_pos h0]; exact ⟨rfl, rfl, rfl, rfl, rfl⟩
    · rw [if_neg h0]; exact ⟨rfl, rfl, rfl, rfl, rfl⟩
  · exact hk rate

/-- **C82, Normal inverse Gamma.** The draw of a cluster reached by any insertions and removals
is a draw from the distribution proportional to likelihood of the members times prior. -/
theorem c82_nnig_draw (p : NIGPrior) (h : NIG) (hp : nigInit p = .ok h) (data : ℤ → ℝ)
    (c0 c : Cluster UniNormStats UniLS) (ops : List DataOp)
    (hrun : runOps uniNormUpd data (clearAll uniNormZero c0) ops = .ok c) :
    ∃ (a b : ℝ) (m s : ℝ → ℝ),
      (∀ normalRng invGammaRng : ℝ → ℝ → ℝ, ∀ c', c' = nnigDraw h c normalRng invGammaRng →
        c'.state.var = invGammaRng a b ∧
        c'.state.mean = normalRng (m c'.state.var) (s c'.state.var) ∧
        c'.idx = c.idx ∧ c'.card = c.card ∧ c'.stats = c.stats) ∧
      ∃ k : ℝ, ∀ st : UniLS, 0 < st.var →
        (∑ i ∈ c.idx, uniNormLpdf st (data i)) + nigLpdf h st =
          k + (invGammaLpdf st.var a b + normalLpdf st.mean (m st.var) (s st.var)) := by
  obtain ⟨k, hk⟩ := c35_cluster_bayes p h hp data c0 c ops hrun
  obtain ⟨a, b, m, s, h1, h2⟩ := c81_nig (nnigPosterior h c.card c.stats)
  refine ⟨a, b, m, s, ?_, k, fun st hv => by rw [hk st hv, h2]⟩
  rintro nr ig c' rfl
  obtain ⟨e1, e2⟩ := h1 ig nr _ rfl
  unfold nnigDraw
  by_cases h0 : c.card = 0
  · rw [nnigPosterior, if_pos h0] at e1 e2
    rw [if_pos h0]; exact ⟨e1, e2, rfl, rfl, rfl⟩
  · rw [if_neg h0]; exact ⟨e1, e2, rfl, rfl, rfl⟩

/-- **C82, linear regression.** -/
theorem c82_lin_reg_draw (p : MNIGPrior d) (h : MNIG d) (hp : mnigInit p = .ok h)
    (data : ℤ → ℝ × (Fin d → ℝ)) (c0 c : Cluster (LinRegStats d) (UniLinRegLS d))
    (ops : List DataOp)
    (hrun : runOps linRegUpd data (clearAll (linRegZero d) c0) ops = .ok c) :
    ∃ (a b : ℝ) (m : Fin d → ℝ) (W : ℝ → Matrix (Fin d) (Fin d) ℝ),
      (∀ (invGammaRng : ℝ → ℝ → ℝ)
        (normalPrecRng : (Fin d → ℝ) → Matrix (Fin d) (Fin d) ℝ → Fin d → ℝ), ∀ c',
        c' = mnigDraw h c invGammaRng normalPrecRng →
        c'.state.var = invGammaRng a b ∧
        c'.state.regressionCoeffs = normalPrecRng m (W c'.state.var) ∧
        c'.idx = c.idx ∧ c'.card = c.card ∧ c'.stats = c.stats) ∧
      ∃ k : ℝ, ∀ st : UniLinRegLS d, 0 < st.var →
        (∑ i ∈ c.idx, linRegLpdf st (data i).1 (data i).2) + mnigLpdf h st =
          k + (invGammaLpdf st.var a b +
            stanMultiNormalPrecLpdf st.regressionCoeffs m (W st.var)) := by
  obtain ⟨⟨k, hk⟩, -⟩ := c37_cluster_bayes p h hp data c0 c ops hrun _ rfl
  obtain ⟨a, b, m, s, h1, h2⟩ := c81_mnig (mnigPosterior h c.card c.stats)
  refine ⟨a, b, m, s, ?_, k, fun st hv => by rw [hk st hv, h2]⟩
  rintro ig nr c' rfl
  obtain ⟨e1, e2⟩ := h1 ig nr _ rfl
  unfold mnigDraw
  by_cases h0 : c.card = 0
  · rw [mnigPosterior, if_pos h0] at e1 e2
    rw [if_pos h0]; exact ⟨e1, e2, rfl, rfl, rfl⟩
  · rw [if_neg h0]; exact ⟨e1, e2, rfl, rfl, rfl⟩

/-- **C82, Normal Wishart.** -/
theorem c82_nnw_draw (p : NWPrior d) (h : NW d) (hp : nwInit p = .ok h)
    (data : ℤ → Fin d → ℝ) (c0 c : Cluster (MultiNormStats d) (MultiLS d)) (ops : List DataOp)
    (hrun : runOps multiNormUpd data (clearAll (multiNormZero d) c0) ops = .ok c) :
    ∃ (nu : ℝ) (S : Matrix (Fin d) (Fin d) ℝ) (m : Fin d → ℝ)
      (W : Matrix (Fin d) (Fin d) ℝ → Matrix (Fin d) (Fin d) ℝ),
      (∀ (wishartRng : ℝ → Matrix (Fin d) (Fin d) ℝ → Matrix (Fin d) (Fin d) ℝ)
        (normalPrecRng : (Fin d → ℝ) → Matrix (Fin d) (Fin d) ℝ → Fin d → ℝ), ∀ c',
        c' = nnwDraw h c wishartRng normalPrecRng →
        c'.state.prec = wishartRng nu S ∧ c'.state.mean = normalPrecRng m (W c'.state.prec) ∧
        c'.idx = c.idx ∧ c'.card = c.card ∧ c'.stats = c.stats) ∧
      ∃ k : ℝ, ∀ (mu : Fin d → ℝ) (T : Matrix (Fin d) (Fin d) ℝ), T.PosDef →
        (∑ i ∈ c.idx, stanMultiNormalPrecLpdf (data i) mu T) + nwLpdf h mu T =
          k + (wishartLpdf T nu S + stanMultiNormalPrecLpdf mu m (W T)) := by
  obtain ⟨k, hk⟩ := c73_cluster_bayes p h hp data c0 c ops hrun _ rfl
  obtain ⟨a, b, m, s, h1, h2⟩ := c81_nw (nwSetFromProto (nnwPosterior h c.card c.stats))
  refine ⟨a, b, m, s, ?_, k, fun mu T hT => by rw [hk mu T hT, h2]⟩
  rintro wr nr c' rfl
  obtain ⟨e1, e2⟩ := h1 wr nr _ rfl
  have hgs : nwGetProto (nwSetFromProto (nnwPosterior h c.card c.stats)) =
      nnwPosterior h c.card c.stats := rfl
  rw [hgs] at e1 e2
  unfold nnwDraw
  by_cases h0 : c.card = 0
  · rw [nnwPosterior, if_pos h0] at e1 e2
    rw [if_pos h0]; exact ⟨e1, e2, rfl, rfl, rfl⟩
  · rw [if_neg h0]; exact ⟨e1, e2, rfl, rfl, rfl⟩

/-- The hypotheses of the draws can be met: two data left after insertions and a removal. -/
example : ∃ c, runOps uniNormUpd (fun i => (i : ℝ)) (clearAll uniNormZero (exCluster ⟨1, 2⟩))
    exOps = .ok c ∧ c.card = 2 ∧ nigInit (.fixed 3 1 2 4) = .ok ⟨3, 1, 2, 4⟩ := by
  obtain ⟨c, hc, hi⟩ := exOps_run uniNormUpd (fun i => (i : ℝ)) uniNormZero (exCluster ⟨1, 2⟩)
  refine ⟨c, hc, ?_, nigInit_fixed (by norm_num) (by norm_num) (by norm_num)⟩
  rw [(c34_cardinality uniNormUpd _ uniNormZero _ c exOps hc).1, hi]; rfl

end Bayesmix.Hierarchies
