import Verif.Algo.SemiConjLaw
import Verif.Algo.PropsTotalMass

/-!
# C151: the draw of a Normal x inverse Gamma cluster and the posterior law of its state
-/

namespace Bayesmix.Chain
open Bayesmix Cond Hierarchies MeasureTheory ENNReal ProbabilityTheory

variable {Z W : Type} [MeasurableSpace Z] [MeasurableSpace W] {ζ : Measure Z} {gen : Z → ℝ → ℝ → ℝ}
  {ω : Measure W} {ig : W → ℝ → ℝ → ℝ}

/-- A draw from a state with the posterior law of the rows of the cluster leaves a state with that law. -/
def LsDrawKept (h : NxIG) (gen : Z → ℝ → ℝ → ℝ) (ζ : Measure Z) (ig : W → ℝ → ℝ → ℝ) (ω : Measure W)
    (data : ℤ → ℝ) (c : Cluster UniNormStats UniLS) : Prop :=
  ∀ φ : UniLS → ℝ≥0∞, Measurable φ →
    lsPostMean h data c.idx (lsDrawMean h gen ζ ig ω c φ) = lsPostMean h data c.idx φ

/-- The mean of a function of the mean times a function of the variance after the draw. -/
theorem lsDrawMean_mul (hg : NormalGen ζ gen) (hi : GenLaw ω ig invGammaLaw) {h : NxIG}
    {c : Cluster UniNormStats UniLS} (h0 : c.card ≠ 0) {m v : ℝ}
    (h1 : 0 < (nnxigPosterior h ⟨m, v⟩ c.card c.stats).var)
    (h2 : 0 < (nnxigPosterior h ⟨m, v⟩ c.card c.stats).shape)
    (h3 : 0 < (nnxigPosterior h ⟨m, v⟩ c.card c.stats).scale) {f g : ℝ → ℝ≥0∞} (hf : Measurable f)
    (hgm : Measurable g) :
    lsDrawMean h gen ζ ig ω c (fun st => f st.mean * g st.var) ⟨m, v⟩ =
      (∫⁻ x, f x ∂normalLaw (nnxigPosterior h ⟨m, v⟩ c.card c.stats).mean
        (Real.sqrt (nnxigPosterior h ⟨m, v⟩ c.card c.stats).var)) *
      ∫⁻ x, g x ∂invGammaLaw (nnxigPosterior h ⟨m, v⟩ c.card c.stats).shape
        (nnxigPosterior h ⟨m, v⟩ c.card c.stats).scale := by
  have hs := Real.sqrt_pos.2 h1
  rw [← hg.lintegral hs hf, ← hi.lintegral h2 h3 hgm]
  have hm1 : Measurable fun w => g (ig w (nnxigPosterior h ⟨m, v⟩ c.card c.stats).shape
      (nnxigPosterior h ⟨m, v⟩ c.card c.stats).scale) := hgm.comp (hi.meas _ _ h2 h3)
  have hm2 : Measurable fun z => f (gen z (nnxigPosterior h ⟨m, v⟩ c.card c.stats).mean
      (Real.sqrt (nnxigPosterior h ⟨m, v⟩ c.card c.stats).var)) := hf.comp (hg.meas _ _ hs)
  rw [← lintegral_mul_const _ hm2]
  unfold lsDrawMean
  refine lintegral_congr fun z => ?_
  rw [← lintegral_const_mul _ hm1]
  refine lintegral_congr fun w => ?_
  rw [nnxigDraw, if_neg h0]
  rfl

/-- Both full conditionals of a cluster with rows, in terms of the density of its state. -/
theorem ls_conditionals (p : NxIGPrior) (h : NxIG)
    (hp : nxigInit p = .ok h) (data : ℤ → ℝ) (c0 c : Cluster UniNormStats UniLS) (ops : List DataOp)
    (hrun : runOps uniNormUpd data (clearAll uniNormZero c0) ops = .ok c) (h0 : c.card ≠ 0) :
    ∃ (M V B : ℝ → ℝ) (A : ℝ), 0 < A ∧ (∀ v, 0 < v → 0 < V v) ∧ (∀ m, 0 < B m) ∧ Measurable B ∧
      Measurable M ∧ Measurable V ∧
      (∀ m v, nnxigPosterior h ⟨m, v⟩ c.card c.stats = ⟨M v, V v, A, B m⟩) ∧
      (∀ v, 0 < v → ∃ k : ℝ, ∀ m, clusterDens h data c.idx (m, v) = ENNReal.ofReal (Real.exp k) *
        ENNReal.ofReal (Real.exp (normalLpdf m (M v) (Real.sqrt (V v))))) ∧
      ∀ m, ∃ k : ℝ, ∀ v, 0 < v → clusterDens h data c.idx (m, v) = ENNReal.ofReal (Real.exp k) *
        ENNReal.ofReal (Real.exp (invGammaLpdf v A (B m))) := by
  obtain ⟨hv0, ha, hb⟩ := nxigInit_pos hp
  obtain ⟨hs1, hs2⟩ := c34_uni_norm data c0 c ops hrun
  have h3 := (c34_cardinality uniNormUpd data uniNormZero c0 c ops hrun).1
  obtain ⟨n, hn⟩ : ∃ n : ℝ, n = c.card := ⟨_, rfl⟩
  obtain ⟨s, hs⟩ : ∃ s, s = c.stats.dataSum := ⟨_, rfl⟩
  have hn0 : 0 < n := by
    rw [hn]
    have : (0 : ℤ) < c.card := by omega
    exact_mod_cast this
  obtain ⟨M, hM⟩ : ∃ M : ℝ → ℝ, M = fun v => (h.var * s + v * h.mean) / (n * h.var + v) := ⟨_, rfl⟩
  obtain ⟨V, hV⟩ : ∃ V : ℝ → ℝ, V = fun v => v * h.var / (n * h.var + v) := ⟨_, rfl⟩
  obtain ⟨B, hB⟩ : ∃ B : ℝ → ℝ, B = fun m => h.scale + 0.5 *
    (c.stats.dataSumSquares - 2 * m * s + n * m * m) := ⟨_, rfl⟩
  have hpost : ∀ m v, nnxigPosterior h ⟨m, v⟩ c.card c.stats =
      ⟨M v, V v, h.shape + 0.5 * n, B m⟩ := by
    intro m v
    rw [nnxigPosterior, if_neg h0, hM, hV, hB, hn, hs]
  refine ⟨M, V, B, h.shape + 0.5 * n, by positivity, ?_, ?_, by rw [hB]; fun_prop, by rw [hM]; fun_prop,
    by rw [hV]; fun_prop, hpost, ?_, ?_⟩
  · intro v hv; rw [hV]; positivity
  · intro m
    have h5 := cluster_sum_sq c.idx data m
    have h6 : 0 ≤ ∑ i ∈ c.idx, (data i - m) ^ 2 := Finset.sum_nonneg fun i _ => sq_nonneg _
    rw [← h5, ← hs1, ← hs2, ← h3, ← hn, ← hs] at h6
    rw [hB]
    dsimp only
    linarith
  · intro v hv
    obtain ⟨k, hk⟩ := c39_mean_conditional p h hp data c0 c ops hrun ⟨0, v⟩ hv
    refine ⟨k, fun m => ?_⟩
    have := hk m
    rw [hpost] at this
    rw [clusterDens, this, Real.exp_add, ENNReal.ofReal_mul (Real.exp_pos _).le]
  · intro m
    obtain ⟨k, hk⟩ := c39_variance_conditional p h hp data c0 c ops hrun ⟨m, 1⟩
    refine ⟨k, fun v hv => ?_⟩
    have := hk v hv
    rw [hpost] at this
    rw [clusterDens, this, Real.exp_add, ENNReal.ofReal_mul (Real.exp_pos _).le]

/-- **C151, violated.** For every prior and every cluster with at least one row, whatever the data:
the posterior law of the state has positive finite mass, and the draw does not keep it. -/
theorem c151_violated (hg : NormalGen ζ gen) (hi : GenLaw ω ig invGammaLaw) (p : NxIGPrior) (h : NxIG)
    (hp : nxigInit p = .ok h) (data : ℤ → ℝ) (c0 c : Cluster UniNormStats UniLS) (ops : List DataOp)
    (hrun : runOps uniNormUpd data (clearAll uniNormZero c0) ops = .ok c) (h0 : c.card ≠ 0) :
    lsPostMean h data c.idx (fun _ => 1) ≠ 0 ∧ lsPostMean h data c.idx (fun _ => 1) ≠ ∞ ∧
    ¬ LsDrawKept h gen ζ ig ω data c := by
  obtain ⟨hv0, ha, hb⟩ := nxigInit_pos hp
  have hfin := clusterDens_finite h hv0 ha hb data c.idx
  refine ⟨by simpa only [lsPostMean, mul_one] using clusterDens_mass_ne h data c.idx,
    by simpa only [lsPostMean, mul_one] using hfin, fun hk => ?_⟩
  obtain ⟨hs1, hs2⟩ := c34_uni_norm data c0 c ops hrun
  have h3 := (c34_cardinality uniNormUpd data uniNormZero c0 c ops hrun).1
  obtain ⟨n, hn⟩ : ∃ n : ℝ, n = c.card := ⟨_, rfl⟩
  obtain ⟨s, hs⟩ : ∃ s, s = c.stats.dataSum := ⟨_, rfl⟩
  have hn0 : 0 < n := by
    rw [hn]
    have : (0 : ℤ) < c.card := by omega
    exact_mod_cast this
  -- the parameters of the two full conditionals
  obtain ⟨M, hM⟩ : ∃ M : ℝ → ℝ, M = fun v => (h.var * s + v * h.mean) / (n * h.var + v) := ⟨_, rfl⟩
  obtain ⟨V, hV⟩ : ∃ V : ℝ → ℝ, V = fun v => v * h.var / (n * h.var + v) := ⟨_, rfl⟩
  obtain ⟨B, hB⟩ : ∃ B : ℝ → ℝ, B = fun m => h.scale + 0.5 *
    (c.stats.dataSumSquares - 2 * m * s + n * m * m) := ⟨_, rfl⟩
  have hpost : ∀ m v, nnxigPosterior h ⟨m, v⟩ c.card c.stats =
      ⟨M v, V v, h.shape + 0.5 * n, B m⟩ := by
    intro m v
    rw [nnxigPosterior, if_neg h0, hM, hV, hB, hn, hs]
  have hVpos : ∀ v, 0 < v → 0 < V v := by intro v hv; rw [hV]; positivity
  have hApos : 0 < h.shape + 0.5 * n := by positivity
  have hBpos : ∀ m, 0 < B m := by
    intro m
    have h5 := cluster_sum_sq c.idx data m
    have h6 : 0 ≤ ∑ i ∈ c.idx, (data i - m) ^ 2 := Finset.sum_nonneg fun i _ => sq_nonneg _
    rw [← h5, ← hs1, ← hs2, ← h3, ← hn, ← hs] at h6
    rw [hB]
    dsimp only
    linarith
  have hBm : Measurable B := by rw [hB]; fun_prop
  -- the density factorises both ways
  have hD1 : ∀ v, 0 < v → ∃ k : ℝ, ∀ m, clusterDens h data c.idx (m, v) =
      ENNReal.ofReal (Real.exp k) * ENNReal.ofReal (Real.exp (normalLpdf m (M v) (Real.sqrt (V v)))) := by
    intro v hv
    obtain ⟨k, hk⟩ := c39_mean_conditional p h hp data c0 c ops hrun ⟨0, v⟩ hv
    refine ⟨k, fun m => ?_⟩
    have := hk m
    rw [hpost] at this
    rw [clusterDens, this, Real.exp_add, ENNReal.ofReal_mul (Real.exp_pos _).le]
  have hD2 : ∀ m, ∃ k : ℝ, ∀ v, 0 < v → clusterDens h data c.idx (m, v) =
      ENNReal.ofReal (Real.exp k) *
        ENNReal.ofReal (Real.exp (invGammaLpdf v (h.shape + 0.5 * n) (B m))) := by
    intro m
    obtain ⟨k, hk⟩ := c39_variance_conditional p h hp data c0 c ops hrun ⟨m, 1⟩
    refine ⟨k, fun v hv => ?_⟩
    have := hk v hv
    rw [hpost] at this
    rw [clusterDens, this, Real.exp_add, ENNReal.ofReal_mul (Real.exp_pos _).le]
  -- the test function
  obtain ⟨f, hf⟩ : ∃ f : ℝ → ℝ≥0∞, f = fun m => ENNReal.ofReal ((m - h.mean) ^ 2) := ⟨_, rfl⟩
  obtain ⟨H, hH⟩ : ∃ H : ℝ → ℝ≥0∞, H = fun v => ENNReal.ofReal (meanSq h n s v) := ⟨_, rfl⟩
  have hfm : Measurable f := by rw [hf]; fun_prop
  have hHm : Measurable H := by rw [hH]; exact (measurable_meanSq h n s).ennreal_ofReal
  have hfH : ∀ v, 0 < v → ∫⁻ x, f x ∂normalLaw (M v) (Real.sqrt (V v)) = H v := by
    intro v hv
    have := normalLaw_sq (M v) (M v - h.mean) (Real.sqrt_pos.2 (hVpos v hv)) le_rfl 1
    rw [Real.sq_sqrt (hVpos v hv).le] at this
    rw [hH, hf]
    dsimp only
    rw [meanSq]
    simp only [hV, hM] at this ⊢
    convert this using 2
    · funext y
      congr 1
      ring
    · ring
  obtain ⟨G, hG⟩ : ∃ G : ℝ → ℝ≥0∞, G = fun m =>
    ∫⁻ v, H v ∂invGammaLaw (h.shape + 0.5 * n) (B m) := ⟨_, rfl⟩
  have hGe : ∀ m, G m = ∫⁻ v in Set.Ioi 0,
      ENNReal.ofReal (Real.exp (invGammaLpdf v (h.shape + 0.5 * n) (B m))) * H v := by
    intro m
    rw [hG]
    exact lintegral_invGammaLaw _ _ hHm
  have hGm : Measurable G := by
    have e : G = fun m => ∫⁻ v in Set.Ioi 0,
      ENNReal.ofReal (Real.exp (invGammaLpdf v (h.shape + 0.5 * n) (B m))) * H v := funext hGe
    rw [e]
    have : Measurable fun q : ℝ × ℝ =>
        ENNReal.ofReal (Real.exp (invGammaLpdf q.2 (h.shape + 0.5 * n) (B q.1))) * H q.2 := by
      refine Measurable.mul ?_ (hHm.comp measurable_snd)
      have hB2 : Measurable fun q : ℝ × ℝ => B q.1 := hBm.comp measurable_fst
      unfold invGammaLpdf
      fun_prop
    exact this.lintegral_prod_right'
  obtain ⟨C, hC⟩ : ∃ C, C = ENNReal.ofReal
    (h.var + (h.var * (s - n * h.mean)) ^ 2 / (n * h.var) ^ 2) := ⟨_, rfl⟩
  have hHC : ∀ v, 0 < v → H v ≤ C := by
    intro v hv
    rw [hH, hC]
    exact ENNReal.ofReal_le_ofReal (meanSq_le h hv0 hn0 hv)
  have hGC : ∀ m, G m ≤ C := by
    intro m
    have hpr := invGammaLaw_prob hApos (hBpos m)
    rw [hG]
    have hae : ∀ᵐ v ∂invGammaLaw (h.shape + 0.5 * n) (B m), H v ≤ C := by
      unfold invGammaLaw
      refine (withDensity_absolutelyContinuous _ _).ae_le ?_
      filter_upwards [ae_restrict_mem measurableSet_Ioi] with v hv using hHC v hv
    refine (lintegral_mono_ae hae).trans ?_
    simp
  have hDm := measurable_clusterDens h data c.idx
  -- the law is kept at the test function
  have hφ : Measurable fun st : UniLS => f st.mean * H st.var :=
    (hfm.comp measurable_mean).mul (hHm.comp measurable_var)
  have hkept := hk _ hφ
  simp only [lsPostMean] at hkept
  have hL : ∫⁻ q, clusterDens h data c.idx q *
        lsDrawMean h gen ζ ig ω c (fun st => f st.mean * H st.var) ⟨q.1, q.2⟩ ∂lsVol =
      ∫⁻ q, clusterDens h data c.idx q * (H q.2 * G q.1) ∂lsVol := by
    refine lintegral_congr_ae ?_
    filter_upwards [lsVol_ae] with q hq
    rw [lsDrawMean_mul hg hi h0 (by rw [hpost]; exact hVpos _ hq) (by rw [hpost]; exact hApos)
      (by rw [hpost]; exact hBpos _) hfm hHm, hpost, hfH _ hq, hG]
  have hR : ∫⁻ q, clusterDens h data c.idx q * (f q.1 * H q.2) ∂lsVol =
      ∫⁻ q, clusterDens h data c.idx q * (H q.2 * H q.2) ∂lsVol := by
    have n1 : Measurable fun q : ℝ × ℝ => clusterDens h data c.idx q * (f q.1 * H q.2) :=
      hDm.mul ((hfm.comp measurable_fst).mul (hHm.comp measurable_snd))
    have n2 : Measurable fun q : ℝ × ℝ => clusterDens h data c.idx q * (H q.2 * H q.2) :=
      hDm.mul ((hHm.comp measurable_snd).mul (hHm.comp measurable_snd))
    rw [lsVol, lintegral_prod_symm' _ n1, lintegral_prod_symm' _ n2]
    refine setLIntegral_congr_fun measurableSet_Ioi fun v hv => ?_
    have hv : 0 < v := hv
    obtain ⟨k, hk⟩ := hD1 v hv
    have m1 := measurable_normalDens (M v) (Real.sqrt (V v))
    have m2 : Measurable fun m => ENNReal.ofReal (Real.exp (normalLpdf m (M v) (Real.sqrt (V v)))) * f m :=
      m1.mul hfm
    have e1 : ∀ m, clusterDens h data c.idx (m, v) * (f m * H v) = ENNReal.ofReal (Real.exp k) * H v *
        (ENNReal.ofReal (Real.exp (normalLpdf m (M v) (Real.sqrt (V v)))) * f m) := by
      intro m; rw [hk]; ring
    have e2 : ∀ m, clusterDens h data c.idx (m, v) * (H v * H v) =
        ENNReal.ofReal (Real.exp k) * H v * H v *
        ENNReal.ofReal (Real.exp (normalLpdf m (M v) (Real.sqrt (V v)))) := by
      intro m; rw [hk]; ring
    dsimp only
    rw [lintegral_congr e1, lintegral_congr e2, lintegral_const_mul _ m2, lintegral_const_mul _ m1,
      lintegral_normalLpdf _ _ (hVpos v hv), ← lintegral_normalLaw _ _ hfm, hfH v hv, mul_one]
  have hY : ∫⁻ q, clusterDens h data c.idx q * (H q.2 * G q.1) ∂lsVol =
      ∫⁻ q, clusterDens h data c.idx q * (G q.1 * G q.1) ∂lsVol := by
    have n1 : Measurable fun q : ℝ × ℝ => clusterDens h data c.idx q * (H q.2 * G q.1) :=
      hDm.mul ((hHm.comp measurable_snd).mul (hGm.comp measurable_fst))
    have n2 : Measurable fun q : ℝ × ℝ => clusterDens h data c.idx q * (G q.1 * G q.1) :=
      hDm.mul ((hGm.comp measurable_fst).mul (hGm.comp measurable_fst))
    rw [lsVol, lintegral_prod _ n1.aemeasurable, lintegral_prod _ n2.aemeasurable]
    refine lintegral_congr fun m => ?_
    obtain ⟨k, hk⟩ := hD2 m
    have m1 := measurable_invGammaDens (h.shape + 0.5 * n) (B m)
    have m2 : Measurable fun v =>
        ENNReal.ofReal (Real.exp (invGammaLpdf v (h.shape + 0.5 * n) (B m))) * H v := m1.mul hHm
    have e1 : ∫⁻ v in Set.Ioi 0, clusterDens h data c.idx (m, v) * (H v * G m) =
        ∫⁻ v in Set.Ioi 0, ENNReal.ofReal (Real.exp k) * G m *
        (ENNReal.ofReal (Real.exp (invGammaLpdf v (h.shape + 0.5 * n) (B m))) * H v) :=
      setLIntegral_congr_fun measurableSet_Ioi fun v hv => by
        rw [hk v hv]; ring
    have e2 : ∫⁻ v in Set.Ioi 0, clusterDens h data c.idx (m, v) * (G m * G m) =
        ∫⁻ v in Set.Ioi 0, ENNReal.ofReal (Real.exp k) * G m * G m *
        ENNReal.ofReal (Real.exp (invGammaLpdf v (h.shape + 0.5 * n) (B m))) :=
      setLIntegral_congr_fun measurableSet_Ioi fun v hv => by
        rw [hk v hv]; ring
    rw [e1, e2, lintegral_const_mul _ m2, lintegral_const_mul _ m1,
      lintegral_invGammaLpdf _ _ hApos (hBpos m), ← hGe, mul_one]
  -- hence the two conditional means agree almost everywhere
  obtain ⟨P, hP⟩ : ∃ P, P = lsVol.withDensity (clusterDens h data c.idx) := ⟨_, rfl⟩
  have wd : ∀ F : ℝ × ℝ → ℝ≥0∞, Measurable F →
      ∫⁻ q, F q ∂P = ∫⁻ q, clusterDens h data c.idx q * F q ∂lsVol := by
    intro F hF
    rw [hP, lintegral_withDensity_eq_lintegral_mul _ hDm hF]
    rfl
  have hXm : Measurable fun q : ℝ × ℝ => H q.2 := hHm.comp measurable_snd
  have hYm : Measurable fun q : ℝ × ℝ => G q.1 := hGm.comp measurable_fst
  have hPfin : P Set.univ ≠ ∞ := by
    rw [hP, withDensity_apply _ MeasurableSet.univ, Measure.restrict_univ]
    exact hfin
  have hae := ae_eq_of_cross P hPfin hXm hYm (C := C) (by rw [hC]; exact ENNReal.ofReal_ne_top)
    (by
      rw [hP]
      refine (withDensity_absolutelyContinuous _ _).ae_le ?_
      filter_upwards [lsVol_ae] with q hq using hHC _ hq)
    (Filter.Eventually.of_forall fun q => hGC _)
    ((wd _ (hXm.mul hYm)).trans ((hL.symm.trans (hkept.trans hR)).trans (wd _ (hXm.mul hXm)).symm))
    ((wd _ (hXm.mul hYm)).trans (hY.trans (wd _ (hYm.mul hYm)).symm))
  rw [hP, ae_withDensity_iff hDm] at hae
  have hae2 : ∀ᵐ q ∂(volume : Measure ℝ).prod (volume.restrict (Set.Ioi (0 : ℝ))), H q.2 = G q.1 := by
    have : ∀ᵐ q ∂lsVol, H q.2 = G q.1 := by
      filter_upwards [hae] with q hq using hq (clusterDens_ne h data c.idx q)
    exact this
  obtain ⟨m, hm⟩ := (Measure.ae_ae_of_ae_prod hae2).exists
  have hconst : Set.EqOn (meanSq h n s) (fun _ => (G m).toReal) (Set.Ioi 0) := by
    refine Measure.eqOn_open_of_ae_eq (μ := volume) ?_ isOpen_Ioi (continuousOn_meanSq h hv0 hn0)
      continuousOn_const
    filter_upwards [hm, ae_restrict_mem measurableSet_Ioi] with v hv hv1
    have hv1 : 0 < v := hv1
    have hv : H v = G m := hv
    rw [← hv, hH]
    dsimp only
    rw [ENNReal.toReal_ofReal (meanSq_nonneg h hv0 hn0.le hv1)]
  exact meanSq_not_const h hv0 hn0 _ fun v hv => hconst hv

/-- **C151, what holds.** The draw of a cluster without rows keeps the law: it is the prior law, and
mean and variance are independent under it. -/
theorem c151_empty_partial (hg : NormalGen ζ gen) (hi : GenLaw ω ig invGammaLaw) (p : NxIGPrior) (h : NxIG)
    (hp : nxigInit p = .ok h) (data : ℤ → ℝ) (c0 c : Cluster UniNormStats UniLS) (ops : List DataOp)
    (hrun : runOps uniNormUpd data (clearAll uniNormZero c0) ops = .ok c) (h0 : c.card = 0) :
    LsDrawKept h gen ζ ig ω data c := by
  obtain ⟨hv0, ha, hb⟩ := nxigInit_pos hp
  have h3 := (c34_cardinality uniNormUpd data uniNormZero c0 c ops hrun).1
  have hempty : c.idx = ∅ := Finset.card_eq_zero.1 (by omega)
  intro φ hφ
  have hs := Real.sqrt_pos.2 hv0
  have hpr := invGammaLaw_prob ha hb
  have hφ2 : Measurable fun q : ℝ × ℝ => φ ⟨q.1, q.2⟩ := hφ.comp measurable_mk
  obtain ⟨F, hF⟩ : ∃ F : ℝ → ℝ≥0∞, F = fun m => ∫⁻ v, φ ⟨m, v⟩ ∂invGammaLaw h.shape h.scale := ⟨_, rfl⟩
  have hFm : Measurable F := by rw [hF]; exact hφ2.lintegral_prod_right'
  have hdraw : ∀ st, lsDrawMean h gen ζ ig ω c φ st = ∫⁻ m, F m ∂normalLaw h.mean (Real.sqrt h.var) := by
    intro st
    rw [← hg.lintegral hs hFm]
    unfold lsDrawMean
    refine lintegral_congr fun z => ?_
    have hz : Measurable fun v => φ ⟨gen z h.mean (Real.sqrt h.var), v⟩ :=
      hφ2.comp (measurable_const.prodMk measurable_id)
    rw [hF]
    dsimp only
    rw [← hi.lintegral ha hb hz]
    refine lintegral_congr fun w => ?_
    rw [nnxigDraw, if_pos h0]
    rfl
  have m1 := measurable_normalDens h.mean (Real.sqrt h.var)
  have m2 := measurable_invGammaDens h.shape h.scale
  have hD : ∀ q : ℝ × ℝ, clusterDens h data ∅ q =
      ENNReal.ofReal (Real.exp (normalLpdf q.1 h.mean (Real.sqrt h.var))) *
        ENNReal.ofReal (Real.exp (invGammaLpdf q.2 h.shape h.scale)) := by
    intro q
    rw [clusterDens, Finset.sum_empty, zero_add, nxigLpdf, Real.exp_add, ENNReal.ofReal_mul (Real.exp_pos _).le]
  have hmass : ∫⁻ q, clusterDens h data ∅ q ∂lsVol = 1 := by
    rw [lintegral_congr hD, lsVol, lintegral_prod_mul m1.aemeasurable m2.aemeasurable,
      lintegral_normalLpdf _ _ hv0, lintegral_invGammaLpdf _ _ ha hb, one_mul]
  rw [lsPostMean, lsPostMean, hempty]
  simp only [hdraw]
  rw [lintegral_mul_const _ (measurable_clusterDens h data ∅), hmass, one_mul]
  have n1 : Measurable fun q : ℝ × ℝ => clusterDens h data ∅ q * φ ⟨q.1, q.2⟩ :=
    (measurable_clusterDens h data ∅).mul hφ2
  rw [lsVol, lintegral_prod _ n1.aemeasurable, lintegral_normalLaw _ _ hFm]
  refine lintegral_congr fun m => ?_
  have hm : Measurable fun v => φ ⟨m, v⟩ := hφ2.comp (measurable_const.prodMk measurable_id)
  have m3 : Measurable fun v => ENNReal.ofReal (Real.exp (invGammaLpdf v h.shape h.scale)) * φ ⟨m, v⟩ :=
    m2.mul hm
  rw [hF]
  dsimp only
  rw [lintegral_invGammaLaw _ _ hm, ← lintegral_const_mul _ m3]
  refine lintegral_congr fun v => ?_
  rw [hD]
  ring

/-- The integral of `φ` at the mean of one and the variance of another state, both with the posterior
law of the cluster and independent. -/
noncomputable def lsProductMean (h : NxIG) (data : ℤ → ℝ) (idx : Finset ℤ) (φ : UniLS → ℝ≥0∞) : ℝ≥0∞ :=
  lsPostMean h data idx fun s => lsPostMean h data idx fun t => φ ⟨s.mean, t.var⟩

/-- **C151, the law that is kept.** For every cluster with at least one row the draw keeps the law
under which mean and variance have their posterior laws and are independent. -/
theorem c151_product_law (hg : NormalGen ζ gen) (hi : GenLaw ω ig invGammaLaw) (p : NxIGPrior) (h : NxIG)
    (hp : nxigInit p = .ok h) (data : ℤ → ℝ) (c0 c : Cluster UniNormStats UniLS) (ops : List DataOp)
    (hrun : runOps uniNormUpd data (clearAll uniNormZero c0) ops = .ok c) (h0 : c.card ≠ 0)
    (φ : UniLS → ℝ≥0∞) (hφ : Measurable φ) :
    lsProductMean h data c.idx (fun _ => 1) ≠ 0 ∧ lsProductMean h data c.idx (fun _ => 1) ≠ ∞ ∧
    lsProductMean h data c.idx (lsDrawMean h gen ζ ig ω c φ) = lsProductMean h data c.idx φ := by
  obtain ⟨hv0, ha, hb⟩ := nxigInit_pos hp
  have hfin := clusterDens_finite h hv0 ha hb data c.idx
  have hpos := clusterDens_mass_ne h data c.idx
  have hmass : lsProductMean h data c.idx (fun _ => 1) =
      (∫⁻ q, clusterDens h data c.idx q ∂lsVol) * ∫⁻ q, clusterDens h data c.idx q ∂lsVol := by
    simp only [lsProductMean, lsPostMean, mul_one]
    rw [lintegral_mul_const _ (measurable_clusterDens h data c.idx)]
  refine ⟨by rw [hmass]; exact mul_ne_zero hpos hpos, by rw [hmass]; exact ENNReal.mul_ne_top hfin hfin, ?_⟩
  obtain ⟨M, V, B, A, hA, hVpos, hBpos, hBm, hMm, hVm, hpost, hD1, hD2⟩ :=
    ls_conditionals p h hp data c0 c ops hrun h0
  have hDm := measurable_clusterDens h data c.idx
  obtain ⟨D, hD⟩ : ∃ D, D = clusterDens h data c.idx := ⟨_, rfl⟩
  rw [← hD] at hDm hD1 hD2
  have hφ2 : Measurable fun q : ℝ × ℝ => φ ⟨q.1, q.2⟩ := hφ.comp measurable_mk
  -- averaging a full conditional over the law gives the marginal law
  have T1 : ∀ ψ : ℝ → ℝ≥0∞, Measurable ψ →
      ∫⁻ q, D q * ∫⁻ x, ψ x ∂normalLaw (M q.2) (Real.sqrt (V q.2)) ∂lsVol = ∫⁻ q, D q * ψ q.1 ∂lsVol := by
    intro ψ hψ
    have hk : Measurable fun q : ℝ × ℝ => ∫⁻ x, ψ x ∂normalLaw (M q.2) (Real.sqrt (V q.2)) := by
      simp only [lintegral_normalLaw _ _ hψ]
      have : Measurable fun r : (ℝ × ℝ) × ℝ =>
          ENNReal.ofReal (Real.exp (normalLpdf r.2 (M r.1.2) (Real.sqrt (V r.1.2)))) * ψ r.2 := by
        refine Measurable.mul (ENNReal.measurable_ofReal.comp (Real.measurable_exp.comp
          (measurable_normalLpdf measurable_snd ?_ ?_))) (hψ.comp measurable_snd)
        · exact hMm.comp (measurable_snd.comp measurable_fst)
        · exact (hVm.comp (measurable_snd.comp measurable_fst)).sqrt
      exact this.lintegral_prod_right'
    have n1 : Measurable fun q : ℝ × ℝ =>
        D q * ∫⁻ x, ψ x ∂normalLaw (M q.2) (Real.sqrt (V q.2)) := hDm.mul hk
    have n2 : Measurable fun q : ℝ × ℝ => D q * ψ q.1 := hDm.mul (hψ.comp measurable_fst)
    rw [lsVol, lintegral_prod_symm' _ n1, lintegral_prod_symm' _ n2]
    refine setLIntegral_congr_fun measurableSet_Ioi fun v hv => ?_
    have hv : 0 < v := hv
    obtain ⟨k, hk⟩ := hD1 v hv
    have m1 := measurable_normalDens (M v) (Real.sqrt (V v))
    have m2 : Measurable fun m => ENNReal.ofReal (Real.exp (normalLpdf m (M v) (Real.sqrt (V v)))) * ψ m :=
      m1.mul hψ
    have e1 : ∀ m, D (m, v) * ∫⁻ x, ψ x ∂normalLaw (M v) (Real.sqrt (V v)) =
        ENNReal.ofReal (Real.exp k) * (∫⁻ x, ψ x ∂normalLaw (M v) (Real.sqrt (V v))) *
          ENNReal.ofReal (Real.exp (normalLpdf m (M v) (Real.sqrt (V v)))) := by
      intro m; rw [hk]; ring
    have e2 : ∀ m, D (m, v) * ψ m = ENNReal.ofReal (Real.exp k) *
        (ENNReal.ofReal (Real.exp (normalLpdf m (M v) (Real.sqrt (V v)))) * ψ m) := by
      intro m; rw [hk]; ring
    dsimp only
    rw [lintegral_congr e1, lintegral_congr e2, lintegral_const_mul _ m1, lintegral_const_mul _ m2,
      lintegral_normalLpdf _ _ (hVpos v hv), ← lintegral_normalLaw _ _ hψ, mul_one]
  have T2 : ∀ ψ : ℝ → ℝ≥0∞, Measurable ψ →
      ∫⁻ q, D q * ∫⁻ x, ψ x ∂invGammaLaw A (B q.1) ∂lsVol = ∫⁻ q, D q * ψ q.2 ∂lsVol := by
    intro ψ hψ
    have hk : Measurable fun q : ℝ × ℝ => ∫⁻ x, ψ x ∂invGammaLaw A (B q.1) := by
      simp only [lintegral_invGammaLaw _ _ hψ]
      have : Measurable fun r : (ℝ × ℝ) × ℝ =>
          ENNReal.ofReal (Real.exp (invGammaLpdf r.2 A (B r.1.1))) * ψ r.2 := by
        refine Measurable.mul ?_ (hψ.comp measurable_snd)
        have hB2 : Measurable fun r : (ℝ × ℝ) × ℝ => B r.1.1 := hBm.comp (measurable_fst.comp measurable_fst)
        unfold invGammaLpdf
        fun_prop
      exact this.lintegral_prod_right'
    have n1 : Measurable fun q : ℝ × ℝ => D q * ∫⁻ x, ψ x ∂invGammaLaw A (B q.1) := hDm.mul hk
    have n2 : Measurable fun q : ℝ × ℝ => D q * ψ q.2 := hDm.mul (hψ.comp measurable_snd)
    rw [lsVol, lintegral_prod _ n1.aemeasurable, lintegral_prod _ n2.aemeasurable]
    refine lintegral_congr fun m => ?_
    obtain ⟨k, hk⟩ := hD2 m
    have m1 := measurable_invGammaDens A (B m)
    have m2 : Measurable fun v => ENNReal.ofReal (Real.exp (invGammaLpdf v A (B m))) * ψ v := m1.mul hψ
    have e1 : ∫⁻ v in Set.Ioi 0, D (m, v) * ∫⁻ x, ψ x ∂invGammaLaw A (B m) =
        ∫⁻ v in Set.Ioi 0, ENNReal.ofReal (Real.exp k) * (∫⁻ x, ψ x ∂invGammaLaw A (B m)) *
          ENNReal.ofReal (Real.exp (invGammaLpdf v A (B m))) :=
      setLIntegral_congr_fun measurableSet_Ioi fun v hv => by
        rw [hk v hv]; ring
    have e2 : ∫⁻ v in Set.Ioi 0, D (m, v) * ψ v = ∫⁻ v in Set.Ioi 0, ENNReal.ofReal (Real.exp k) *
        (ENNReal.ofReal (Real.exp (invGammaLpdf v A (B m))) * ψ v) :=
      setLIntegral_congr_fun measurableSet_Ioi fun v hv => by
        rw [hk v hv]; ring
    dsimp only
    rw [e1, e2, lintegral_const_mul _ m1, lintegral_const_mul _ m2,
      lintegral_invGammaLpdf _ _ hA (hBpos m), ← lintegral_invGammaLaw _ _ hψ, mul_one]
  -- the variance drawn at the mean `m`, given the drawn mean `x`
  obtain ⟨Ψ, hΨ⟩ : ∃ Ψ : ℝ → ℝ → ℝ≥0∞, Ψ = fun m x => ∫⁻ v, φ ⟨x, v⟩ ∂invGammaLaw A (B m) := ⟨_, rfl⟩
  have hφx : ∀ x, Measurable fun v => φ ⟨x, v⟩ := fun x => hφ2.comp (measurable_const.prodMk measurable_id)
  have hΨm : Measurable fun q : ℝ × ℝ => Ψ q.1 q.2 := by
    rw [hΨ]
    simp only [lintegral_invGammaLaw _ _ (hφx _)]
    have : Measurable fun r : (ℝ × ℝ) × ℝ =>
        ENNReal.ofReal (Real.exp (invGammaLpdf r.2 A (B r.1.1))) * φ ⟨r.1.2, r.2⟩ := by
      refine Measurable.mul ?_ (hφ2.comp ((measurable_snd.comp measurable_fst).prodMk measurable_snd))
      have hB2 : Measurable fun r : (ℝ × ℝ) × ℝ => B r.1.1 := hBm.comp (measurable_fst.comp measurable_fst)
      unfold invGammaLpdf
      fun_prop
    exact this.lintegral_prod_right'
  have hΨx : ∀ m, Measurable (Ψ m) := fun m => hΨm.comp (measurable_const.prodMk measurable_id)
  have hdraw : ∀ m v, 0 < v → lsDrawMean h gen ζ ig ω c φ ⟨m, v⟩ =
      ∫⁻ x, Ψ m x ∂normalLaw (M v) (Real.sqrt (V v)) := by
    intro m v hv
    have hs := Real.sqrt_pos.2 (hVpos v hv)
    rw [← hg.lintegral hs (hΨx m)]
    unfold lsDrawMean
    refine lintegral_congr fun z => ?_
    rw [hΨ]
    dsimp only
    rw [← hi.lintegral hA (hBpos m) (hφx _)]
    refine lintegral_congr fun w => ?_
    rw [nnxigDraw, if_neg h0]
    dsimp only
    rw [hpost]
    rfl
  simp only [lsProductMean, lsPostMean, ← hD]
  have hsw : Measurable fun r : (ℝ × ℝ) × (ℝ × ℝ) => D r.1 * (D r.2 * Ψ r.1.1 r.2.1) := by
    refine (hDm.comp measurable_fst).mul ((hDm.comp measurable_snd).mul ?_)
    exact hΨm.comp ((measurable_fst.comp measurable_fst).prodMk (measurable_fst.comp measurable_snd))
  have hSF : SFinite lsVol := by unfold lsVol; infer_instance
  calc ∫⁻ s, D s * ∫⁻ t, D t * lsDrawMean h gen ζ ig ω c φ ⟨s.1, t.2⟩ ∂lsVol ∂lsVol
      = ∫⁻ s, D s * ∫⁻ t, D t * Ψ s.1 t.1 ∂lsVol ∂lsVol := by
        refine lintegral_congr fun s => ?_
        rw [← T1 _ (hΨx s.1)]
        congr 1
        refine lintegral_congr_ae ?_
        filter_upwards [lsVol_ae] with t ht
        rw [hdraw _ _ ht]
    _ = ∫⁻ s, ∫⁻ t, D s * (D t * Ψ s.1 t.1) ∂lsVol ∂lsVol := by
        refine lintegral_congr fun s => ?_
        have : Measurable fun t : ℝ × ℝ => D t * Ψ s.1 t.1 := hDm.mul ((hΨx s.1).comp measurable_fst)
        rw [lintegral_const_mul _ this]
    _ = ∫⁻ t, ∫⁻ s, D s * (D t * Ψ s.1 t.1) ∂lsVol ∂lsVol :=
        lintegral_lintegral_swap (μ := lsVol) (ν := lsVol) (f := fun s t => D s * (D t * Ψ s.1 t.1))
          hsw.aemeasurable
    _ = ∫⁻ t, D t * ∫⁻ s, D s * φ ⟨t.1, s.2⟩ ∂lsVol ∂lsVol := by
        refine lintegral_congr fun t => ?_
        rw [← T2 _ (hφx t.1)]
        have : Measurable fun s : ℝ × ℝ => D s * Ψ s.1 t.1 :=
          hDm.mul (hΨm.comp (measurable_fst.prodMk measurable_const))
        have e : ∀ s : ℝ × ℝ, D s * (D t * Ψ s.1 t.1) = D t * (D s * Ψ s.1 t.1) := fun s => by ring
        rw [lintegral_congr e, lintegral_const_mul _ this, hΨ]

theorem invGammaSeeds : GenLaw (lawSeeds invGammaLaw) (fun z a r => z (a, r)) invGammaLaw :=
  lawSeeds_genLaw fun _ _ => invGammaLaw_prob

/-- An empty cluster in a given state. -/
noncomputable def exLs : Cluster UniNormStats UniLS := ⟨0, ⊥, ∅, ⟨0, 0⟩, ⟨1, 2⟩⟩

/-- A cluster with the rows 5 and 9. -/
example : ∃ c, runOps uniNormUpd (fun i => (i : ℝ)) (clearAll uniNormZero exLs)
    exOps = .ok c ∧ ¬ LsDrawKept ⟨3, 1, 2, 4⟩ (fun z m s => m + s * z) (normalLaw 0 1)
      (fun z a r => z (a, r)) (lawSeeds invGammaLaw) (fun i => (i : ℝ)) c := by
  obtain ⟨c, hc, hi⟩ := exOps_run uniNormUpd (fun i => (i : ℝ)) uniNormZero exLs
  refine ⟨c, hc, (c151_violated affine_normalGen invGammaSeeds (.fixed 3 1 2 4) _
    (nxigInit_fixed (by norm_num) (by norm_num) (by norm_num)) _ _ c exOps hc ?_).2.2⟩
  rw [(c34_cardinality uniNormUpd _ uniNormZero _ c exOps hc).1, hi]
  decide

/-- The same cluster: mean and variance become independent. -/
example : ∃ c, runOps uniNormUpd (fun i => (i : ℝ)) (clearAll uniNormZero exLs)
    exOps = .ok c ∧ lsProductMean ⟨3, 1, 2, 4⟩ (fun i => (i : ℝ)) c.idx
      (lsDrawMean ⟨3, 1, 2, 4⟩ (fun z m s => m + s * z) (normalLaw 0 1) (fun z a r => z (a, r))
        (lawSeeds invGammaLaw) c fun st => ENNReal.ofReal (st.mean ^ 2 * st.var)) =
      lsProductMean ⟨3, 1, 2, 4⟩ (fun i => (i : ℝ)) c.idx
        fun st => ENNReal.ofReal (st.mean ^ 2 * st.var) := by
  obtain ⟨c, hc, hi⟩ := exOps_run uniNormUpd (fun i => (i : ℝ)) uniNormZero exLs
  refine ⟨c, hc, (c151_product_law affine_normalGen invGammaSeeds (.fixed 3 1 2 4) _
    (nxigInit_fixed (by norm_num) (by norm_num) (by norm_num)) _ _ c exOps hc ?_ _ ?_).2.2⟩
  · rw [(c34_cardinality uniNormUpd _ uniNormZero _ c exOps hc).1, hi]
    decide
  · exact ((measurable_mean.pow_const 2).mul measurable_var).ennreal_ofReal

/-- A cluster from which the only row was removed. -/
example : ∃ c, runOps uniNormUpd (fun i => (i : ℝ)) (clearAll uniNormZero exLs)
    [.add 5, .remove 5] = .ok c ∧ LsDrawKept ⟨3, 1, 2, 4⟩ (fun z m s => m + s * z) (normalLaw 0 1)
      (fun z a r => z (a, r)) (lawSeeds invGammaLaw) (fun i => (i : ℝ)) c := by
  obtain ⟨c, hc, h0⟩ : ∃ c, runOps uniNormUpd (fun i => (i : ℝ)) (clearAll uniNormZero exLs)
      [.add 5, .remove 5] = .ok c ∧ c.card = 0 := by
    refine ⟨_, rfl, ?_⟩
    simp [clearAll, exLs]
  exact ⟨c, hc, c151_empty_partial affine_normalGen invGammaSeeds (.fixed 3 1 2 4) _
    (nxigInit_fixed (by norm_num) (by norm_num) (by norm_num)) _ _ c _ hc h0⟩

end Bayesmix.Chain
