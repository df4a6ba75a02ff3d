import Verif.Algo.PropsSemiConjUnique
import Verif.Algo.PropsBlocked

/-!
# C152: blocked Gibbs with Normal x inverse Gamma components
-/

namespace Bayesmix.Chain
open Bayesmix Cond Hierarchies MeasureTheory ENNReal ProbabilityTheory

variable {Z W : Type} [MeasurableSpace Z] [MeasurableSpace W] {ζ : Measure Z} {gen : Z → ℝ → ℝ → ℝ}
  {ω : Measure W} {ig : W → ℝ → ℝ → ℝ}

/-- The law of states with log-density `NxIGPriorModel::lpdf`
(`src/hierarchies/priors/nxig_prior_model.cc` 25-31). -/
noncomputable def nxigLaw (h : NxIG) : Measure UniLS :=
  (lsVol.withDensity fun p => ENNReal.ofReal (Real.exp (nxigLpdf h ⟨p.1, p.2⟩))).map
    fun p => ⟨p.1, p.2⟩

theorem measurable_nxigDens (h : NxIG) :
    Measurable fun p : ℝ × ℝ => ENNReal.ofReal (Real.exp (nxigLpdf h ⟨p.1, p.2⟩)) :=
  ENNReal.measurable_ofReal.comp (Real.measurable_exp.comp
    ((measurable_normalLpdf measurable_fst measurable_const measurable_const).add
      (measurable_invGammaLpdf measurable_snd _ _)))

theorem lintegral_nxigLaw (h : NxIG) {f : UniLS → ℝ≥0∞} (hf : Measurable f) :
    ∫⁻ s, f s ∂nxigLaw h =
      ∫⁻ p, ENNReal.ofReal (Real.exp (nxigLpdf h ⟨p.1, p.2⟩)) * f ⟨p.1, p.2⟩ ∂lsVol := by
  have hp : Measurable fun x : ℝ × ℝ => f ⟨x.1, x.2⟩ := hf.comp measurable_mk
  rw [nxigLaw, lintegral_map hf measurable_mk,
    lintegral_withDensity_eq_lintegral_mul _ (measurable_nxigDens h) hp]
  rfl

theorem nxigLaw_prob (h : NxIG) (hv0 : 0 < h.var) (ha : 0 < h.shape) (hb : 0 < h.scale) :
    IsProbabilityMeasure (nxigLaw h) := by
  constructor
  have h1 := lintegral_nxigLaw h (f := fun _ => 1) measurable_const
  rw [lintegral_const, one_mul] at h1
  rw [h1]
  have e : ∀ p : ℝ × ℝ, ENNReal.ofReal (Real.exp (nxigLpdf h ⟨p.1, p.2⟩)) * 1 =
      ENNReal.ofReal (Real.exp (normalLpdf p.1 h.mean (Real.sqrt h.var))) *
        ENNReal.ofReal (Real.exp (invGammaLpdf p.2 h.shape h.scale)) := by
    intro p
    rw [mul_one, ← ENNReal.ofReal_mul (Real.exp_pos _).le, ← Real.exp_add]
    rfl
  rw [lintegral_congr e, lsVol, lintegral_prod_mul (measurable_normalDens _ _).aemeasurable
    (measurable_invGammaDens _ _).aemeasurable, lintegral_normalLpdf _ _ hv0,
    lintegral_invGammaLpdf _ _ ha hb, one_mul]

theorem nxigLaw_var (h : NxIG) : ∀ᵐ st ∂nxigLaw h, 0 < st.var := by
  rw [nxigLaw, ae_map_iff measurable_mk.aemeasurable (measurableSet_lt measurable_const measurable_var)]
  exact (withDensity_absolutelyContinuous _ _).ae_le lsVol_ae

/-- `BlockedGibbsAlgorithm::sample_unique_values` (`src/algorithms/blocked_gibbs_algorithm.cc` 46-50)
with `SemiConjugateUpdater::draw` (`src/hierarchies/updaters/semi_conjugate_updater.h` 68-83): under
the labels `c` component `k` is the object `obj c k` in state `θ k`; each component is drawn once. -/
noncomputable def lsValuesStep (h : NxIG) (gen : Z → ℝ → ℝ → ℝ) (ζ : Measure Z) (ig : W → ℝ → ℝ → ℝ)
    (ω : Measure W) {n K : ℕ} (obj : (Fin n → Fin K) → Fin K → Cluster UniNormStats UniLS)
    (φ : (Fin n → Fin K) → (Fin K → UniLS) → (Fin K → ℝ) → ℝ≥0∞) :
    (Fin n → Fin K) → (Fin K → UniLS) → (Fin K → ℝ) → ℝ≥0∞ := fun c θ v =>
  ∫⁻ x, φ c (fun k => (nnxigDraw h { obj c k with state := θ k } (gen (x k).1) (ig (x k).2)).state) v
    ∂Measure.pi fun _ : Fin K => ζ.prod ω

/-- The observed rows as the likelihood sees them (`uni_norm_likelihood.cc` 3-5). -/
noncomputable def lsLike (data : ℤ → ℝ) (st : UniLS) (i : ℕ) : ℝ := uniNormLpdf st (data i)

/-- One iteration of blocked Gibbs (`src/algorithms/conditional_algorithm.h` 54-59,
`src/algorithms/blocked_gibbs_algorithm.cc` 20-54) with fixed hyperparameters: labels, values, sticks. The
steps for labels and sticks are those that `c100_blocked_step` derives from the code. -/
noncomputable def lsBlocked (h : NxIG) (gen : Z → ℝ → ℝ → ℝ) (ζ : Measure Z) (ig : W → ℝ → ℝ → ℝ)
    (ω : Measure W) (data : ℤ → ℝ) {n K : ℕ} (a b : Fin K → ℝ)
    (obj : (Fin n → Fin K) → Fin K → Cluster UniNormStats UniLS)
    (φ : (Fin n → Fin K) → (Fin K → UniLS) → (Fin K → ℝ) → ℝ≥0∞) :=
  labelsStep (lsLike data) (lsValuesStep h gen ζ ig ω obj (sticksStep a b φ))

/-- The objects hold the rows of their components, and were filled by calls of the library. -/
def LsObjects (data : ℤ → ℝ) {n K : ℕ}
    (obj : (Fin n → Fin K) → Fin K → Cluster UniNormStats UniLS) : Prop :=
  ∀ c k, (∃ c0 ops, runOps uniNormUpd data (clearAll uniNormZero c0) ops = .ok (obj c k)) ∧
    ∀ z : ℤ, z ∈ (obj c k).idx ↔ ∃ i : Fin n, c i = k ∧ z = (i.val : ℤ)

theorem measurable_lsLike (data : ℤ → ℝ) (i : ℕ) : Measurable fun st => lsLike data st i :=
  measurable_uniNormLpdf (data i)

/-- With all rows in one component, the target gives functions of its state their posterior mean
times a constant. -/
theorem posterior_single (h : NxIG) (hv0 : 0 < h.var) (ha : 0 < h.shape) (hb : 0 < h.scale)
    (data : ℤ → ℝ) {n K : ℕ} {a b : Fin K → ℝ} (hak : ∀ k, 0 < a k) (hbk : ∀ k, 0 < b k) (k0 : Fin K)
    (hk0 : k0.val = 0) (idx : Finset ℤ) (hidx : ∀ z : ℤ, z ∈ idx ↔ ∃ i : Fin n, z = (i.val : ℤ)) :
    ∃ C : ℝ≥0∞, C ≠ 0 ∧ C ≠ ∞ ∧ ∀ g : UniLS → ℝ≥0∞, Measurable g →
      posteriorAt (lsLike data) n a b (nxigLaw h)
        (fun c θ _ => if c = (fun _ => k0) then g (θ k0) else 0) = C * lsPostMean h data idx g := by
  have hν := nxigLaw_prob h hv0 ha hb
  have hst := stickLaw_isProb hak hbk
  have hsw : ∀ v : Fin K → ℝ, stickWeight v k0 = v k0 := by
    intro v
    have : IsEmpty (Fin k0.val) := by rw [hk0]; infer_instance
    rw [stickWeight, Finset.univ_eq_empty, Finset.prod_empty, mul_one]
  have hae := stickLaw_ae hak hbk
  have hCm : Measurable fun v : Fin K → ℝ => ENNReal.ofReal (∏ _i : Fin n, stickWeight v k0) :=
    ENNReal.measurable_ofReal.comp (Finset.measurable_fun_prod _ fun _ _ => measurable_stickWeight k0)
  refine ⟨∫⁻ v, ENNReal.ofReal (∏ _i : Fin n, stickWeight v k0) ∂stickLaw a b, ?_, ?_, ?_⟩
  · rw [Ne, lintegral_eq_zero_iff hCm]
    intro h0
    have hF : ∀ᵐ v ∂stickLaw a b, False := by
      filter_upwards [h0, hae] with v h1 h2
      have h3 : (0 : ℝ) < ∏ _i : Fin n, stickWeight v k0 :=
        Finset.prod_pos fun _ _ => by rw [hsw]; exact (h2 k0).1
      have h4 : ENNReal.ofReal (∏ _i : Fin n, stickWeight v k0) = 0 := h1
      rw [ENNReal.ofReal_eq_zero] at h4
      linarith
    have h5 : stickLaw a b = 0 := by simpa using hF
    have h6 : stickLaw a b Set.univ = 1 := measure_univ
    rw [h5] at h6
    simp at h6
  · refine ne_top_of_le_ne_top ENNReal.one_ne_top ?_
    have hle : ∫⁻ v, ENNReal.ofReal (∏ _i : Fin n, stickWeight v k0) ∂stickLaw a b ≤
        ∫⁻ _, 1 ∂stickLaw a b := by
      refine lintegral_mono_ae ?_
      filter_upwards [hae] with v h2
      rw [← ENNReal.ofReal_one]
      refine ENNReal.ofReal_le_ofReal (Finset.prod_le_one (fun _ _ => ?_) fun _ _ => ?_)
      · rw [hsw]; exact (h2 k0).1.le
      · rw [hsw]; exact (h2 k0).2
    simpa using hle
  · intro g hg
    rw [posteriorAt, Finset.sum_eq_single (fun _ => k0)]
    · have hL : Measurable fun st : UniLS =>
          ENNReal.ofReal (∏ i : Fin n, Real.exp (lsLike data st i)) * g st :=
        (ENNReal.measurable_ofReal.comp (Finset.measurable_fun_prod Finset.univ fun (i : Fin n) _ =>
          Real.measurable_exp.comp (measurable_lsLike data i.val))).mul hg
      have hin : ∀ v : Fin K → ℝ, ∫⁻ θ, ENNReal.ofReal (dataWeight (lsLike data) (fun _ : Fin n => k0) θ v) *
          (if (fun _ : Fin n => k0) = (fun _ => k0) then g (θ k0) else 0)
            ∂Measure.pi (fun _ : Fin K => nxigLaw h) =
          ENNReal.ofReal (∏ _i : Fin n, stickWeight v k0) *
            ∫⁻ st, ENNReal.ofReal (∏ i : Fin n, Real.exp (lsLike data st i)) * g st ∂nxigLaw h := by
        intro v
        have hL2 : Measurable fun θ : Fin K → UniLS =>
            ENNReal.ofReal (∏ i : Fin n, Real.exp (lsLike data (θ k0) i)) * g (θ k0) :=
          hL.comp (measurable_pi_apply k0)
        rw [← (measurePreserving_eval (fun _ : Fin K => nxigLaw h) k0).lintegral_comp hL,
          ← lintegral_const_mul _ hL2]
        refine lintegral_congr fun θ => ?_
        rw [if_pos rfl, dataWeight_eq, mul_assoc]
      rw [lintegral_congr hin, lintegral_mul_const _ hCm]
      congr 1
      rw [lintegral_nxigLaw h hL, lsPostMean]
      refine lintegral_congr fun p => ?_
      have hsum : ∑ z ∈ idx, uniNormLpdf ⟨p.1, p.2⟩ (data z) =
          ∑ i : Fin n, lsLike data ⟨p.1, p.2⟩ i := by
        symm
        refine Finset.sum_bij (fun i _ => (i.val : ℤ)) (fun i _ => (hidx _).2 ⟨i, rfl⟩) ?_ ?_ ?_
        · intro i _ j _ hij
          exact Fin.ext (by exact_mod_cast hij)
        · intro z hz
          obtain ⟨i, hi⟩ := (hidx z).1 hz
          exact ⟨i, Finset.mem_univ _, hi.symm⟩
        · intro i _
          rfl
      rw [clusterDens, hsum, Real.exp_add, Real.exp_sum, mul_comm (∏ i : Fin n, _),
        ENNReal.ofReal_mul (Real.exp_pos _).le, mul_assoc]
    · intro c _ hc
      simp [hc]
    · intro h0
      exact absurd (Finset.mem_univ _) h0

/-- The target has finite mass. -/
theorem posterior_finite (h : NxIG) (hv0 : 0 < h.var) (ha : 0 < h.shape) (hb : 0 < h.scale)
    (data : ℤ → ℝ) {n K : ℕ} {a b : Fin K → ℝ} (hak : ∀ k, 0 < a k) (hbk : ∀ k, 0 < b k) :
    posteriorAt (lsLike data) n a b (nxigLaw h) (fun _ _ _ => 1) ≠ ∞ := by
  have hν := nxigLaw_prob h hv0 ha hb
  have hst := stickLaw_isProb hak hbk
  rw [posteriorAt]
  refine (ENNReal.sum_ne_top).2 fun c _ => ?_
  obtain ⟨R, hR⟩ : ∃ R, R = ∫⁻ θ : Fin K → UniLS,
    ENNReal.ofReal (∏ i : Fin n, Real.exp (lsLike data (θ (c i)) i)) ∂Measure.pi (fun _ : Fin K => nxigLaw h) :=
    ⟨_, rfl⟩
  have hRt : R ≠ ∞ := by
    have hm : ∀ k : Fin K, Measurable fun st : UniLS =>
        ENNReal.ofReal (∏ i ∈ rowsOf c k, Real.exp (lsLike data st i)) := fun k =>
      ENNReal.measurable_ofReal.comp (Finset.measurable_fun_prod _ fun i _ =>
        Real.measurable_exp.comp (measurable_lsLike data i))
    have e : ∀ θ : Fin K → UniLS, ENNReal.ofReal (∏ i : Fin n, Real.exp (lsLike data (θ (c i)) i)) =
        ∏ k, ENNReal.ofReal (∏ i ∈ rowsOf c k, Real.exp (lsLike data (θ k) i)) := by
      intro θ
      rw [prod_rows, ENNReal.ofReal_prod_of_nonneg]
      intro k _
      positivity
    rw [hR, lintegral_congr e, lintegral_prod_pi (fun _ : Fin K => nxigLaw h)
      (fun k st => ENNReal.ofReal (∏ i ∈ rowsOf c k, Real.exp (lsLike data st i))) hm]
    refine ENNReal.prod_ne_top fun k _ => ?_
    rw [lintegral_nxigLaw h (hm k)]
    convert clusterDens_finite h hv0 ha hb data ((rowsOf c k).map Nat.castEmbedding) using 3 with p
    rw [clusterDens, Finset.sum_map, Real.exp_add, Real.exp_sum, mul_comm (∏ i ∈ rowsOf c k, _),
      ENNReal.ofReal_mul (Real.exp_pos _).le]
    rfl
  refine ne_top_of_le_ne_top hRt ?_
  have hle : ∫⁻ v, ∫⁻ θ, ENNReal.ofReal (dataWeight (lsLike data) c θ v) * 1
      ∂Measure.pi (fun _ : Fin K => nxigLaw h) ∂stickLaw a b ≤ ∫⁻ _, R ∂stickLaw a b := by
    refine lintegral_mono_ae ?_
    filter_upwards [stickLaw_ae hak hbk] with v hv
    rw [hR]
    refine lintegral_mono fun θ => ?_
    rw [mul_one, dataWeight_eq]
    refine mul_le_of_le_one_left zero_le ?_
    rw [← ENNReal.ofReal_one]
    refine ENNReal.ofReal_le_ofReal (Finset.prod_le_one (fun i _ => stickWeight_nonneg hv _) fun i _ => ?_)
    unfold stickWeight
    refine mul_le_one₀ (hv _).2 (Finset.prod_nonneg fun j _ => ?_) (Finset.prod_le_one (fun j _ => ?_) fun j _ => ?_)
    · linarith [(hv (j.castLE (c i).isLt.le)).2]
    · linarith [(hv (j.castLE (c i).isLt.le)).2]
    · linarith [(hv (j.castLE (c i).isLt.le)).1]
  simpa using hle

/-- **C152, violated.** For any number of rows and of components, at least one of each: with the
Normal x inverse Gamma hierarchy one iteration of blocked Gibbs does not keep the posterior law, whose
mass is neither zero nor infinite. -/
theorem c152_violated (hg : NormalGen ζ gen) (hi : GenLaw ω ig invGammaLaw) (p : NxIGPrior) (h : NxIG)
    (hp : nxigInit p = .ok h) (data : ℤ → ℝ) {n K : ℕ} (hn : 0 < n) (hK : 0 < K) (a b : Fin K → ℝ)
    (hak : ∀ k, 0 < a k) (hbk : ∀ k, 0 < b k)
    (obj : (Fin n → Fin K) → Fin K → Cluster UniNormStats UniLS) (hobj : LsObjects data obj) :
    posteriorAt (lsLike data) n a b (nxigLaw h) (fun _ _ _ => 1) ≠ 0 ∧
    posteriorAt (lsLike data) n a b (nxigLaw h) (fun _ _ _ => 1) ≠ ∞ ∧
    ¬ ∀ φ : (Fin n → Fin K) → (Fin K → UniLS) → (Fin K → ℝ) → ℝ≥0∞, Meas φ →
      posteriorAt (lsLike data) n a b (nxigLaw h) (lsBlocked h gen ζ ig ω data a b obj φ) =
        posteriorAt (lsLike data) n a b (nxigLaw h) φ := by
  obtain ⟨hv0, ha, hb⟩ := nxigInit_pos hp
  have hν := nxigLaw_prob h hv0 ha hb
  have hζ := hg.prob
  have hω := hi.prob
  obtain ⟨k0, hk0⟩ : ∃ k0 : Fin K, k0.val = 0 := ⟨⟨0, hK⟩, rfl⟩
  obtain ⟨cs, hcs⟩ : ∃ cs : Fin n → Fin K, cs = fun _ => k0 := ⟨_, rfl⟩
  obtain ⟨⟨c0, ops, hrun⟩, hmem⟩ := hobj cs k0
  have hidx : ∀ z : ℤ, z ∈ (obj cs k0).idx ↔ ∃ i : Fin n, z = (i.val : ℤ) := by
    intro z
    rw [hmem z]
    simp [hcs]
  have h0 : (obj cs k0).card ≠ 0 := by
    have h3 := (c34_cardinality uniNormUpd data uniNormZero c0 _ ops hrun).1
    have h4 : (obj cs k0).idx.card ≠ 0 :=
      Finset.card_ne_zero_of_mem ((hidx _).2 ⟨⟨0, hn⟩, rfl⟩)
    omega
  obtain ⟨C, hC0, hCt, hpost⟩ := posterior_single h hv0 ha hb data hak hbk k0 hk0 _ hidx
  have h151 := c151_violated hg hi p h hp data c0 _ ops hrun h0
  refine ⟨fun hz => ?_, posterior_finite h hv0 ha hb data hak hbk, fun hkeep => h151.2.2 fun ψ hψ => ?_⟩
  · have h1 := hpost (fun _ => 1) measurable_const
    have hle : posteriorAt (lsLike data) n a b (nxigLaw h)
        (fun c _ _ => if c = (fun _ => k0) then (1 : ℝ≥0∞) else 0) ≤
        posteriorAt (lsLike data) n a b (nxigLaw h) (fun _ _ _ => 1) := by
      unfold posteriorAt
      refine Finset.sum_le_sum fun c _ => lintegral_mono fun v => lintegral_mono fun θ => ?_
      refine mul_le_mul' le_rfl ?_
      dsimp only
      split <;> simp
    rw [hz, h1] at hle
    exact mul_ne_zero hC0 h151.1 (le_antisymm hle zero_le)
  obtain ⟨k, hkm, hkpos, hkone, hdraw⟩ := ls_draw_density hg hi p h hp data c0 _ ops hrun h0
  obtain ⟨M, V, B, A, hA, hVpos, hBpos, hBm, hMm, hVm, hpar, hD1, hD2⟩ :=
    ls_conditionals p h hp data c0 _ ops hrun h0
  have hSF : SigmaFinite lsVol := by unfold lsVol; infer_instance
  have hψ2 : Measurable fun q : ℝ × ℝ => ψ ⟨q.1, q.2⟩ := hψ.comp measurable_mk
  -- the mean after the draw, as a measurable function
  obtain ⟨T, hT⟩ : ∃ T : UniLS → ℝ≥0∞,
    T = fun st => ∫⁻ y, k (st.mean, st.var) y * ψ ⟨y.1, y.2⟩ ∂lsVol := ⟨_, rfl⟩
  have hTm : Measurable T := by
    have hj : Measurable fun r : (ℝ × ℝ) × (ℝ × ℝ) => k r.1 r.2 * ψ ⟨r.2.1, r.2.2⟩ :=
      hkm.mul (hψ2.comp measurable_snd)
    rw [hT]
    exact hj.lintegral_prod_right'.comp measurable_pair
  have hTd : ∀ st : UniLS, 0 < st.var → lsDrawMean h gen ζ ig ω (obj cs k0) ψ st = T st := by
    intro st hst
    rw [hT]
    exact hdraw ψ hψ st.mean st.var hst
  obtain ⟨lift, hlift⟩ : ∃ lift : (UniLS → ℝ≥0∞) → (Fin n → Fin K) → (Fin K → UniLS) → (Fin K → ℝ) → ℝ≥0∞,
    lift = fun g c θ _ => if c = cs then g (θ k0) else 0 := ⟨_, rfl⟩
  have hliftm : ∀ g, Measurable g → Meas (lift g) := by
    intro g hgm c
    rw [hlift]
    by_cases hc : c = cs
    · simp only [hc, if_true]
      exact hgm.comp ((measurable_pi_apply k0).comp measurable_fst)
    · simp only [hc, if_false]
      exact measurable_const
  have hpl : ∀ g, Measurable g → posteriorAt (lsLike data) n a b (nxigLaw h) (lift g) =
      C * lsPostMean h data (obj cs k0).idx g := by
    intro g hgm
    rw [hlift, hcs]
    have := hpost g hgm
    rwa [hcs] at this
  -- the sticks do not matter
  have hstick : sticksStep a b (lift ψ) = lift ψ := by
    funext c θ v
    have := stickLaw_isProb (shape_pos hak (cnt c)) (shape_pos hbk (later c))
    rw [hlift, sticksStep]
    dsimp only
    rw [lintegral_const, measure_univ, mul_one]
  -- the values
  have hvals : ∀ c (θ : Fin K → UniLS) v, 0 < (θ k0).var →
      lsValuesStep h gen ζ ig ω obj (lift ψ) c θ v = lift T c θ v := by
    intro c θ v hθ
    rw [hlift, lsValuesStep]
    dsimp only
    by_cases hc : c = cs
    · subst hc
      simp only [if_true]
      have hs := Real.sqrt_pos.2 (hVpos _ hθ)
      have hF : ∀ x : Z × W, (nnxigDraw h { obj c k0 with state := θ k0 } (gen x.1) (ig x.2)).state =
          ⟨gen x.1 (M (θ k0).var) (Real.sqrt (V (θ k0).var)), ig x.2 A (B (θ k0).mean)⟩ := by
        intro x
        rw [nnxigDraw, if_neg h0]
        dsimp only
        have := hpar (θ k0).mean (θ k0).var
        rw [show (⟨(θ k0).mean, (θ k0).var⟩ : UniLS) = θ k0 from rfl] at this
        rw [this]
        rfl
      have hFm : Measurable fun x : Z × W =>
          ψ (nnxigDraw h { obj c k0 with state := θ k0 } (gen x.1) (ig x.2)).state := by
        simp only [hF]
        exact hψ2.comp (((hg.meas _ _ hs).comp measurable_fst).prodMk
          ((hi.meas _ _ hA (hBpos _)).comp measurable_snd))
      rw [(measurePreserving_eval (fun _ : Fin K => ζ.prod ω) k0).lintegral_comp hFm,
        lintegral_prod _ hFm.aemeasurable]
      exact hTd _ hθ
    · simp [hc]
  have hθae : ∀ᵐ θ ∂Measure.pi (fun _ : Fin K => nxigLaw h), 0 < (θ k0).var :=
    (Measure.quasiMeasurePreserving_eval (fun _ : Fin K => nxigLaw h) k0).ae (nxigLaw_var h)
  have hstep : posteriorAt (lsLike data) n a b (nxigLaw h) (lsBlocked h gen ζ ig ω data a b obj (lift ψ)) =
      posteriorAt (lsLike data) n a b (nxigLaw h) (labelsStep (lsLike data) (lift T)) := by
    rw [lsBlocked, hstick]
    unfold posteriorAt
    refine Finset.sum_congr rfl fun c _ => lintegral_congr fun v => lintegral_congr_ae ?_
    filter_upwards [hθae] with θ hθ
    unfold labelsStep
    congr 1
    refine Finset.sum_congr rfl fun c' _ => ?_
    rw [hvals c' θ v hθ]
  have hlab := labels_invariant (ν := fun _ : Unit => nxigLaw h) (h := ()) (n := n) (K := K)
    (measurable_lsLike data) hν hak hbk (hliftm T hTm)
  have hfin := hkeep (lift ψ) (hliftm ψ hψ)
  rw [hstep, hlab, hpl T hTm, hpl ψ hψ] at hfin
  have hTe : lsPostMean h data (obj cs k0).idx (lsDrawMean h gen ζ ig ω (obj cs k0) ψ) =
      lsPostMean h data (obj cs k0).idx T := by
    unfold lsPostMean
    refine lintegral_congr_ae ?_
    filter_upwards [lsVol_ae] with q hq
    rw [hTd _ hq]
  rw [hTe]
  exact (ENNReal.mul_right_inj hC0 hCt).1 hfin

/-- Any set of rows can be put into an object. -/
theorem run_to_rows (data : ℤ → ℝ) (c0 : Cluster UniNormStats UniLS) (s : Finset ℤ) :
    ∃ ops c, runOps uniNormUpd data (clearAll uniNormZero c0) ops = .ok c ∧ c.idx = s := by
  induction s using Finset.induction_on with
  | empty => exact ⟨[], _, rfl, rfl⟩
  | insert z s hz ih =>
    obtain ⟨ops, c, hc, hs⟩ := ih
    have hz' : z ∉ c.idx := by rw [hs]; exact hz
    have h1 : ∃ c', addDatum uniNormUpd c z (data z) = .ok c' ∧ c'.idx = insert z c.idx := by
      rw [addDatum, if_neg hz']
      exact ⟨_, rfl, rfl⟩
    obtain ⟨c', h2, h3⟩ := h1
    refine ⟨ops ++ [.add z], c', ?_, by rw [h3, hs]⟩
    unfold runOps at hc ⊢
    rw [List.foldlM_append, hc]
    simp only [ok_bind, List.foldlM_cons, List.foldlM_nil, runOp, h2]
    rfl

theorem lsObjects_exist (data : ℤ → ℝ) (n K : ℕ) :
    ∃ obj : (Fin n → Fin K) → Fin K → Cluster UniNormStats UniLS, LsObjects data obj := by
  choose ops obj h1 h2 using run_to_rows data exLs
  refine ⟨fun c k => obj ((Finset.univ.filter fun i => c i = k).image fun i : Fin n => (i.val : ℤ)),
    fun c k => ⟨⟨exLs, _, h1 _⟩, fun z => ?_⟩⟩
  rw [h2]
  simp [eq_comm]

/-- Five rows, three components, sticks of a Dirichlet process. -/
example : ∃ obj : (Fin 5 → Fin 3) → Fin 3 → Cluster UniNormStats UniLS,
    LsObjects (fun i => (i : ℝ)) obj ∧
    ∃ φ : (Fin 5 → Fin 3) → (Fin 3 → UniLS) → (Fin 3 → ℝ) → ℝ≥0∞, Meas φ ∧
      posteriorAt (lsLike fun i => (i : ℝ)) 5 (fun _ => 1) (fun _ => 2) (nxigLaw ⟨3, 1, 2, 4⟩)
        (lsBlocked ⟨3, 1, 2, 4⟩ (fun z m s => m + s * z) (normalLaw 0 1) (fun z a r => z (a, r))
          (lawSeeds invGammaLaw) (fun i => (i : ℝ)) (fun _ => 1) (fun _ => 2) obj φ) ≠
      posteriorAt (lsLike fun i => (i : ℝ)) 5 (fun _ => 1) (fun _ => 2) (nxigLaw ⟨3, 1, 2, 4⟩) φ := by
  obtain ⟨obj, ho⟩ := lsObjects_exist (fun i => (i : ℝ)) 5 3
  have h := (c152_violated affine_normalGen invGammaSeeds (.fixed 3 1 2 4) _
    (nxigInit_fixed (by norm_num) (by norm_num) (by norm_num)) (fun i => (i : ℝ)) (by norm_num)
    (by norm_num) (fun _ => 1) (fun _ => 2) (fun _ => by norm_num) (fun _ => by norm_num) obj ho).2.2
  push Not at h
  exact ⟨obj, ho, h⟩

end Bayesmix.Chain
