import Verif.Algo.PropsSemiConjLaw
import Verif.Algo.PositiveKernel

/-!
# C151: the only law that draws of a Normal x inverse Gamma cluster keep
-/

namespace Bayesmix.Chain
open Bayesmix Cond Hierarchies MeasureTheory ENNReal ProbabilityTheory

variable {Z W : Type} [MeasurableSpace Z] [MeasurableSpace W] {ζ : Measure Z} {gen : Z → ℝ → ℝ → ℝ}
  {ω : Measure W} {ig : W → ℝ → ℝ → ℝ}

/-- The draw of a cluster with rows has a positive transition density. -/
theorem ls_draw_density (hg : NormalGen ζ gen) (hi : GenLaw ω ig invGammaLaw) (p : NxIGPrior) (h : NxIG)
    (hp : nxigInit p = .ok h) (data : ℤ → ℝ) (c0 c : Cluster UniNormStats UniLS) (ops : List DataOp)
    (hrun : runOps uniNormUpd data (clearAll uniNormZero c0) ops = .ok c) (h0 : c.card ≠ 0) :
    ∃ k : ℝ × ℝ → ℝ × ℝ → ℝ≥0∞, (Measurable fun r : (ℝ × ℝ) × (ℝ × ℝ) => k r.1 r.2) ∧
      (∀ x y, k x y ≠ 0) ∧ (∀ x : ℝ × ℝ, 0 < x.2 → ∫⁻ y, k x y ∂lsVol = 1) ∧
      ∀ ψ : UniLS → ℝ≥0∞, Measurable ψ → ∀ m v, 0 < v →
        lsDrawMean h gen ζ ig ω c ψ ⟨m, v⟩ = ∫⁻ y, k (m, v) y * ψ ⟨y.1, y.2⟩ ∂lsVol := by
  obtain ⟨M, V, B, A, hA, hVpos, hBpos, hBm, hMm, hVm, hpost, hD1, hD2⟩ :=
    ls_conditionals p h hp data c0 c ops hrun h0
  -- the transition density
  obtain ⟨k, hk⟩ : ∃ k : ℝ × ℝ → ℝ × ℝ → ℝ≥0∞, k = fun x y =>
    ENNReal.ofReal (Real.exp (normalLpdf y.1 (M x.2) (Real.sqrt (V x.2)))) *
      ENNReal.ofReal (Real.exp (invGammaLpdf y.2 A (B x.1))) := ⟨_, rfl⟩
  have hkm : Measurable fun r : (ℝ × ℝ) × (ℝ × ℝ) => k r.1 r.2 := by
    rw [hk]
    refine Measurable.mul (ENNReal.measurable_ofReal.comp (Real.measurable_exp.comp
      (measurable_normalLpdf (measurable_fst.comp measurable_snd) ?_ ?_))) ?_
    · exact hMm.comp (measurable_snd.comp measurable_fst)
    · exact (hVm.comp (measurable_snd.comp measurable_fst)).sqrt
    · have hB2 : Measurable fun r : (ℝ × ℝ) × (ℝ × ℝ) => B r.1.1 := hBm.comp (measurable_fst.comp measurable_fst)
      unfold invGammaLpdf
      fun_prop
  have hkpos : ∀ x y, k x y ≠ 0 := by
    intro x y
    rw [hk]
    exact mul_ne_zero (by simpa using Real.exp_pos _) (by simpa using Real.exp_pos _)
  have hkone : ∀ x : ℝ × ℝ, 0 < x.2 → ∫⁻ y, k x y ∂lsVol = 1 := by
    intro x hx
    rw [hk, lsVol]
    dsimp only
    rw [lintegral_prod_mul (measurable_normalDens _ _).aemeasurable (measurable_invGammaDens _ _).aemeasurable,
      lintegral_normalLpdf _ _ (hVpos _ hx), lintegral_invGammaLpdf _ _ hA (hBpos _), one_mul]
  have hdraw : ∀ (ψ : UniLS → ℝ≥0∞), Measurable ψ → ∀ m v, 0 < v →
      lsDrawMean h gen ζ ig ω c ψ ⟨m, v⟩ = ∫⁻ y, k (m, v) y * ψ ⟨y.1, y.2⟩ ∂lsVol := by
    intro ψ hψ m v hv
    have hψ2 : Measurable fun q : ℝ × ℝ => ψ ⟨q.1, q.2⟩ := hψ.comp measurable_mk
    have hψx : ∀ x, Measurable fun w => ψ ⟨x, w⟩ := fun x => hψ2.comp (measurable_const.prodMk measurable_id)
    have hs := Real.sqrt_pos.2 (hVpos v hv)
    have hprob := invGammaLaw_prob hA (hBpos m)
    have hF : Measurable fun x => ∫⁻ w, ψ ⟨x, w⟩ ∂invGammaLaw A (B m) := hψ2.lintegral_prod_right'
    have n1 : Measurable fun y : ℝ × ℝ => k (m, v) y * ψ ⟨y.1, y.2⟩ :=
      (hkm.comp (measurable_const.prodMk measurable_id)).mul hψ2
    rw [lsVol, lintegral_prod _ n1.aemeasurable]
    have e : ∀ x, ∫⁻ w in Set.Ioi 0, k (m, v) (x, w) * ψ ⟨x, w⟩ =
        ENNReal.ofReal (Real.exp (normalLpdf x (M v) (Real.sqrt (V v)))) *
          ∫⁻ w, ψ ⟨x, w⟩ ∂invGammaLaw A (B m) := by
      intro x
      have m3 : Measurable fun w => ENNReal.ofReal (Real.exp (invGammaLpdf w A (B m))) * ψ ⟨x, w⟩ :=
        (measurable_invGammaDens _ _).mul (hψx x)
      rw [lintegral_invGammaLaw _ _ (hψx x), ← lintegral_const_mul _ m3, hk]
      refine lintegral_congr fun w => ?_
      ring
    dsimp only
    rw [lintegral_congr e, ← lintegral_normalLaw _ _ hF, ← hg.lintegral hs hF]
    unfold lsDrawMean
    refine lintegral_congr fun z => ?_
    rw [← hi.lintegral hA (hBpos m) (hψx _)]
    refine lintegral_congr fun w => ?_
    rw [nnxigDraw, if_neg h0]
    dsimp only
    rw [hpost]
    rfl
  exact ⟨k, hkm, hkpos, hkone, hdraw⟩

/-- The law under which mean and variance have their posterior laws and are independent. -/
noncomputable def lsProductLaw (h : NxIG) (data : ℤ → ℝ) (idx : Finset ℤ) : Measure UniLS :=
  ((lsVol.withDensity (clusterDens h data idx)).prod (lsVol.withDensity (clusterDens h data idx))).map
    fun r => ⟨r.1.1, r.2.2⟩

theorem measurable_cross : Measurable fun r : (ℝ × ℝ) × (ℝ × ℝ) => (⟨r.1.1, r.2.2⟩ : UniLS) :=
  measurable_mk.comp (g := fun x : ℝ × ℝ => (⟨x.1, x.2⟩ : UniLS))
    (f := fun r : (ℝ × ℝ) × (ℝ × ℝ) => (r.1.1, r.2.2)) (by fun_prop)

theorem lintegral_lsProductLaw (h : NxIG) (hv0 : 0 < h.var) (ha : 0 < h.shape) (hb : 0 < h.scale)
    (data : ℤ → ℝ) (idx : Finset ℤ) {φ : UniLS → ℝ≥0∞} (hφ : Measurable φ) :
    ∫⁻ st, φ st ∂lsProductLaw h data idx = lsProductMean h data idx φ := by
  have hDm := measurable_clusterDens h data idx
  obtain ⟨P, hP⟩ : ∃ P, P = lsVol.withDensity (clusterDens h data idx) := ⟨_, rfl⟩
  have hPF : IsFiniteMeasure P := by
    constructor
    rw [hP, withDensity_apply _ MeasurableSet.univ, Measure.restrict_univ]
    exact lt_top_iff_ne_top.2 (clusterDens_finite h hv0 ha hb data idx)
  have wd : ∀ F : ℝ × ℝ → ℝ≥0∞, Measurable F →
      ∫⁻ q, F q ∂P = ∫⁻ q, clusterDens h data idx q * F q ∂lsVol := by
    intro F hF
    rw [hP, lintegral_withDensity_eq_lintegral_mul _ hDm hF]
    rfl
  have hj : Measurable fun r : (ℝ × ℝ) × (ℝ × ℝ) => φ ⟨r.1.1, r.2.2⟩ := hφ.comp measurable_cross
  rw [lsProductLaw, ← hP, lintegral_map hφ measurable_cross, lintegral_prod _ hj.aemeasurable]
  have hin : Measurable fun s : ℝ × ℝ => ∫⁻ t, φ ⟨s.1, t.2⟩ ∂P := hj.lintegral_prod_right'
  rw [wd _ hin]
  unfold lsProductMean lsPostMean
  refine lintegral_congr fun s => ?_
  have ht : Measurable fun t : ℝ × ℝ => φ ⟨s.1, t.2⟩ := hj.comp (measurable_const.prodMk measurable_id)
  rw [wd _ ht]

theorem lsProductLaw_var (h : NxIG) (hv0 : 0 < h.var) (ha : 0 < h.shape) (hb : 0 < h.scale)
    (data : ℤ → ℝ) (idx : Finset ℤ) : ∀ᵐ st ∂lsProductLaw h data idx, 0 < st.var := by
  have hPF : IsFiniteMeasure (lsVol.withDensity (clusterDens h data idx)) := by
    constructor
    rw [withDensity_apply _ MeasurableSet.univ, Measure.restrict_univ]
    exact lt_top_iff_ne_top.2 (clusterDens_finite h hv0 ha hb data idx)
  rw [lsProductLaw, ae_map_iff measurable_cross.aemeasurable (measurableSet_lt measurable_const measurable_var)]
  refine Measure.quasiMeasurePreserving_snd.ae (p := fun t : ℝ × ℝ => 0 < t.2) ?_
  exact (withDensity_absolutelyContinuous _ _).ae_le lsVol_ae

theorem lsProductLaw_mass (h : NxIG) (hv0 : 0 < h.var) (ha : 0 < h.shape) (hb : 0 < h.scale)
    (data : ℤ → ℝ) (idx : Finset ℤ) :
    lsProductLaw h data idx Set.univ = lsProductMean h data idx fun _ => 1 := by
  rw [← lintegral_lsProductLaw h hv0 ha hb data idx measurable_const, lintegral_const, one_mul]

theorem lsProductLaw_kept (hg : NormalGen ζ gen) (hi : GenLaw ω ig invGammaLaw) (p : NxIGPrior) (h : NxIG)
    (hp : nxigInit p = .ok h) (data : ℤ → ℝ) (c0 c : Cluster UniNormStats UniLS) (ops : List DataOp)
    (hrun : runOps uniNormUpd data (clearAll uniNormZero c0) ops = .ok c) (h0 : c.card ≠ 0)
    (φ : UniLS → ℝ≥0∞) (hφ : Measurable φ) :
    ∫⁻ st, lsDrawMean h gen ζ ig ω c φ st ∂lsProductLaw h data c.idx =
      ∫⁻ st, φ st ∂lsProductLaw h data c.idx := by
  obtain ⟨hv0, ha, hb⟩ := nxigInit_pos hp
  obtain ⟨k, hkm, hkpos, hkone, hdraw⟩ := ls_draw_density hg hi p h hp data c0 c ops hrun h0
  have hφ2 : Measurable fun q : ℝ × ℝ => φ ⟨q.1, q.2⟩ := hφ.comp measurable_mk
  have hSF : SigmaFinite lsVol := by unfold lsVol; infer_instance
  have hj : Measurable fun r : (ℝ × ℝ) × (ℝ × ℝ) => k r.1 r.2 * φ ⟨r.2.1, r.2.2⟩ :=
    hkm.mul (hφ2.comp measurable_snd)
  have hK : Measurable fun st : UniLS => ∫⁻ y, k (st.mean, st.var) y * φ ⟨y.1, y.2⟩ ∂lsVol :=
    hj.lintegral_prod_right'.comp measurable_pair
  have e1 : ∫⁻ st, lsDrawMean h gen ζ ig ω c φ st ∂lsProductLaw h data c.idx =
      ∫⁻ st, ∫⁻ y, k (st.mean, st.var) y * φ ⟨y.1, y.2⟩ ∂lsVol ∂lsProductLaw h data c.idx := by
    refine lintegral_congr_ae ?_
    filter_upwards [lsProductLaw_var h hv0 ha hb data c.idx] with st hst
    exact hdraw φ hφ st.mean st.var hst
  rw [e1, lintegral_lsProductLaw h hv0 ha hb data c.idx hK, lintegral_lsProductLaw h hv0 ha hb data c.idx hφ,
    ← (c151_product_law hg hi p h hp data c0 c ops hrun h0 φ hφ).2.2]
  unfold lsProductMean lsPostMean
  refine lintegral_congr fun s => ?_
  congr 1
  refine lintegral_congr_ae ?_
  filter_upwards [lsVol_ae] with t ht
  rw [hdraw _ hφ _ _ ht]

/-- **C151, the only law that is kept.** For every cluster with at least one row: a finite law of states
with positive variances is kept by the draw if and only if, up to its mass, it is the law under which
mean and variance have their posterior laws and are independent. -/
theorem c151_unique_law (hg : NormalGen ζ gen) (hi : GenLaw ω ig invGammaLaw) (p : NxIGPrior) (h : NxIG)
    (hp : nxigInit p = .ok h) (data : ℤ → ℝ) (c0 c : Cluster UniNormStats UniLS) (ops : List DataOp)
    (hrun : runOps uniNormUpd data (clearAll uniNormZero c0) ops = .ok c) (h0 : c.card ≠ 0)
    (ρ : Measure UniLS) (hρ : ρ Set.univ ≠ ∞) (hρv : ∀ᵐ st ∂ρ, 0 < st.var) :
    (∀ φ : UniLS → ℝ≥0∞, Measurable φ →
      ∫⁻ st, lsDrawMean h gen ζ ig ω c φ st ∂ρ = ∫⁻ st, φ st ∂ρ) ↔
    ∃ a : ℝ≥0∞, ρ = a • lsProductLaw h data c.idx := by
  refine ⟨fun hinv => ?_, ?_⟩
  swap
  · rintro ⟨a, rfl⟩ φ hφ
    rw [lintegral_smul_measure, lintegral_smul_measure, lsProductLaw_kept hg hi p h hp data c0 c ops hrun h0 φ hφ]
  obtain ⟨hv0, ha, hb⟩ := nxigInit_pos hp
  obtain ⟨k, hkm, hkpos, hkone, hdraw⟩ := ls_draw_density hg hi p h hp data c0 c ops hrun h0
  have hSF : SigmaFinite lsVol := by unfold lsVol; infer_instance
  obtain ⟨hQ0, hQt, _⟩ := c151_product_law hg hi p h hp data c0 c ops hrun h0 (fun _ => 1) measurable_const
  rw [← lsProductLaw_mass h hv0 ha hb data c.idx] at hQ0 hQt
  obtain ⟨Q, hQ⟩ : ∃ Q, Q = lsProductLaw h data c.idx := ⟨_, rfl⟩
  rw [← hQ] at hQ0 hQt
  have hQv : ∀ᵐ st ∂Q, 0 < st.var := by rw [hQ]; exact lsProductLaw_var h hv0 ha hb data c.idx
  have hQinv : ∀ φ : UniLS → ℝ≥0∞, Measurable φ →
      ∫⁻ st, lsDrawMean h gen ζ ig ω c φ st ∂Q = ∫⁻ st, φ st ∂Q := by
    rw [hQ]; exact lsProductLaw_kept hg hi p h hp data c0 c ops hrun h0
  -- both laws on pairs
  obtain ⟨f, hf⟩ : ∃ f : UniLS → ℝ × ℝ, f = fun st => (st.mean, st.var) := ⟨_, rfl⟩
  have hfm : Measurable f := by rw [hf]; exact measurable_pair
  have inv : ∀ ν : Measure UniLS, (∀ᵐ st ∂ν, 0 < st.var) → (∀ φ : UniLS → ℝ≥0∞, Measurable φ →
      ∫⁻ st, lsDrawMean h gen ζ ig ω c φ st ∂ν = ∫⁻ st, φ st ∂ν) → ∀ ψ : ℝ × ℝ → ℝ≥0∞, Measurable ψ →
      ∫⁻ x, ∫⁻ y, k x y * ψ y ∂lsVol ∂(ν.map f) = ∫⁻ x, ψ x ∂(ν.map f) := by
    intro ν hν hi ψ hψ
    have hψs : Measurable fun st : UniLS => ψ (st.mean, st.var) := hψ.comp measurable_pair
    have hj : Measurable fun r : (ℝ × ℝ) × (ℝ × ℝ) => k r.1 r.2 * ψ r.2 := hkm.mul (hψ.comp measurable_snd)
    rw [lintegral_map hψ hfm, lintegral_map hj.lintegral_prod_right' hfm, hf]
    dsimp only
    rw [← hi _ hψs]
    refine lintegral_congr_ae ?_
    filter_upwards [hν] with st hst
    exact (hdraw _ hψs st.mean st.var hst).symm
  have mass : ∀ ν : Measure UniLS, ν.map f Set.univ = ν Set.univ := by
    intro ν
    rw [Measure.map_apply hfm MeasurableSet.univ, Set.preimage_univ]
  have key := kernel_law_unique (μ := lsVol) (k := k) hkm (Filter.Eventually.of_forall fun x y => hkpos x y)
    (by filter_upwards [lsVol_ae] with x hx using hkone x hx)
    (ρ := Q Set.univ • ρ.map f) (π := ρ Set.univ • Q.map f)
    (by
      rw [Measure.smul_apply, smul_eq_mul, mass]
      exact ENNReal.mul_ne_top hQt hρ)
    (by rw [Measure.smul_apply, Measure.smul_apply, smul_eq_mul, smul_eq_mul, mass, mass, mul_comm])
    (fun ψ hψ => by rw [lintegral_smul_measure, lintegral_smul_measure, inv ρ hρv hinv ψ hψ])
    (fun ψ hψ => by rw [lintegral_smul_measure, lintegral_smul_measure, inv Q hQv hQinv ψ hψ])
  refine ⟨ρ Set.univ / Q Set.univ, Measure.ext_of_lintegral _ fun φ hφ => ?_⟩
  have hφ2 : Measurable fun q : ℝ × ℝ => φ ⟨q.1, q.2⟩ := hφ.comp measurable_mk
  have h1 : ∫⁻ x, φ ⟨x.1, x.2⟩ ∂(Q Set.univ • ρ.map f) = ∫⁻ x, φ ⟨x.1, x.2⟩ ∂(ρ Set.univ • Q.map f) := by
    rw [key]
  rw [lintegral_smul_measure, lintegral_smul_measure, lintegral_map hφ2 hfm, lintegral_map hφ2 hfm, hf] at h1
  have h2 : Q Set.univ * ∫⁻ st, φ st ∂ρ = ρ Set.univ * ∫⁻ st, φ st ∂Q := h1
  rw [← hQ, lintegral_smul_measure, smul_eq_mul, ENNReal.div_eq_inv_mul, mul_assoc, ← h2, ← mul_assoc,
    ENNReal.inv_mul_cancel hQ0 hQt, one_mul]

/-- A cluster with the rows 5 and 9: the law exists and is kept. -/
example : ∃ (c : Cluster UniNormStats UniLS) (ρ : Measure UniLS),
    runOps uniNormUpd (fun i => (i : ℝ)) (clearAll uniNormZero exLs) exOps = .ok c ∧
    ρ Set.univ ≠ 0 ∧ ρ Set.univ ≠ ∞ ∧ (∀ᵐ st ∂ρ, 0 < st.var) ∧
    (∀ φ : UniLS → ℝ≥0∞, Measurable φ → ∫⁻ st, lsDrawMean ⟨3, 1, 2, 4⟩ (fun z m s => m + s * z)
      (normalLaw 0 1) (fun z a r => z (a, r)) (lawSeeds invGammaLaw) c φ st ∂ρ = ∫⁻ st, φ st ∂ρ) := by
  obtain ⟨c, hc, hi⟩ := exOps_run uniNormUpd (fun i => (i : ℝ)) uniNormZero exLs
  have h0 : c.card ≠ 0 := by
    rw [(c34_cardinality uniNormUpd _ uniNormZero _ c exOps hc).1, hi]
    decide
  have hp : nxigInit (.fixed 3 1 2 4) = .ok ⟨3, 1, 2, 4⟩ :=
    nxigInit_fixed (by norm_num) (by norm_num) (by norm_num)
  obtain ⟨hv0, ha, hb⟩ := nxigInit_pos hp
  obtain ⟨hQ0, hQt, _⟩ := c151_product_law affine_normalGen invGammaSeeds _ _ hp _ _ c exOps hc h0
    (fun _ => 1) measurable_const
  rw [← lsProductLaw_mass _ hv0 ha hb _ c.idx] at hQ0 hQt
  have hv := lsProductLaw_var _ hv0 ha hb (fun i => (i : ℝ)) c.idx
  exact ⟨c, _, hc, hQ0, hQt, hv, (c151_unique_law affine_normalGen invGammaSeeds _ _ hp _ _ c exOps hc h0
    _ hQt hv).2 ⟨1, (one_smul _ _).symm⟩⟩

end Bayesmix.Chain
