import Verif.Hier.MetropolisLaw
import Mathlib.Probability.Distributions.Gaussian.Real

/-!
# C43: Metropolis updaters and the distribution of the state
-/

namespace Bayesmix.Hierarchies

open Real MeasureTheory ENNReal ProbabilityTheory

variable {n : ℕ}

/-! ### Statements -/

/-- State after one draw from state `x` with the normal draws `zu.1` and the uniform draw `zu.2`,
and accumulators that start at zero. A fault would leave the state; there is none
(`c43_never_fails`). -/
noncomputable def drawOr (clusterLpdf : (Fin n → ℝ) → ℝ) (q : Proposal n) (x : Fin n → ℝ)
    (zu : (Fin n → ℝ) × ℝ) : Fin n → ℝ :=
  match metropolisDraw clusterLpdf q zu.1 zu.2 0 0 x with
  | .ok y => y
  | .error _ => x

/-- Law of the state after one draw, with independent standard normal draws and a uniform draw. -/
noncomputable def drawLaw (clusterLpdf : (Fin n → ℝ) → ℝ) (q : Proposal n) (x : Fin n → ℝ) :
    Measure (Fin n → ℝ) :=
  ((Measure.pi fun _ : Fin n => gaussianReal 0 1).prod (volume.restrict (Set.Ioo (0 : ℝ) 1))).map
    (drawOr clusterLpdf q x)

/-- The measure with log density `f`. -/
noncomputable def logDensity (f : (Fin n → ℝ) → ℝ) : Measure (Fin n → ℝ) :=
  volume.withDensity fun x => ENNReal.ofReal (exp (f x))

/-- If the state has law `μ`, then so has the state after a draw. -/
def Keeps (clusterLpdf : (Fin n → ℝ) → ℝ) (q : Proposal n) (μ : Measure (Fin n → ℝ)) : Prop :=
  ∀ A, MeasurableSet A → ∫⁻ x, drawLaw clusterLpdf q x A ∂μ = μ A

/-! ### Proofs -/

/-- A proposal with independent normal entries around `m x`. -/
structure GaussProp (q : Proposal n) (m : (Fin n → ℝ) → Fin n → ℝ) (s : ℝ) : Prop where
  pos : 0 < s
  sample : ∀ x z, q.sample x z = .ok (fun i => m x i + s * z i)
  lpdf : ∀ x y, q.lpdf 0 y x = .ok (∑ i, normalLpdf (y i) (m x i) s)

theorem gaussProp_randomWalk {step : ℝ} (hs : 0 < step) :
    GaussProp (randomWalk n step) id step where
  pos := hs
  sample x z := by
    simp only [randomWalk, normalRngs, hs, or_true, if_true, ok_bind]
    rfl
  lpdf x y := by simp [randomWalk, normalLpdfs, hs]

theorem gaussProp_mala {step : ℝ} (hs : 0 < step) (grad : (Fin n → ℝ) → Fin n → ℝ) :
    GaussProp (mala n grad step) (fun x => x + step • grad x) (sqrt (2 * step)) := by
  have h2 : 0 < sqrt (2 * step) := sqrt_pos.mpr (by linarith)
  refine ⟨h2, fun x z => ?_, fun x y => ?_⟩
  · simp only [mala, malaOf, normalRngs, h2, or_true, if_true, ok_bind]
    rfl
  · simp only [mala, malaOf, normalLpdfs, h2, or_true, if_true, zero_add, ok_bind]

/-- Independent normal entries have the product of the normal densities. -/
theorem pi_gaussian_density (m : Fin n → ℝ) {s : ℝ} (hs : 0 < s) :
    (Measure.pi fun _ : Fin n => gaussianReal 0 1).map (fun z i => m i + s * z i) =
      logDensity fun y => ∑ i, normalLpdf (y i) (m i) s := by
  obtain ⟨w, hw, hwv, e⟩ : ∃ w : NNReal, w ≠ 0 ∧ (w : ℝ) = s ^ 2 ∧
      ∀ a x, exp (normalLpdf x a s) = gaussianPDFReal a w x := by
    obtain ⟨w, hw, hwv, -⟩ := exp_normalLpdf_eq 0 (s ^ 2) (by positivity)
    refine ⟨w, hw, hwv, fun a x => ?_⟩
    obtain ⟨w', -, hwv', e⟩ := exp_normalLpdf_eq a (s ^ 2) (by positivity)
    have : w' = w := NNReal.coe_injective (hwv'.trans hwv.symm)
    rw [sqrt_sq hs.le] at e
    rw [← this, ← e]
  have hmap : ∀ i, (gaussianReal 0 1).map (fun z => m i + s * z) = gaussianReal (m i) w := by
    intro i
    have h1 : (fun z => m i + s * z) = (fun x => m i + x) ∘ (fun z => s * z) := rfl
    rw [h1, ← Measure.map_map (by fun_prop) (by fun_prop), gaussianReal_map_const_mul,
      gaussianReal_map_const_add]
    congr 1
    · simp
    · apply NNReal.coe_injective
      rw [hwv]
      simp
  have hsf : ∀ i, SigmaFinite ((gaussianReal 0 1).map (fun z => m i + s * z)) := by
    intro i; rw [hmap i]; infer_instance
  rw [Measure.pi_map_pi (f := fun i z => m i + s * z) (fun i => by fun_prop)]
  simp only [hmap]
  refine Measure.pi_eq fun S hS => ?_
  have hbox : MeasurableSet (Set.univ.pi S) := MeasurableSet.univ_pi hS
  unfold logDensity
  rw [withDensity_apply _ hbox, ← lintegral_indicator hbox]
  have e1 : ∀ y : Fin n → ℝ, (Set.univ.pi S).indicator
      (fun y => ENNReal.ofReal (exp (∑ i, normalLpdf (y i) (m i) s))) y =
        ENNReal.ofReal (∏ i, (S i).indicator (gaussianPDFReal (m i) w) (y i)) := by
    intro y
    by_cases hy : y ∈ Set.univ.pi S
    · rw [Set.indicator_of_mem hy, exp_sum]
      congr 1
      refine Finset.prod_congr rfl fun i _ => ?_
      rw [Set.indicator_of_mem (hy i (Set.mem_univ i)), e]
    · rw [Set.indicator_of_notMem hy]
      simp only [Set.mem_pi, Set.mem_univ, true_imp_iff, not_forall] at hy
      obtain ⟨i, hi⟩ := hy
      rw [Finset.prod_eq_zero (Finset.mem_univ i) (Set.indicator_of_notMem hi _), ofReal_zero]
  have hint : ∀ i, Integrable ((S i).indicator (gaussianPDFReal (m i) w)) := fun i =>
    (integrable_gaussianPDFReal (m i) w).indicator (hS i)
  have hnn : ∀ i x, 0 ≤ (S i).indicator (gaussianPDFReal (m i) w) x := fun i x =>
    Set.indicator_nonneg (fun x _ => gaussianPDFReal_nonneg _ _ _) x
  have hprod : Integrable (fun y : Fin n → ℝ =>
      ∏ i, (S i).indicator (gaussianPDFReal (m i) w) (y i)) volume :=
    Integrable.fintype_prod (f := fun i => (S i).indicator (gaussianPDFReal (m i) w)) hint
  rw [lintegral_congr e1, ← ofReal_integral_eq_lintegral_ofReal hprod
    (Filter.Eventually.of_forall fun y => Finset.prod_nonneg fun i _ => hnn i _),
    integral_fintype_prod_volume_eq_prod (fun i => (S i).indicator (gaussianPDFReal (m i) w)),
    ENNReal.ofReal_prod_of_nonneg (fun i _ => integral_nonneg (hnn i))]
  refine Finset.prod_congr rfl fun i _ => ?_
  rw [gaussianReal_apply_eq_integral _ hw, integral_indicator (hS i)]

theorem lintegral_uniform (a : ℝ) (b c : ℝ≥0∞) :
    ∫⁻ u in Set.Ioo (0 : ℝ) 1, (if Real.log u < a then b else c) =
      ENNReal.ofReal (min 1 (exp a)) * b + (1 - ENNReal.ofReal (min 1 (exp a))) * c := by
  have hm0 : 0 ≤ min 1 (exp a) := le_min zero_le_one (exp_pos a).le
  have hmeas : MeasurableSet {u : ℝ | Real.log u < a} :=
    measurableSet_lt Real.measurable_log measurable_const
  have hset : {u : ℝ | Real.log u < a} ∩ Set.Ioo 0 1 = Set.Ioo 0 (min 1 (exp a)) := by
    ext u
    simp only [Set.mem_ofPred_eq, Set.mem_Ioo, lt_min_iff, Set.mem_inter_iff]
    constructor
    · rintro ⟨h2, h0, h1⟩
      exact ⟨h0, h1, (Real.log_lt_iff_lt_exp h0).1 h2⟩
    · rintro ⟨h0, h1, h2⟩
      exact ⟨(Real.log_lt_iff_lt_exp h0).2 h2, h0, h1⟩
  have e1 : (volume.restrict (Set.Ioo (0 : ℝ) 1)) {u : ℝ | Real.log u < a} =
      ENNReal.ofReal (min 1 (exp a)) := by
    rw [Measure.restrict_apply hmeas, hset, Real.volume_Ioo, sub_zero]
  have e2 : (volume.restrict (Set.Ioo (0 : ℝ) 1)) {u : ℝ | Real.log u < a}ᶜ =
      1 - ENNReal.ofReal (min 1 (exp a)) := by
    rw [measure_compl hmeas (by rw [e1]; exact ofReal_ne_top), e1]
    simp
  rw [← lintegral_add_compl _ hmeas]
  congr 1
  · have : ∫⁻ u in {u : ℝ | Real.log u < a}, (if Real.log u < a then b else c)
          ∂(volume.restrict (Set.Ioo (0 : ℝ) 1)) =
        ∫⁻ _ in {u : ℝ | Real.log u < a}, b ∂(volume.restrict (Set.Ioo (0 : ℝ) 1)) :=
      setLIntegral_congr_fun hmeas fun u hu => by
        have hu' : Real.log u < a := hu
        simp only [if_pos hu']
    rw [this, setLIntegral_const, e1, mul_comm]
  · have : ∫⁻ u in {u : ℝ | Real.log u < a}ᶜ, (if Real.log u < a then b else c)
          ∂(volume.restrict (Set.Ioo (0 : ℝ) 1)) =
        ∫⁻ _ in {u : ℝ | Real.log u < a}ᶜ, c ∂(volume.restrict (Set.Ioo (0 : ℝ) 1)) :=
      setLIntegral_congr_fun hmeas.compl fun u hu => by
        have hu' : ¬ Real.log u < a := hu
        simp only [if_neg hu']
    rw [this, setLIntegral_const, e2, mul_comm]

theorem lintegral_logDensity {f : (Fin n → ℝ) → ℝ} (hf : Measurable f) {g : (Fin n → ℝ) → ℝ≥0∞}
    (hg : Measurable g) :
    ∫⁻ x, g x ∂(logDensity f) = ∫⁻ x, ENNReal.ofReal (exp (f x)) * g x := by
  have h : Measurable fun x => ENNReal.ofReal (exp (f x)) := (measurable_exp.comp hf).ennreal_ofReal
  unfold logDensity
  rw [lintegral_withDensity_eq_lintegral_mul _ h hg]
  rfl

section Gauss

variable {q : Proposal n} {m : (Fin n → ℝ) → Fin n → ℝ} {s : ℝ} {clusterLpdf : (Fin n → ℝ) → ℝ}

/-- Log density of the proposal. -/
noncomputable def gaussLq (m : (Fin n → ℝ) → Fin n → ℝ) (s : ℝ) (x y : Fin n → ℝ) : ℝ :=
  ∑ i, normalLpdf (y i) (m x i) s

theorem gaussLq_meas (hm : Measurable m) (s : ℝ) :
    Measurable (Function.uncurry (gaussLq m s)) := by
  unfold Function.uncurry gaussLq normalLpdf
  have h : ∀ i, Measurable fun p : (Fin n → ℝ) × (Fin n → ℝ) => m p.1 i := fun i =>
    (measurable_pi_apply i).comp (hm.comp measurable_fst)
  have h' : ∀ i, Measurable fun p : (Fin n → ℝ) × (Fin n → ℝ) => p.2 i := fun i =>
    (measurable_pi_apply i).comp measurable_snd
  refine Finset.measurable_sum _ fun i _ => ?_
  have := h i
  have := h' i
  fun_prop

theorem gaussLq_meas_right (s : ℝ) (x : Fin n → ℝ) : Measurable fun y => gaussLq m s x y := by
  unfold gaussLq normalLpdf
  fun_prop

theorem gaussLq_meas_left (hm : Measurable m) (s : ℝ) (x : Fin n → ℝ) :
    Measurable fun y => gaussLq m s y x := by
  unfold gaussLq normalLpdf
  have h : ∀ i, Measurable fun y : Fin n → ℝ => m y i := fun i =>
    (measurable_pi_apply i).comp hm
  refine Finset.measurable_sum _ fun i _ => ?_
  have := h i
  fun_prop

theorem metropolisDraw_gauss (hq : GaussProp q m s) (x z : Fin n → ℝ) (u : ℝ) :
    metropolisDraw clusterLpdf q z u 0 0 x = .ok (if Real.log u <
      clusterLpdf (fun i => m x i + s * z i) - clusterLpdf x +
        gaussLq m s (fun i => m x i + s * z i) x - gaussLq m s x (fun i => m x i + s * z i)
      then (fun i => m x i + s * z i) else x) := by
  simp only [metropolisDraw, hq.sample, hq.lpdf, ok_bind, gaussLq]

theorem gaussLq_one (hs : 0 < s) (x : Fin n → ℝ) : ∫⁻ y, mhW (gaussLq m s) x y = 1 := by
  have h := pi_gaussian_density (m x) hs
  have h2 := congrArg (fun μ => μ Set.univ) h
  simp only [logDensity] at h2
  rw [withDensity_apply _ MeasurableSet.univ, Measure.restrict_univ,
    Measure.map_apply (by fun_prop) MeasurableSet.univ] at h2
  simp only [Set.preimage_univ, measure_univ] at h2
  exact h2.symm

theorem lintegral_drawLaw (hq : GaussProp q m s) (hl : Measurable clusterLpdf) (hm : Measurable m)
    {f : (Fin n → ℝ) → ℝ≥0∞} (hf : Measurable f) (x : Fin n → ℝ) :
    ∫⁻ y, f y ∂(drawLaw clusterLpdf q x) = mhOp volume clusterLpdf (gaussLq m s) f x := by
  have hqm := gaussLq_meas hm s
  have h1 := gaussLq_meas_right (m := m) s x
  have h2 := gaussLq_meas_left hm s x
  obtain ⟨pr, hpr⟩ : ∃ pr : (Fin n → ℝ) → Fin n → ℝ, pr = fun z i => m x i + s * z i := ⟨_, rfl⟩
  have hprm : Measurable pr := by rw [hpr]; fun_prop
  obtain ⟨a, ha⟩ : ∃ a : (Fin n → ℝ) → ℝ, a = fun y =>
    clusterLpdf y - clusterLpdf x + gaussLq m s y x - gaussLq m s x y := ⟨_, rfl⟩
  have ham : Measurable a := by rw [ha]; fun_prop
  have hfun : drawOr clusterLpdf q x =
      fun zu => if Real.log zu.2 < a (pr zu.1) then pr zu.1 else x := by
    funext zu
    unfold drawOr
    rw [metropolisDraw_gauss hq, ha, hpr]
  have hmeas : Measurable fun zu : (Fin n → ℝ) × ℝ =>
      if Real.log zu.2 < a (pr zu.1) then pr zu.1 else x :=
    Measurable.ite (measurableSet_lt (Real.measurable_log.comp measurable_snd)
      (ham.comp (hprm.comp measurable_fst))) (hprm.comp measurable_fst) measurable_const
  unfold drawLaw
  have hfm : Measurable fun zu : (Fin n → ℝ) × ℝ =>
      f (if Real.log zu.2 < a (pr zu.1) then pr zu.1 else x) := hf.comp hmeas
  rw [hfun, lintegral_map hf hmeas, lintegral_prod _ hfm.aemeasurable]
  have e1 : ∀ z, (∫⁻ u in Set.Ioo (0 : ℝ) 1, f (if Real.log u < a (pr z) then pr z else x)) =
      mhAcc clusterLpdf (gaussLq m s) x (pr z) * f (pr z) +
        (1 - mhAcc clusterLpdf (gaussLq m s) x (pr z)) * f x := by
    intro z
    have : ∀ u : ℝ, f (if Real.log u < a (pr z) then pr z else x) =
        if Real.log u < a (pr z) then f (pr z) else f x := fun u => apply_ite f _ _ _
    rw [lintegral_congr this, lintegral_uniform, ha]
    simp only [mhAcc]
  have hA := mhAcc_meas' hl hqm x
  have hW := mhW_meas' hqm x
  obtain ⟨G, hG⟩ : ∃ G : (Fin n → ℝ) → ℝ≥0∞, G = fun y =>
    mhAcc clusterLpdf (gaussLq m s) x y * f y +
      (1 - mhAcc clusterLpdf (gaussLq m s) x y) * f x := ⟨_, rfl⟩
  have hGm : Measurable G := by rw [hG]; fun_prop
  have e2 : ∀ z, (∫⁻ u in Set.Ioo (0 : ℝ) 1, f (if Real.log u < a (pr z) then pr z else x)) =
      G (pr z) := by
    intro z; rw [e1, hG]
  rw [lintegral_congr e2, ← lintegral_map hGm hprm, hpr, pi_gaussian_density (m x) hq.pos]
  change ∫⁻ y, G y ∂(logDensity fun y => gaussLq m s x y) = _
  rw [lintegral_logDensity h1 hGm]
  unfold mhOp
  rw [hG]
  rfl

theorem drawLaw_apply (hq : GaussProp q m s) (hl : Measurable clusterLpdf) (hm : Measurable m)
    {A : Set (Fin n → ℝ)} (hA : MeasurableSet A) (x : Fin n → ℝ) :
    drawLaw clusterLpdf q x A =
      mhOp volume clusterLpdf (gaussLq m s) (A.indicator fun _ => 1) x := by
  rw [← lintegral_drawLaw hq hl hm (measurable_const.indicator hA), lintegral_indicator hA]
  simp

theorem gauss_reversible (hq : GaussProp q m s) (hl : Measurable clusterLpdf) (hm : Measurable m)
    {A B : Set (Fin n → ℝ)} (hA : MeasurableSet A) (hB : MeasurableSet B) :
    ∫⁻ x in A, drawLaw clusterLpdf q x B ∂(logDensity clusterLpdf) =
      ∫⁻ x in B, drawLaw clusterLpdf q x A ∂(logDensity clusterLpdf) := by
  have hqm := gaussLq_meas hm s
  have key : ∀ {A B : Set (Fin n → ℝ)}, MeasurableSet A → MeasurableSet B →
      ∫⁻ x in A, drawLaw clusterLpdf q x B ∂(logDensity clusterLpdf) =
        ∫⁻ x, ENNReal.ofReal (exp (clusterLpdf x)) * (A.indicator (fun _ => 1) x *
          mhOp volume clusterLpdf (gaussLq m s) (B.indicator fun _ => 1) x) := by
    intro A B hA hB
    have hm1 := mhOp_meas volume hl hqm (f := B.indicator fun _ => 1)
      (measurable_const.indicator hB)
    have hm2 : Measurable fun x => A.indicator (fun _ => (1 : ℝ≥0∞)) x *
        mhOp volume clusterLpdf (gaussLq m s) (B.indicator fun _ => 1) x :=
      (measurable_const.indicator hA).mul hm1
    rw [← lintegral_indicator hA, ← lintegral_logDensity hl hm2]
    refine lintegral_congr fun x => ?_
    by_cases hx : x ∈ A
    · simp [hx, drawLaw_apply hq hl hm hB]
    · simp [hx]
  rw [key hA hB, key hB hA]
  exact mhOp_reversible volume hl hqm (measurable_const.indicator hA) (measurable_const.indicator hB)

theorem gauss_keeps (hq : GaussProp q m s) (hl : Measurable clusterLpdf) (hm : Measurable m) :
    Keeps clusterLpdf q (logDensity clusterLpdf) := by
  intro A hA
  have hqm := gaussLq_meas hm s
  have hi : Measurable (A.indicator fun _ : Fin n → ℝ => (1 : ℝ≥0∞)) := measurable_const.indicator hA
  rw [lintegral_congr (drawLaw_apply hq hl hm hA), lintegral_logDensity hl (mhOp_meas _ hl hqm hi),
    mhOp_invariant volume hl hqm (gaussLq_one hq.pos) hi, ← lintegral_logDensity hl hi,
    lintegral_indicator hA]
  simp

/-- The full conditional is kept exactly if the prior is flat. -/
theorem gauss_keeps_iff (hq : GaussProp q m s) (hl : Measurable clusterLpdf) (hm : Measurable m)
    {prior : (Fin n → ℝ) → ℝ} (hp : Measurable prior)
    (hfin : logDensity (fun x => clusterLpdf x + prior x) Set.univ ≠ ∞) :
    Keeps clusterLpdf q (logDensity fun x => clusterLpdf x + prior x) ↔
      ∃ a, ∀ᵐ x, prior x = a := by
  have hqm := gaussLq_meas hm s
  have hlp : Measurable fun x => clusterLpdf x + prior x := hl.add hp
  have hh : Measurable fun x => ENNReal.ofReal (exp (prior x)) :=
    (measurable_exp.comp hp).ennreal_ofReal
  have hsplit : ∀ x, ENNReal.ofReal (exp (clusterLpdf x + prior x)) =
      ENNReal.ofReal (exp (clusterLpdf x)) * ENNReal.ofReal (exp (prior x)) := by
    intro x
    rw [exp_add, ENNReal.ofReal_mul (exp_pos _).le]
  have hd : ∀ {g : (Fin n → ℝ) → ℝ≥0∞}, Measurable g →
      ∫⁻ x, g x ∂(logDensity fun x => clusterLpdf x + prior x) =
        ∫⁻ x, ENNReal.ofReal (exp (clusterLpdf x)) * (ENNReal.ofReal (exp (prior x)) * g x) := by
    intro g hg
    rw [lintegral_logDensity hlp hg]
    refine lintegral_congr fun x => ?_
    rw [hsplit, mul_assoc]
  constructor
  · intro hk
    refine ae_const_of_levels volume (NeZero.ne _) prior fun c => ?_
    have := mhOp_level volume hl hqm (gaussLq_one hq.pos) hh ?_ ?_ (ENNReal.ofReal (exp c))
      ofReal_ne_top
    · rcases this with h | h
      · left
        filter_upwards [h] with x hx
        exact exp_lt_exp.mp ((ENNReal.ofReal_lt_ofReal_iff (exp_pos _)).mp hx)
      · right
        filter_upwards [h] with x hx
        exact exp_le_exp.mp ((ENNReal.ofReal_le_ofReal_iff (exp_pos _).le).mp hx)
    · have h1 := hd (g := fun _ => 1) measurable_const
      simp only [lintegral_const, one_mul, mul_one] at h1
      rw [← h1]
      exact hfin
    · intro S hS
      have hi : Measurable (S.indicator fun _ : Fin n → ℝ => (1 : ℝ≥0∞)) :=
        measurable_const.indicator hS
      rw [← hd (mhOp_meas _ hl hqm hi), ← hd hi, lintegral_congr fun x =>
        (drawLaw_apply hq hl hm hS x).symm, hk S hS, lintegral_indicator hS]
      simp
  · rintro ⟨a, ha⟩
    have e : logDensity (fun x => clusterLpdf x + prior x) =
        ENNReal.ofReal (exp a) • logDensity clusterLpdf := by
      unfold logDensity
      have hL : Measurable fun x => ENNReal.ofReal (exp (clusterLpdf x)) :=
        (measurable_exp.comp hl).ennreal_ofReal
      rw [← withDensity_smul _ hL]
      refine withDensity_congr_ae ?_
      filter_upwards [ha] with x hx
      rw [hsplit, hx, mul_comm]
      rfl
    intro A hA
    rw [e, lintegral_smul_measure, gauss_keeps hq hl hm A hA]
    rfl

/-- No proper prior is flat. -/
theorem proper_not_flat (hn : 0 < n) {prior : (Fin n → ℝ) → ℝ}
    (hfin : logDensity prior Set.univ ≠ ∞) : ¬ ∃ a, ∀ᵐ x, prior x = a := by
  rintro ⟨a, ha⟩
  apply hfin
  unfold logDensity
  rw [withDensity_apply _ MeasurableSet.univ, Measure.restrict_univ,
    lintegral_congr_ae (g := fun _ => ENNReal.ofReal (exp a))
      (by filter_upwards [ha] with x hx; rw [hx]), lintegral_const]
  have : Nonempty (Fin n) := ⟨⟨0, hn⟩⟩
  rw [show (volume : Measure (Fin n → ℝ)) Set.univ = ∞ from measure_univ_of_isAddLeftInvariant _]
  exact ENNReal.mul_top (ENNReal.ofReal_pos.mpr (exp_pos a)).ne'

end Gauss

/-! ### The property -/

/-- **C43, no faults.** With a positive step the random walk and the Langevin updater always end
with a state, and the laws after a draw are probability measures. -/
theorem c43_never_fails (clusterLpdf : (Fin n → ℝ) → ℝ) (hl : Measurable clusterLpdf)
    (grad : (Fin n → ℝ) → Fin n → ℝ) (hg : Measurable grad) (step : ℝ) (hs : 0 < step)
    (x : Fin n → ℝ) :
    (∀ z u, (∃ y, metropolisDraw clusterLpdf (randomWalk n step) z u 0 0 x = .ok y) ∧
      ∃ y, metropolisDraw clusterLpdf (mala n grad step) z u 0 0 x = .ok y) ∧
    drawLaw clusterLpdf (randomWalk n step) x Set.univ = 1 ∧
    drawLaw clusterLpdf (mala n grad step) x Set.univ = 1 := by
  have h1 := gaussProp_randomWalk (n := n) hs
  have h2 := gaussProp_mala hs grad
  have hm2 : Measurable fun x => x + step • grad x := measurable_id.add (hg.const_smul step)
  refine ⟨fun z u => ⟨⟨_, metropolisDraw_gauss h1 x z u⟩, _, metropolisDraw_gauss h2 x z u⟩, ?_, ?_⟩
  · rw [drawLaw_apply h1 hl measurable_id MeasurableSet.univ, Set.indicator_univ,
      mhOp_const volume (gaussLq_one h1.pos) (gaussLq_meas measurable_id _)]
  · rw [drawLaw_apply h2 hl hm2 MeasurableSet.univ, Set.indicator_univ,
      mhOp_const volume (gaussLq_one h2.pos) (gaussLq_meas hm2 _)]

/-- **C43, in part: the law of the state.** A draw is reversible for the likelihood of the
cluster's data, and keeps it: this would be the full conditional with a flat prior.

Missing (`c43_kernel_violated`): the prior. -/
theorem c43_kernel_partial (clusterLpdf : (Fin n → ℝ) → ℝ) (hl : Measurable clusterLpdf)
    (grad : (Fin n → ℝ) → Fin n → ℝ) (hg : Measurable grad) (step : ℝ) (hs : 0 < step)
    (q : Proposal n) (hq : q = randomWalk n step ∨ q = mala n grad step) :
    Keeps clusterLpdf q (logDensity clusterLpdf) ∧
    ∀ A B, MeasurableSet A → MeasurableSet B →
      ∫⁻ x in A, drawLaw clusterLpdf q x B ∂(logDensity clusterLpdf) =
        ∫⁻ x in B, drawLaw clusterLpdf q x A ∂(logDensity clusterLpdf) := by
  have hm2 : Measurable fun x => x + step • grad x := measurable_id.add (hg.const_smul step)
  rcases hq with rfl | rfl
  · have h := gaussProp_randomWalk (n := n) hs
    exact ⟨gauss_keeps h hl measurable_id, fun A B hA hB =>
      gauss_reversible h hl measurable_id hA hB⟩
  · have h := gaussProp_mala hs grad
    exact ⟨gauss_keeps h hl hm2, fun A B hA hB => gauss_reversible h hl hm2 hA hB⟩

/-- **C43, violated: the law of the state.** A full conditional that is a distribution (likelihood
times prior has finite integral) is kept exactly if the prior is almost everywhere constant. -/
theorem c43_kernel_violated (clusterLpdf prior : (Fin n → ℝ) → ℝ) (hl : Measurable clusterLpdf)
    (hp : Measurable prior) (grad : (Fin n → ℝ) → Fin n → ℝ) (hg : Measurable grad) (step : ℝ)
    (hs : 0 < step) (hfin : logDensity (fun x => clusterLpdf x + prior x) Set.univ ≠ ∞)
    (q : Proposal n) (hq : q = randomWalk n step ∨ q = mala n grad step) :
    Keeps clusterLpdf q (logDensity fun x => clusterLpdf x + prior x) ↔
      ∃ a, ∀ᵐ x, prior x = a := by
  rcases hq with rfl | rfl
  · exact gauss_keeps_iff (gaussProp_randomWalk (n := n) hs) hl measurable_id hp hfin
  · exact gauss_keeps_iff (gaussProp_mala hs grad) hl
      (measurable_id.add (hg.const_smul step)) hp hfin

/-- **C43, violated for every proper prior.** With a prior of finite integral, no full conditional
of finite integral is kept. -/
theorem c43_proper_prior_violated (hn : 0 < n) (clusterLpdf prior : (Fin n → ℝ) → ℝ)
    (hl : Measurable clusterLpdf) (hp : Measurable prior) (grad : (Fin n → ℝ) → Fin n → ℝ)
    (hg : Measurable grad) (step : ℝ) (hs : 0 < step) (hprior : logDensity prior Set.univ ≠ ∞)
    (hfin : logDensity (fun x => clusterLpdf x + prior x) Set.univ ≠ ∞) (q : Proposal n)
    (hq : q = randomWalk n step ∨ q = mala n grad step) :
    ¬ Keeps clusterLpdf q (logDensity fun x => clusterLpdf x + prior x) := by
  rw [c43_kernel_violated clusterLpdf prior hl hp grad hg step hs hfin q hq]
  exact proper_not_flat hn hprior

/-! ### Examples -/

/-- A standard normal prior on the unconstrained state, and one datum with unit variance: the
mean is the first entry. -/
theorem normal_prior_finite (n : ℕ) :
    logDensity (fun x : Fin n → ℝ => ∑ i, normalLpdf (x i) 0 1) Set.univ = 1 := by
  rw [← pi_gaussian_density (fun _ : Fin n => 0) one_pos, Measure.map_apply (by fun_prop)
    MeasurableSet.univ]
  simp

theorem likelihood_prior_finite (y : ℝ) : logDensity (fun x : Fin 2 → ℝ => normalLpdf y (x 0) 1 +
    ∑ i, normalLpdf (x i) 0 1) Set.univ ≠ ∞ := by
  have h1 := normal_prior_finite 2
  unfold logDensity at h1 ⊢
  rw [withDensity_apply _ MeasurableSet.univ] at h1 ⊢
  refine ne_top_of_le_ne_top (b := 1) one_ne_top ?_
  rw [← h1]
  refine lintegral_mono fun x => ENNReal.ofReal_le_ofReal (exp_le_exp.mpr ?_)
  have : normalLpdf y (x 0) 1 ≤ 0 := by
    unfold normalLpdf
    have h2 : 0 ≤ Real.log (2 * π) := Real.log_nonneg (by linarith [Real.two_le_pi])
    rw [Real.log_one]
    nlinarith [sq_nonneg ((y - x 0) / 1)]
  linarith

example (y : ℝ) (grad : (Fin 2 → ℝ) → Fin 2 → ℝ) (hg : Measurable grad) :
    ¬ Keeps (fun x => normalLpdf y (x 0) 1) (mala 2 grad (1 / 10))
      (logDensity fun x => normalLpdf y (x 0) 1 + ∑ i, normalLpdf (x i) 0 1) :=
  c43_proper_prior_violated (by norm_num) _ _ (by unfold normalLpdf; fun_prop)
    (by unfold normalLpdf; fun_prop) grad hg _ (by norm_num)
    (by rw [normal_prior_finite]; exact one_ne_top) (likelihood_prior_finite y) _ (.inr rfl)

example (y : ℝ) : Keeps (fun x : Fin 2 → ℝ => normalLpdf y (x 0) 1) (randomWalk 2 (1 / 10))
    (logDensity fun x => normalLpdf y (x 0) 1) :=
  (c43_kernel_partial _ (by unfold normalLpdf; fun_prop) (fun _ => 0) measurable_const (1 / 10)
    (by norm_num) _ (.inl rfl)).1

example (y : ℝ) : ¬ Keeps (fun x : Fin 2 → ℝ => normalLpdf y (x 0) 1) (randomWalk 2 (1 / 10))
    (logDensity fun x => normalLpdf y (x 0) 1 + ∑ i, normalLpdf (x i) 0 1) := by
  rw [c43_kernel_violated _ _ (by unfold normalLpdf; fun_prop) (by unfold normalLpdf; fun_prop)
    (fun _ => 0) measurable_const _ (by norm_num) (likelihood_prior_finite y) _ (.inl rfl)]
  exact proper_not_flat (by norm_num) (by rw [normal_prior_finite]; exact one_ne_top)

example (x z : Fin 2 → ℝ) (u : ℝ) :
    ∃ y, metropolisDraw (fun _ => 0) (mala 2 (fun x => -x) (1 / 2)) z u 0 0 x = .ok y :=
  ((c43_never_fails _ measurable_const (fun x => -x) measurable_id.neg (1 / 2) (by norm_num)
    x).1 z u).2

end Bayesmix.Hierarchies
