import Verif.Mixing.LogitUpdate
import Verif.Mixing.Mala
import Verif.Hier.PropsMetropolisLaw

/-!
# Law of the update of one coefficient column

The law of a column is kept exactly if, for almost every value, the flow of proposals accepted into
the value is the flow accepted out of it.
-/

namespace Bayesmix.Mixing

open Bayesmix Bayesmix.Hierarchies MeasureTheory ProbabilityTheory ENNReal

variable {k d : ℕ}

/-! ### Measurability -/

theorem measurable_sigmoid : Measurable sigmoid := by
  unfold sigmoid
  fun_prop

theorem measurable_dot (x : Fin d → ℝ) : Measurable fun a : Fin d → ℝ => x ⬝ᵥ a := by
  unfold dotProduct
  fun_prop

theorem measurable_mulVec (P : Matrix (Fin d) (Fin d) ℝ) {w : (Fin d → ℝ) → Fin d → ℝ}
    (hw : Measurable w) : Measurable fun a => P.mulVec (w a) := by
  unfold Matrix.mulVec dotProduct
  fun_prop

theorem fullCond_meas (mean : Fin d → ℝ) (P : Matrix (Fin d) (Fin d) ℝ)
    (data : List (LogitDatum d)) (clust : ℕ) : Measurable (fullCond mean P data clust) := by
  have key : ∀ (data : List (LogitDatum d)) (a : (Fin d → ℝ) → ℝ), Measurable a →
      Measurable fun alpha => data.foldl (fullCondStep alpha clust) (a alpha) := by
    intro data
    induction data with
    | nil => exact fun a ha => ha
    | cons x xs ih =>
      intro a ha
      refine ih _ ?_
      have h1 : Measurable fun alpha => sigmoid (x.1 ⬝ᵥ alpha) :=
        measurable_sigmoid.comp (measurable_dot x.1)
      unfold fullCondStep
      by_cases hc : clust ≤ x.2
      · simp only [if_pos hc]
        fun_prop
      · simpa only [if_neg hc] using ha
  refine key data _ ?_
  have h2 := measurable_mulVec P (w := fun a => a - mean) (by fun_prop)
  unfold dotProduct
  fun_prop

theorem gradFullCond_meas (mean : Fin d → ℝ) (P : Matrix (Fin d) (Fin d) ℝ)
    (data : List (LogitDatum d)) (clust : ℕ) : Measurable (gradFullCond mean P data clust) := by
  have key : ∀ (data : List (LogitDatum d)) (a : (Fin d → ℝ) → Fin d → ℝ), Measurable a →
      Measurable fun alpha => data.foldl (gradStep alpha clust) (a alpha) := by
    intro data
    induction data with
    | nil => exact fun a ha => ha
    | cons x xs ih =>
      intro a ha
      refine ih _ ?_
      have h1 : Measurable fun alpha => sigmoid (x.1 ⬝ᵥ alpha) :=
        measurable_sigmoid.comp (measurable_dot x.1)
      unfold gradStep
      by_cases hc : clust ≤ x.2
      · simp only [if_pos hc]
        fun_prop
      · simpa only [if_neg hc] using ha
  exact key data _ (measurable_mulVec P (by fun_prop))

/-! ### One column -/

/-- Column after its update. -/
noncomputable def colStep (step : ℝ) (f : (Fin d → ℝ) → ℝ) (g : (Fin d → ℝ) → Fin d → ℝ)
    (c : Fin d → ℝ) (zu : LsbDraw d) : Fin d → ℝ :=
  if zu.2 < Real.exp (logAccept step f g c
      fun i => propMean step g c i + Real.sqrt (propVar step) * zu.1 i) then
    fun i => propMean step g c i + Real.sqrt (propVar step) * zu.1 i
  else c

theorem propVar_pos {step : ℝ} (hs : 0 < step) : 0 < propVar step :=
  Real.sqrt_pos.mpr (by positivity)

theorem lsbFold (mean : Fin d → ℝ) (P : Matrix (Fin d) (Fin d) ℝ) {step : ℝ} (hs : 0 < step)
    (data : List (LogitDatum d)) (draws : Fin k → LsbDraw d) :
    ∀ (l : List (Fin k)) (_ : l.Nodup) (s : LsbState k d), ∃ s',
      l.foldlM (lsbColumn mean P step data draws) s = .ok s' ∧ s'.nIter = s.nIter ∧
      (∀ h, s'.accepted h = if h ∈ l ∧ (draws h).2 < Real.exp (logAccept step
        (fullCond mean P data h) (gradFullCond mean P data h) (s.coeffs h) fun i =>
          propMean step (gradFullCond mean P data h) (s.coeffs h) i +
            Real.sqrt (propVar step) * (draws h).1 i) then s.accepted h + 1 else s.accepted h) ∧
      ∀ h, s'.coeffs h = if h ∈ l then
        colStep step (fullCond mean P data h) (gradFullCond mean P data h) (s.coeffs h) (draws h)
        else s.coeffs h := by
  intro l
  induction l with
  | nil => exact fun _ s => ⟨s, rfl, rfl, fun h => by simp, fun h => by simp⟩
  | cons a l ih =>
    intro hnd s
    obtain ⟨hal, hl⟩ := List.nodup_cons.mp hnd
    obtain ⟨s1, e1, n1, m1, h1⟩ : ∃ s1, lsbColumn mean P step data draws s a = .ok s1 ∧
        s1.nIter = s.nIter ∧ s1.accepted = Function.update s.accepted a
          (if (draws a).2 < Real.exp (logAccept step
            (fullCond mean P data a) (gradFullCond mean P data a) (s.coeffs a) fun i =>
            propMean step (gradFullCond mean P data a) (s.coeffs a) i +
              Real.sqrt (propVar step) * (draws a).1 i) then s.accepted a + 1 else s.accepted a) ∧
        s1.coeffs = Function.update s.coeffs a
          (colStep step (fullCond mean P data a) (gradFullCond mean P data a) (s.coeffs a)
            (draws a)) := by
      unfold lsbColumn multiNormalIso colStep
      simp only [if_pos (Or.inr (propVar_pos hs) : d = 0 ∨ 0 < propVar step), ok_bind]
      split_ifs with hu
      · exact ⟨_, rfl, rfl, rfl, rfl⟩
      · exact ⟨_, rfl, rfl, (Function.update_eq_self _ _).symm, (Function.update_eq_self _ _).symm⟩
    obtain ⟨s', e', n', m', h'⟩ := ih hl s1
    refine ⟨s', ?_, n'.trans n1, fun h => ?_, fun h => ?_⟩
    · rw [List.foldlM_cons, e1]
      exact e'
    · rw [m' h, m1, h1]
      by_cases hha : h = a
      · subst hha
        simp [hal]
      · simp [hha]
    · rw [h' h, h1]
      by_cases hha : h = a
      · subst hha
        simp [hal]
      · simp [hha]

theorem lsbNew_eq (mean : Fin d → ℝ) (P : Matrix (Fin d) (Fin d) ℝ) {step : ℝ} (hs : 0 < step)
    (data : List (LogitDatum d)) (C : Fin k → Fin d → ℝ) (draws : Fin k → LsbDraw d) :
    lsbNew mean P step data C draws = fun h : Fin k =>
      colStep step (fullCond mean P data h) (gradFullCond mean P data h) (C h) (draws h) := by
  obtain ⟨s', e', -, -, h'⟩ := lsbFold mean P hs data draws (List.finRange k) (List.nodup_finRange k)
    ⟨C, fun _ => 0, 0 + 1⟩
  funext h
  unfold lsbNew lsbUpdate
  rw [e']
  simp only
  rw [h' h, if_pos (List.mem_finRange h)]

section Column

variable {step : ℝ} {f : (Fin d → ℝ) → ℝ} {g : (Fin d → ℝ) → Fin d → ℝ}

/-- Log density of the proposal from `c`. -/
noncomputable def colLq (step : ℝ) (g : (Fin d → ℝ) → Fin d → ℝ) (c p : Fin d → ℝ) : ℝ :=
  gaussLq (propMean step g) (Real.sqrt (propVar step)) c p

theorem colLq_sub (hs : 0 < step) (c p q : Fin d → ℝ) : colLq step g c p - colLq step g c q =
    (-0.5 / propVar step) * ((p - propMean step g c) ⬝ᵥ (p - propMean step g c) -
      (q - propMean step g c) ⬝ᵥ (q - propMean step g c)) := by
  have hv := propVar_pos hs
  unfold colLq gaussLq normalLpdf dotProduct
  rw [← Finset.sum_sub_distrib, ← Finset.sum_sub_distrib, Finset.mul_sum]
  refine Finset.sum_congr rfl fun i _ => ?_
  simp only [div_pow, Real.sq_sqrt hv.le, Pi.sub_apply]
  field_simp
  ring

theorem logAccept_eq (hs : 0 < step) (c p : Fin d → ℝ) :
    logAccept step f g c p = f p - f c - (colLq step g c p - colLq step g c c) := by
  rw [colLq_sub hs]
  rfl

theorem propMean_meas (hg : Measurable g) : Measurable (propMean step g) := by
  unfold propMean
  fun_prop

theorem colLq_meas (hg : Measurable g) : Measurable (Function.uncurry (colLq step g)) :=
  gaussLq_meas (propMean_meas hg) _

theorem colLq_one (hs : 0 < step) (c : Fin d → ℝ) :
    ∫⁻ p, ENNReal.ofReal (Real.exp (colLq step g c p)) = 1 :=
  gaussLq_one (Real.sqrt_pos.mpr (propVar_pos hs)) c

theorem colLq_density (hs : 0 < step) (c : Fin d → ℝ) :
    (Measure.pi fun _ : Fin d => gaussianReal 0 1).map
      (fun z i => propMean step g c i + Real.sqrt (propVar step) * z i) =
      logDensity fun p => colLq step g c p :=
  pi_gaussian_density (propMean step g c) (Real.sqrt_pos.mpr (propVar_pos hs))

attribute [local irreducible] colLq logAccept propMean

theorem logAccept_meas (hs : 0 < step) (hf : Measurable f) (hg : Measurable g) :
    Measurable fun cp : (Fin d → ℝ) × (Fin d → ℝ) => logAccept step f g cp.1 cp.2 := by
  have h1 : Measurable fun cp : (Fin d → ℝ) × (Fin d → ℝ) => colLq step g cp.1 cp.2 := colLq_meas hg
  have h2 : Measurable fun cp : (Fin d → ℝ) × (Fin d → ℝ) => colLq step g cp.1 cp.1 :=
    (colLq_meas hg).comp (measurable_fst.prodMk measurable_fst)
  simp only [logAccept_eq hs]
  fun_prop

theorem colStep_meas (hs : 0 < step) (hf : Measurable f) (hg : Measurable g) :
    Measurable fun x : (Fin d → ℝ) × LsbDraw d => colStep step f g x.1 x.2 := by
  have hm := propMean_meas (step := step) hg
  have hp : Measurable fun x : (Fin d → ℝ) × LsbDraw d =>
      (fun i => propMean step g x.1 i + Real.sqrt (propVar step) * x.2.1 i : Fin d → ℝ) := by
    refine measurable_pi_lambda _ fun i => ?_
    have h1 : Measurable fun x : (Fin d → ℝ) × LsbDraw d => propMean step g x.1 i :=
      (measurable_pi_apply i).comp (hm.comp measurable_fst)
    have h2 : Measurable fun x : (Fin d → ℝ) × LsbDraw d => x.2.1 i := by fun_prop
    fun_prop
  refine Measurable.ite (measurableSet_lt (by fun_prop) ?_) hp measurable_fst
  exact Real.measurable_exp.comp ((logAccept_meas hs hf hg).comp (measurable_fst.prodMk hp))

/-- Density of the accepted moves from `c` to `p`, times the density of `c`. -/
noncomputable def colFlow (step : ℝ) (f : (Fin d → ℝ) → ℝ) (g : (Fin d → ℝ) → Fin d → ℝ)
    (c p : Fin d → ℝ) : ℝ≥0∞ :=
  ENNReal.ofReal (Real.exp (min (f c + colLq step g c p) (f p + colLq step g c c)))

theorem colFlow_meas (hf : Measurable f) (hg : Measurable g) :
    Measurable (Function.uncurry (colFlow step f g)) := by
  have h1 : Measurable fun cp : (Fin d → ℝ) × (Fin d → ℝ) => colLq step g cp.1 cp.2 := colLq_meas hg
  have h2 : Measurable fun cp : (Fin d → ℝ) × (Fin d → ℝ) => colLq step g cp.1 cp.1 :=
    (colLq_meas hg).comp (measurable_fst.prodMk measurable_fst)
  unfold Function.uncurry colFlow
  fun_prop

theorem lintegral_uniform' (a : ℝ) (b c : ℝ≥0∞) :
    ∫⁻ u in Set.Ioo (0 : ℝ) 1, (if u < Real.exp a then b else c) =
      ENNReal.ofReal (min 1 (Real.exp a)) * b + (1 - ENNReal.ofReal (min 1 (Real.exp a))) * c := by
  rw [← lintegral_uniform]
  refine setLIntegral_congr_fun measurableSet_Ioo fun u hu => ?_
  simp only [Real.log_lt_iff_lt_exp hu.1]

/-- Mean of a function of the column after an update. -/
theorem lintegral_colStep (hs : 0 < step) (hf : Measurable f) (hg : Measurable g)
    {φ : (Fin d → ℝ) → ℝ≥0∞} (hφ : Measurable φ) (c : Fin d → ℝ) :
    ∫⁻ zu, φ (colStep step f g c zu) ∂(lsbDrawLaw d) =
      ∫⁻ p, ENNReal.ofReal (Real.exp (colLq step g c p)) *
        (ENNReal.ofReal (min 1 (Real.exp (logAccept step f g c p))) * φ p +
          (1 - ENNReal.ofReal (min 1 (Real.exp (logAccept step f g c p)))) * φ c) := by
  have hv := propVar_pos hs
  obtain ⟨pr, hpr⟩ : ∃ pr : (Fin d → ℝ) → Fin d → ℝ,
    pr = fun z i => propMean step g c i + Real.sqrt (propVar step) * z i := ⟨_, rfl⟩
  have hprm : Measurable pr := by rw [hpr]; fun_prop
  have hA : Measurable fun p => logAccept step f g c p :=
    (logAccept_meas hs hf hg).comp measurable_prodMk_left
  have hq : Measurable fun p => colLq step g c p := (colLq_meas hg).comp measurable_prodMk_left
  have hfun : ∀ zu, colStep step f g c zu =
      if zu.2 < Real.exp (logAccept step f g c (pr zu.1)) then pr zu.1 else c := by
    intro zu; rw [hpr]; rfl
  have hm : Measurable fun zu : LsbDraw d => φ (colStep step f g c zu) :=
    hφ.comp ((colStep_meas hs hf hg).comp measurable_prodMk_left)
  unfold lsbDrawLaw
  rw [lintegral_prod _ hm.aemeasurable]
  obtain ⟨G, hG⟩ : ∃ G : (Fin d → ℝ) → ℝ≥0∞, G = fun p =>
    ENNReal.ofReal (min 1 (Real.exp (logAccept step f g c p))) * φ p +
      (1 - ENNReal.ofReal (min 1 (Real.exp (logAccept step f g c p)))) * φ c := ⟨_, rfl⟩
  have hGm : Measurable G := by rw [hG]; fun_prop
  have e : ∀ z, (∫⁻ u in Set.Ioo (0 : ℝ) 1, φ (colStep step f g c (z, u))) = G (pr z) := by
    intro z
    have : ∀ u : ℝ, φ (colStep step f g c (z, u)) =
        if u < Real.exp (logAccept step f g c (pr z)) then φ (pr z) else φ c := by
      intro u
      rw [hfun]
      exact apply_ite φ _ _ _
    rw [lintegral_congr this, lintegral_uniform', hG]
  rw [lintegral_congr e, ← lintegral_map hGm hprm, hpr,
    colLq_density hs c, lintegral_logDensity hq hGm, hG]

theorem colFlow_eq (hs : 0 < step) (c p : Fin d → ℝ) : colFlow step f g c p =
    ENNReal.ofReal (Real.exp (f c)) * (ENNReal.ofReal (Real.exp (colLq step g c p)) *
      ENNReal.ofReal (min 1 (Real.exp (logAccept step f g c p)))) := by
  rw [← ENNReal.ofReal_mul (Real.exp_pos _).le, ← ENNReal.ofReal_mul (Real.exp_pos _).le,
    ← mul_assoc, ← Real.exp_add]
  unfold colFlow
  congr 1
  rw [logAccept_eq hs, mul_min_of_nonneg _ _ (Real.exp_pos _).le, ← Real.exp_add, mul_one]
  rw [Monotone.map_min Real.exp_monotone]
  congr 2
  ring

/-- The law of a column with finite mass is kept exactly if the flows agree. -/
theorem column_keeps_iff (hs : 0 < step) (hf : Measurable f) (hg : Measurable g)
    (hfin : logDensity f Set.univ ≠ ∞) :
    ((logDensity f).prod (lsbDrawLaw d)).map (fun x => colStep step f g x.1 x.2) = logDensity f ↔
      ∀ᵐ p : Fin d → ℝ, ∫⁻ c, colFlow step f g c p = ∫⁻ c, colFlow step f g p c := by
  have hcf := colFlow_meas (step := step) hf hg
  have hin : Measurable fun p : Fin d → ℝ => ∫⁻ c, colFlow step f g c p :=
    (hcf.comp measurable_swap).lintegral_prod_right'
  have hout : Measurable fun p : Fin d → ℝ => ∫⁻ c, colFlow step f g p c := hcf.lintegral_prod_right'
  have hL : Measurable fun x => ENNReal.ofReal (Real.exp (f x)) :=
    (Real.measurable_exp.comp hf).ennreal_ofReal
  have hq : ∀ c, Measurable fun p => ENNReal.ofReal (Real.exp (colLq step g c p)) := fun c => by
    have : Measurable fun p => colLq step g c p := (colLq_meas hg).comp measurable_prodMk_left
    fun_prop
  have hA : ∀ c, Measurable fun p => ENNReal.ofReal (min 1 (Real.exp (logAccept step f g c p))) :=
    fun c => by
      have : Measurable fun p => logAccept step f g c p :=
        (logAccept_meas hs hf hg).comp measurable_prodMk_left
      fun_prop
  have hA1 : ∀ c p, ENNReal.ofReal (min 1 (Real.exp (logAccept step f g c p))) ≤ 1 := fun c p =>
    ENNReal.ofReal_le_one.mpr (min_le_left _ _)
  have hone : ∀ c, ∫⁻ p, ENNReal.ofReal (Real.exp (colLq step g c p)) = 1 := fun c =>
    colLq_one hs c
  -- mass that stays
  obtain ⟨R, hR⟩ : ∃ R : (Fin d → ℝ) → ℝ≥0∞, R = fun c =>
    ∫⁻ p, ENNReal.ofReal (Real.exp (colLq step g c p)) *
      (1 - ENNReal.ofReal (min 1 (Real.exp (logAccept step f g c p)))) := ⟨_, rfl⟩
  have hRm : Measurable R := by
    rw [hR]
    have h1 : Measurable fun cp : (Fin d → ℝ) × (Fin d → ℝ) => colLq step g cp.1 cp.2 :=
      colLq_meas hg
    have h2 := logAccept_meas hs hf hg
    have : Measurable fun cp : (Fin d → ℝ) × (Fin d → ℝ) =>
        ENNReal.ofReal (Real.exp (colLq step g cp.1 cp.2)) *
        (1 - ENNReal.ofReal (min 1 (Real.exp (logAccept step f g cp.1 cp.2)))) := by fun_prop
    exact this.lintegral_prod_right'
  have hsum : ∀ c, (∫⁻ p, colFlow step f g c p) + ENNReal.ofReal (Real.exp (f c)) * R c =
      ENNReal.ofReal (Real.exp (f c)) := by
    intro c
    have h1 := hq c
    have h2 := hA c
    rw [hR]
    dsimp only
    rw [lintegral_congr (colFlow_eq hs c), lintegral_const_mul _ (by fun_prop), ← mul_add,
      ← lintegral_add_left (by fun_prop)]
    have : ∀ p, ENNReal.ofReal (Real.exp (colLq step g c p)) *
        ENNReal.ofReal (min 1 (Real.exp (logAccept step f g c p))) +
        ENNReal.ofReal (Real.exp (colLq step g c p)) *
        (1 - ENNReal.ofReal (min 1 (Real.exp (logAccept step f g c p)))) =
        ENNReal.ofReal (Real.exp (colLq step g c p)) := by
      intro p
      rw [← mul_add, add_tsub_cancel_of_le (hA1 c p), mul_one]
    rw [lintegral_congr this, hone, mul_one]
  have hmass : ∀ A, MeasurableSet A → logDensity f A = ∫⁻ x in A, ENNReal.ofReal (Real.exp (f x)) :=
    fun A hA' => withDensity_apply _ hA'
  have hfinA : ∀ A, logDensity f A ≠ ∞ := fun A =>
    ne_top_of_le_ne_top hfin (measure_mono (Set.subset_univ A))
  haveI : IsFiniteMeasure (logDensity f) := ⟨lt_top_iff_ne_top.mpr hfin⟩
  haveI : SFinite (lsbDrawLaw d) := by unfold lsbDrawLaw; infer_instance
  -- the law after the update
  have hmap : ∀ A, MeasurableSet A →
      ((logDensity f).prod (lsbDrawLaw d)).map (fun x => colStep step f g x.1 x.2) A =
        (∫⁻ p in A, ∫⁻ c, colFlow step f g c p) +
          ∫⁻ c in A, ENNReal.ofReal (Real.exp (f c)) * R c := by
    intro A hAm
    have hi : Measurable (A.indicator fun _ : Fin d → ℝ => (1 : ℝ≥0∞)) :=
      measurable_const.indicator hAm
    have hstep := colStep_meas hs hf hg
    have hcomp : Measurable fun x : (Fin d → ℝ) × LsbDraw d =>
        A.indicator (fun _ : Fin d → ℝ => (1 : ℝ≥0∞)) (colStep step f g x.1 x.2) := hi.comp hstep
    rw [← lintegral_indicator_one hAm]
    change ∫⁻ a, A.indicator (fun _ => (1 : ℝ≥0∞)) a ∂_ = _
    rw [lintegral_map hi hstep, lintegral_prod _ hcomp.aemeasurable,
      lintegral_congr fun c => lintegral_colStep hs hf hg hi c]
    have e1 : ∀ c, (∫⁻ p, ENNReal.ofReal (Real.exp (colLq step g c p)) *
        (ENNReal.ofReal (min 1 (Real.exp (logAccept step f g c p))) *
          A.indicator (fun _ => (1 : ℝ≥0∞)) p +
          (1 - ENNReal.ofReal (min 1 (Real.exp (logAccept step f g c p)))) *
            A.indicator (fun _ => (1 : ℝ≥0∞)) c)) =
        (∫⁻ p, ENNReal.ofReal (Real.exp (colLq step g c p)) *
          ENNReal.ofReal (min 1 (Real.exp (logAccept step f g c p))) *
            A.indicator (fun _ => (1 : ℝ≥0∞)) p) + R c * A.indicator (fun _ => (1 : ℝ≥0∞)) c := by
      intro c
      have h1 := hq c
      have h2 := hA c
      rw [hR]
      dsimp only
      rw [← lintegral_mul_const _ (by fun_prop), ← lintegral_add_left (by fun_prop)]
      refine lintegral_congr fun p => ?_
      ring
    rw [lintegral_congr e1]
    obtain ⟨T, hT⟩ : ∃ T : (Fin d → ℝ) → ℝ≥0∞, T = fun c =>
      ∫⁻ p, ENNReal.ofReal (Real.exp (colLq step g c p)) *
          ENNReal.ofReal (min 1 (Real.exp (logAccept step f g c p))) *
            A.indicator (fun _ => (1 : ℝ≥0∞)) p := ⟨_, rfl⟩
    have hTm : Measurable T := by
      rw [hT]
      have h1 : Measurable fun cp : (Fin d → ℝ) × (Fin d → ℝ) => colLq step g cp.1 cp.2 :=
        colLq_meas hg
      have h2 := logAccept_meas hs hf hg
      have : Measurable fun cp : (Fin d → ℝ) × (Fin d → ℝ) =>
          ENNReal.ofReal (Real.exp (colLq step g cp.1 cp.2)) *
          ENNReal.ofReal (min 1 (Real.exp (logAccept step f g cp.1 cp.2))) *
            A.indicator (fun _ => (1 : ℝ≥0∞)) cp.2 := by fun_prop
      exact this.lintegral_prod_right'
    have e2 : ∀ c, (∫⁻ p, ENNReal.ofReal (Real.exp (colLq step g c p)) *
          ENNReal.ofReal (min 1 (Real.exp (logAccept step f g c p))) *
            A.indicator (fun _ => (1 : ℝ≥0∞)) p) = T c := fun c => by rw [hT]
    simp only [e2]
    rw [lintegral_logDensity hf (by fun_prop)]
    simp only [mul_add]
    rw [lintegral_add_left (by fun_prop)]
    congr 1
    · have e3 : ∀ c, ENNReal.ofReal (Real.exp (f c)) * T c =
          ∫⁻ p, colFlow step f g c p * A.indicator (fun _ => (1 : ℝ≥0∞)) p := by
        intro c
        have h1 := hq c
        have h2 := hA c
        rw [hT]
        dsimp only
        rw [← lintegral_const_mul _ (by fun_prop)]
        refine lintegral_congr fun p => ?_
        rw [colFlow_eq hs]
        ring
      rw [lintegral_congr e3, lintegral_lintegral_swap, ← lintegral_indicator hAm]
      · refine lintegral_congr fun p => ?_
        by_cases hp : p ∈ A <;> simp [hp]
      · have : Measurable fun cp : (Fin d → ℝ) × (Fin d → ℝ) =>
            colFlow step f g cp.1 cp.2 * A.indicator (fun _ => (1 : ℝ≥0∞)) cp.2 :=
          hcf.mul (hi.comp measurable_snd)
        exact this.aemeasurable
    · rw [← lintegral_indicator hAm]
      refine lintegral_congr fun c => ?_
      by_cases hc : c ∈ A <;> simp [hc]
  have hRfin : ∀ A, MeasurableSet A → ∫⁻ c in A, ENNReal.ofReal (Real.exp (f c)) * R c ≠ ∞ := by
    intro A hAm
    refine ne_top_of_le_ne_top (hfinA A) ?_
    rw [hmass A hAm]
    refine lintegral_mono fun c => ?_
    calc ENNReal.ofReal (Real.exp (f c)) * R c
        ≤ (∫⁻ p, colFlow step f g c p) + ENNReal.ofReal (Real.exp (f c)) * R c := le_add_self
      _ = _ := hsum c
  have hmass' : ∀ A, MeasurableSet A → logDensity f A =
      (∫⁻ p in A, ∫⁻ c, colFlow step f g p c) +
        ∫⁻ c in A, ENNReal.ofReal (Real.exp (f c)) * R c := by
    intro A hAm
    rw [hmass A hAm, ← lintegral_add_left hout]
    exact lintegral_congr fun c => (hsum c).symm
  constructor
  · intro h
    refine ae_eq_of_forall_setLIntegral_eq_of_sigmaFinite hin hout fun A hAm _ => ?_
    have h1 := hmap A hAm
    rw [h, hmass' A hAm] at h1
    exact ((ENNReal.add_left_inj (hRfin A hAm)).mp h1).symm
  · intro h
    ext A hAm
    rw [hmap A hAm, hmass' A hAm]
    congr 1
    exact lintegral_congr_ae (ae_restrict_of_ae h)

/-- The law is kept if the test uses the Metropolis-Hastings ratio. -/
theorem column_keeps_of_ratio (hs : 0 < step) (hf : Measurable f) (hg : Measurable g)
    (hfin : logDensity f Set.univ ≠ ∞)
    (hr : ∀ c p, colLq step g c c = colLq step g p c) :
    ((logDensity f).prod (lsbDrawLaw d)).map (fun x => colStep step f g x.1 x.2) =
      logDensity f := by
  rw [column_keeps_iff hs hf hg hfin]
  refine Filter.Eventually.of_forall fun p => lintegral_congr fun c => ?_
  unfold colFlow
  rw [hr c p, hr p c, min_comm]

end Column

end Bayesmix.Mixing
