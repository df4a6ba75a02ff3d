import Verif.Hier.PropsMetropolisLaw
import Verif.Hier.NigLaw
import Verif.Hier.Uncon

/-!
# Metropolis draws on states with mean and variance

The draw between two states, and laws of states with a log density on means and positive variances.
-/

namespace Bayesmix.Hierarchies

open Real MeasureTheory ENNReal ProbabilityTheory

/-- `MetropolisUpdater::draw` on a likelihood that holds a `State::UniLS`,
`src/hierarchies/updaters/metropolis_updater.h` 31-50: the state is mapped to its two unconstrained
coordinates, and an accepted proposal is mapped back; a rejected one leaves the state alone. -/
noncomputable def uniDraw (clusterLpdf : (Fin 2 → ℝ) → ℝ) (q : Proposal 2) (z : Fin 2 → ℝ)
    (u g1 g2 : ℝ) (st : UniLS) : Except Fault UniLS := do
  let l ← uniLSGetUnconstrained st
  let curr : Fin 2 → ℝ := fun i => l.getD i 0
  let prop ← q.sample curr z
  let back ← q.lpdf g1 curr prop
  let forth ← q.lpdf g2 prop curr
  let logArate := clusterLpdf prop - clusterLpdf curr + back - forth
  if Real.log u < logArate then uniLSSetFromUnconstrained (List.ofFn prop) else .ok st

/-- State after one draw with accumulators that start at zero; a fault would leave the state. -/
noncomputable def uniDrawOr (clusterLpdf : (Fin 2 → ℝ) → ℝ) (q : Proposal 2) (st : UniLS)
    (zu : (Fin 2 → ℝ) × ℝ) : UniLS :=
  match uniDraw clusterLpdf q zu.1 zu.2 0 0 st with
  | .ok y => y
  | .error _ => st

/-- Law of the state after one draw, with independent standard normal draws and a uniform draw. -/
noncomputable def uniDrawLaw (clusterLpdf : (Fin 2 → ℝ) → ℝ) (q : Proposal 2) (st : UniLS) :
    Measure UniLS :=
  ((Measure.pi fun _ : Fin 2 => gaussianReal 0 1).prod (volume.restrict (Set.Ioo (0 : ℝ) 1))).map
    (uniDrawOr clusterLpdf q st)

/-- The measure on means and positive variances with log density `f`. -/
noncomputable def stateLaw (f : UniLS → ℝ) : Measure UniLS :=
  ((volume.prod (volume.restrict (Set.Ioi (0 : ℝ)))).withDensity
    fun x : ℝ × ℝ => ENNReal.ofReal (exp (f ⟨x.1, x.2⟩))).map fun x => ⟨x.1, x.2⟩

/-- If the state has law `μ`, then so has the state after a draw. -/
def StateKeeps (clusterLpdf : (Fin 2 → ℝ) → ℝ) (q : Proposal 2) (μ : Measure UniLS) : Prop :=
  ∀ A, MeasurableSet A → ∫⁻ st, uniDrawLaw clusterLpdf q st A ∂μ = μ A

/-! ### Proofs -/

theorem lintegral_stateLaw {f : UniLS → ℝ} (hf : Measurable f) {φ : UniLS → ℝ≥0∞}
    (hφ : Measurable φ) : ∫⁻ s, φ s ∂(stateLaw f) = ∫⁻ v in Set.Ioi 0, ∫⁻ m,
      ENNReal.ofReal (exp (f ⟨m, v⟩)) * φ ⟨m, v⟩ := by
  have hm : Measurable fun x : ℝ × ℝ => ENNReal.ofReal (exp (f ⟨x.1, x.2⟩)) :=
    (measurable_exp.comp (hf.comp measurable_mk)).ennreal_ofReal
  have hp : Measurable fun x : ℝ × ℝ => φ ⟨x.1, x.2⟩ := hφ.comp measurable_mk
  rw [stateLaw, lintegral_map hφ measurable_mk, lintegral_withDensity_eq_lintegral_mul _ hm hp,
    lintegral_prod_symm _ (hm.mul hp).aemeasurable]
  rfl

/-- Unconstrained coordinates. -/
noncomputable def uniUncon (st : UniLS) : Fin 2 → ℝ := ![st.mean, log st.var]

theorem uniUncon_meas : Measurable uniUncon := by
  rw [measurable_pi_iff]
  intro i
  fin_cases i
  · exact measurable_mean
  · exact Real.measurable_log.comp measurable_var

/-- The state at unconstrained coordinates. -/
noncomputable def uniState (x : Fin 2 → ℝ) : UniLS := ⟨x 0, exp (x 1)⟩

theorem uniState_meas : Measurable uniState := by
  have h : Measurable fun x : Fin 2 → ℝ => (x 0, exp (x 1)) := by fun_prop
  exact measurable_mk.comp h

theorem uniUncon_state (x : Fin 2 → ℝ) : uniUncon (uniState x) = x := by
  funext i
  fin_cases i
  · rfl
  · simp [uniUncon, uniState]

theorem uniState_uncon (st : UniLS) (hv : 0 < st.var) : uniState (uniUncon st) = st := by
  cases st
  simp only [uniState, uniUncon, Matrix.cons_val_zero, Matrix.cons_val_one, UniLS.mk.injEq,
    true_and]
  exact exp_log hv

theorem lintegral_fin_two {G : (Fin 2 → ℝ) → ℝ≥0∞} (hG : Measurable G) :
    ∫⁻ x, G x = ∫⁻ b, ∫⁻ a, G ![a, b] := by
  have hp : Measurable fun p : ℝ × ℝ => (![p.1, p.2] : Fin 2 → ℝ) := by
    rw [measurable_pi_iff]
    intro i
    fin_cases i
    · exact measurable_fst
    · exact measurable_snd
  have h := (volume_preserving_finTwoArrow ℝ).symm
  rw [← h.lintegral_comp hG]
  have e : ∀ p : ℝ × ℝ, MeasurableEquiv.finTwoArrow.symm p = (![p.1, p.2] : Fin 2 → ℝ) := by
    intro p; funext i; fin_cases i <;> rfl
  simp only [e]
  have hm : Measurable fun p : ℝ × ℝ => G ![p.1, p.2] := hG.comp hp
  rw [Measure.volume_eq_prod, lintegral_prod_symm _ hm.aemeasurable]

theorem lintegral_exp_coord (F : ℝ → ℝ≥0∞) :
    ∫⁻ v in Set.Ioi 0, F v = ∫⁻ b : ℝ, ENNReal.ofReal (exp b) * F (exp b) := by
  have h := lintegral_image_eq_lintegral_abs_deriv_mul (s := Set.univ) (f := exp) (f' := exp)
    MeasurableSet.univ (fun x _ => (Real.hasDerivAt_exp x).hasDerivWithinAt)
    exp_injective.injOn F
  rw [Set.image_univ, range_exp, Measure.restrict_univ] at h
  rw [h]
  refine lintegral_congr fun b => ?_
  rw [abs_of_pos (exp_pos b)]

theorem lintegral_stateLaw_uncon {f : UniLS → ℝ} (hf : Measurable f) {φ : UniLS → ℝ≥0∞}
    (hφ : Measurable φ) : ∫⁻ s, φ s ∂(stateLaw f) =
      ∫⁻ x, φ (uniState x) ∂(logDensity fun x => f (uniState x) + x 1) := by
  have h1 : Measurable fun x : Fin 2 → ℝ => f (uniState x) + x 1 :=
    (hf.comp uniState_meas).add (measurable_pi_apply 1)
  have h2 : Measurable fun x => φ (uniState x) := hφ.comp uniState_meas
  have h3 : Measurable fun x : Fin 2 → ℝ =>
      ENNReal.ofReal (exp (f (uniState x) + x 1)) * φ (uniState x) :=
    ((measurable_exp.comp h1).ennreal_ofReal).mul h2
  rw [lintegral_stateLaw hf hφ, lintegral_exp_coord, lintegral_logDensity h1 h2,
    lintegral_fin_two h3]
  refine lintegral_congr fun b => ?_
  have hm : Measurable fun a : ℝ => ENNReal.ofReal (exp (f ⟨a, exp b⟩)) * φ ⟨a, exp b⟩ := by
    have hk : Measurable fun a : ℝ => (⟨a, exp b⟩ : UniLS) :=
      measurable_mk.comp (measurable_id.prodMk measurable_const)
    exact ((measurable_exp.comp (hf.comp hk)).ennreal_ofReal).mul (hφ.comp hk)
  rw [← lintegral_const_mul _ hm]
  refine lintegral_congr fun a => ?_
  simp only [uniState, Matrix.cons_val_zero, Matrix.cons_val_one]
  rw [exp_add, ENNReal.ofReal_mul (exp_pos _).le]
  ring

theorem uniDraw_gauss {clusterLpdf : (Fin 2 → ℝ) → ℝ} {q : Proposal 2}
    {m : (Fin 2 → ℝ) → Fin 2 → ℝ} {s : ℝ} (hq : GaussProp q m s) (st : UniLS)
    (z : Fin 2 → ℝ) (u : ℝ) :
    uniDraw clusterLpdf q z u 0 0 st = .ok (if Real.log u <
      clusterLpdf (fun i => m (uniUncon st) i + s * z i) - clusterLpdf (uniUncon st) +
        gaussLq m s (fun i => m (uniUncon st) i + s * z i) (uniUncon st) -
        gaussLq m s (uniUncon st) (fun i => m (uniUncon st) i + s * z i)
      then uniState (fun i => m (uniUncon st) i + s * z i) else st) := by
  have e1 : uniLSGetUnconstrained st = .ok [st.mean, log st.var] := rfl
  have e2 : ∀ i : Fin 2, ([st.mean, log st.var] : List ℝ).getD i 0 = uniUncon st i := by
    intro i; fin_cases i <;> rfl
  have e3 : ∀ x : Fin 2 → ℝ, uniLSSetFromUnconstrained (List.ofFn x) = .ok (uniState x) :=
    fun x => rfl
  simp only [uniDraw, e1, ok_bind, e2, hq.sample, hq.lpdf, e3, gaussLq]
  split_ifs <;> rfl

theorem uniDrawOr_uncon {clusterLpdf : (Fin 2 → ℝ) → ℝ} {q : Proposal 2}
    {m : (Fin 2 → ℝ) → Fin 2 → ℝ} {s : ℝ} (hq : GaussProp q m s) (st : UniLS)
    (zu : (Fin 2 → ℝ) × ℝ) :
    uniUncon (uniDrawOr clusterLpdf q st zu) = drawOr clusterLpdf q (uniUncon st) zu := by
  unfold uniDrawOr drawOr
  rw [uniDraw_gauss hq, metropolisDraw_gauss hq]
  simp only
  split_ifs
  · rw [uniUncon_state]
  · rfl

theorem uniDrawOr_meas {clusterLpdf : (Fin 2 → ℝ) → ℝ} {q : Proposal 2}
    {m : (Fin 2 → ℝ) → Fin 2 → ℝ} {s : ℝ} (hq : GaussProp q m s) (hl : Measurable clusterLpdf)
    (hm : Measurable m) (st : UniLS) : Measurable (uniDrawOr clusterLpdf q st) := by
  have e : uniDrawOr clusterLpdf q st = fun zu => if Real.log zu.2 <
      clusterLpdf (fun i => m (uniUncon st) i + s * zu.1 i) - clusterLpdf (uniUncon st) +
        gaussLq m s (fun i => m (uniUncon st) i + s * zu.1 i) (uniUncon st) -
        gaussLq m s (uniUncon st) (fun i => m (uniUncon st) i + s * zu.1 i)
      then uniState (fun i => m (uniUncon st) i + s * zu.1 i) else st := by
    funext zu
    unfold uniDrawOr
    rw [uniDraw_gauss hq]
  obtain ⟨pr, hpr⟩ : ∃ pr : (Fin 2 → ℝ) → Fin 2 → ℝ,
    pr = fun z i => m (uniUncon st) i + s * z i := ⟨_, rfl⟩
  have hprm : Measurable pr := by rw [hpr]; fun_prop
  have h1 := gaussLq_meas_right (m := m) s (uniUncon st)
  have h2 := gaussLq_meas_left hm s (uniUncon st)
  obtain ⟨a, ha⟩ : ∃ a : (Fin 2 → ℝ) → ℝ, a = fun y =>
    clusterLpdf y - clusterLpdf (uniUncon st) + gaussLq m s y (uniUncon st) -
      gaussLq m s (uniUncon st) y := ⟨_, rfl⟩
  have ham : Measurable a := by rw [ha]; fun_prop
  have e' : uniDrawOr clusterLpdf q st = fun zu =>
      if Real.log zu.2 < a (pr zu.1) then uniState (pr zu.1) else st := by
    rw [e, ha, hpr]
  rw [e']
  exact Measurable.ite (measurableSet_lt (Real.measurable_log.comp measurable_snd)
      (ham.comp (hprm.comp measurable_fst)))
    (uniState_meas.comp (hprm.comp measurable_fst)) measurable_const

theorem uniDrawLaw_uncon {clusterLpdf : (Fin 2 → ℝ) → ℝ} {q : Proposal 2}
    {m : (Fin 2 → ℝ) → Fin 2 → ℝ} {s : ℝ} (hq : GaussProp q m s) (hl : Measurable clusterLpdf)
    (hm : Measurable m) (st : UniLS) {B : Set (Fin 2 → ℝ)} (hB : MeasurableSet B) :
    uniDrawLaw clusterLpdf q st (uniUncon ⁻¹' B) = drawLaw clusterLpdf q (uniUncon st) B := by
  have e : uniUncon ∘ uniDrawOr clusterLpdf q st = drawOr clusterLpdf q (uniUncon st) := by
    funext zu
    exact uniDrawOr_uncon hq st zu
  unfold uniDrawLaw drawLaw
  rw [← e, ← Measure.map_map uniUncon_meas (uniDrawOr_meas hq hl hm st),
    Measure.map_apply uniUncon_meas hB]

/-- A law of states that is kept gives a law of unconstrained coordinates that is kept. -/
theorem keeps_of_stateKeeps {clusterLpdf : (Fin 2 → ℝ) → ℝ} {q : Proposal 2}
    {m : (Fin 2 → ℝ) → Fin 2 → ℝ} {s : ℝ} (hq : GaussProp q m s) (hl : Measurable clusterLpdf)
    (hm : Measurable m) {f : UniLS → ℝ} (hf : Measurable f)
    (h : StateKeeps clusterLpdf q (stateLaw f)) :
    Keeps clusterLpdf q (logDensity fun x => f (uniState x) + x 1) := by
  intro B hB
  have h1 := h (uniUncon ⁻¹' B) (uniUncon_meas hB)
  have hmeas : Measurable fun x => drawLaw clusterLpdf q x B := by
    have e : (fun x => drawLaw clusterLpdf q x B) =
        mhOp volume clusterLpdf (gaussLq m s) (B.indicator fun _ => 1) := by
      funext x; exact drawLaw_apply hq hl hm hB x
    rw [e]
    exact mhOp_meas _ hl (gaussLq_meas hm s) (measurable_const.indicator hB)
  have h2 : ∫⁻ st, uniDrawLaw clusterLpdf q st (uniUncon ⁻¹' B) ∂(stateLaw f) =
      ∫⁻ x, drawLaw clusterLpdf q x B ∂(logDensity fun x => f (uniState x) + x 1) := by
    rw [lintegral_congr fun st => uniDrawLaw_uncon hq hl hm st hB,
      lintegral_stateLaw_uncon hf (φ := fun st => drawLaw clusterLpdf q (uniUncon st) B)
        (hmeas.comp uniUncon_meas)]
    simp only [uniUncon_state]
  have h3 : stateLaw f (uniUncon ⁻¹' B) = (logDensity fun x => f (uniState x) + x 1) B := by
    rw [← lintegral_indicator_one (uniUncon_meas hB), lintegral_stateLaw_uncon hf
      (measurable_one.indicator (uniUncon_meas hB)), ← lintegral_indicator_one hB]
    refine lintegral_congr fun x => ?_
    by_cases hx : x ∈ B
    · rw [Set.indicator_of_mem hx, Set.indicator_of_mem (by simpa [uniUncon_state] using hx)]
      rfl
    · rw [Set.indicator_of_notMem hx, Set.indicator_of_notMem (by simpa [uniUncon_state] using hx)]
  rw [← h2, ← h3, h1]

theorem stateLaw_univ {f : UniLS → ℝ} (hf : Measurable f) :
    stateLaw f Set.univ = (logDensity fun x => f (uniState x) + x 1) Set.univ := by
  have := lintegral_stateLaw_uncon hf (φ := fun _ => 1) measurable_const
  simpa using this

/-- No full conditional of finite mass under a prior of finite mass is kept. -/
theorem uni_not_kept {clusterLpdf : (Fin 2 → ℝ) → ℝ} {q : Proposal 2}
    {m : (Fin 2 → ℝ) → Fin 2 → ℝ} {s : ℝ} (hq : GaussProp q m s)
    (hm : Measurable m) {like prior : UniLS → ℝ} (hlike : Measurable like)
    (hprior : Measurable prior) (hc : ∀ x, clusterLpdf x = like (uniState x))
    (hp : stateLaw prior Set.univ ≠ ∞) (hfin : stateLaw (fun st => like st + prior st) Set.univ ≠ ∞) :
    ¬ StateKeeps clusterLpdf q (stateLaw fun st => like st + prior st) := by
  intro h
  have hl : Measurable clusterLpdf := by
    have : clusterLpdf = fun x => like (uniState x) := funext hc
    rw [this]
    exact hlike.comp uniState_meas
  have hpm : Measurable fun x : Fin 2 → ℝ => prior (uniState x) + x 1 :=
    (hprior.comp uniState_meas).add (measurable_pi_apply 1)
  have e : (fun x : Fin 2 → ℝ => (like (uniState x) + prior (uniState x)) + x 1) =
      fun x => clusterLpdf x + (prior (uniState x) + x 1) := by
    funext x; rw [hc, add_assoc]
  have hlp : Measurable fun st => like st + prior st := hlike.add hprior
  have h1 := keeps_of_stateKeeps hq hl hm hlp h
  rw [stateLaw_univ hlp] at hfin
  rw [stateLaw_univ hprior] at hp
  rw [e] at h1 hfin
  rw [gauss_keeps_iff hq hl hm hpm hfin] at h1
  exact proper_not_flat (by norm_num) hp h1

/-- A likelihood with at most a power of the variance, and a normal prior times an inverse Gamma
prior, have finite mass. -/
theorem stateLaw_finite {like prior : UniLS → ℝ} (hlike : Measurable like)
    (hprior : Measurable prior) (C K mu a b : ℝ) (w : ℝ → ℝ) (hK : 0 ≤ K) (ha : 0 < a) (hb : 0 < b)
    (hw : ∀ v, 0 < v → 0 < w v)
    (hbound : ∀ st : UniLS, 0 < st.var → like st ≤ C - K * log st.var)
    (hform : ∀ st : UniLS, prior st =
      normalLpdf st.mean mu (sqrt (w st.var)) + invGammaLpdf st.var a b) :
    stateLaw (fun st => like st + prior st) Set.univ ≠ ∞ := by
  have h1 := lintegral_stateLaw (hlike.add hprior) (φ := fun _ => 1) measurable_const
  simp only [lintegral_const, one_mul, mul_one, Pi.add_apply] at h1
  have h0 : (stateLaw fun st => like st + prior st) = stateLaw (like + prior) := rfl
  rw [h0, h1]
  have ha' : 0 < a + K := by linarith
  obtain ⟨D, hD⟩ : ∃ D : ℝ, D = C + (a * log b - log (Gamma a)) -
    ((a + K) * log b - log (Gamma (a + K))) := ⟨_, rfl⟩
  refine ne_top_of_le_ne_top (b := ENNReal.ofReal (exp D)) ofReal_ne_top ?_
  have hle : ∀ v ∈ Set.Ioi (0 : ℝ), (∫⁻ m, ENNReal.ofReal (exp (like ⟨m, v⟩ + prior ⟨m, v⟩))) ≤
      ENNReal.ofReal (exp D) * ENNReal.ofReal (exp (invGammaLpdf v (a + K) b)) := by
    intro v hv
    have hv : 0 < v := hv
    have hmm : Measurable fun m => ENNReal.ofReal (exp (normalLpdf m mu (sqrt (w v)))) :=
      ENNReal.measurable_ofReal.comp (Real.measurable_exp.comp
        (measurable_normalLpdf measurable_id measurable_const measurable_const))
    calc (∫⁻ m, ENNReal.ofReal (exp (like ⟨m, v⟩ + prior ⟨m, v⟩)))
        ≤ ∫⁻ m, (ENNReal.ofReal (exp D) * ENNReal.ofReal (exp (invGammaLpdf v (a + K) b))) *
            ENNReal.ofReal (exp (normalLpdf m mu (sqrt (w v)))) := by
          refine lintegral_mono fun m => ?_
          rw [← ENNReal.ofReal_mul (exp_pos _).le, ← ENNReal.ofReal_mul (by positivity),
            ← exp_add, ← exp_add]
          refine ENNReal.ofReal_le_ofReal (exp_le_exp.mpr ?_)
          have h2 := hbound ⟨m, v⟩ hv
          rw [hform, hD]
          simp only at h2 ⊢
          simp only [invGammaLpdf]
          linarith
      _ = _ := by
          rw [lintegral_const_mul _ hmm, lintegral_normalLpdf _ _ (hw v hv), mul_one]
  refine (setLIntegral_mono' measurableSet_Ioi hle).trans ?_
  have hmg : Measurable fun v : ℝ => ENNReal.ofReal (exp (invGammaLpdf v (a + K) b)) :=
    (measurable_exp.comp (measurable_invGammaLpdf measurable_id _ _)).ennreal_ofReal
  rw [lintegral_const_mul _ hmg, lintegral_invGammaLpdf _ _ ha' hb, mul_one]

end Bayesmix.Hierarchies
