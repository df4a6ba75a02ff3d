import Mathlib.Tactic.Linarith
import Verif.FaultLemmas
import Verif.Hier.Hyper
import Verif.Hier.PropsFA

/-!
# C60, C79: updates of the hyperparameters
-/

namespace Bayesmix.Hierarchies

open Real Matrix

variable {d : ℕ}

theorem sum_map_diff {α : Type*} (f g : α → ℝ) (l : List α) :
    (l.map f).sum - (l.map g).sum = (l.map (fun x => f x - g x)).sum := by
  induction l with
  | nil => simp
  | cons a l ih => simp only [List.map_cons, List.sum_cons]; rw [← ih]; ring

theorem sum_map_lin {α : Type*} (a b : α → ℝ) (s x y : ℝ) (l : List α) :
    (l.map (fun k => s * (a k * x - 2 * b k * y))).sum =
      s * ((l.map a).sum * x - 2 * (l.map b).sum * y) := by
  induction l with
  | nil => simp
  | cons c l ih => simp only [List.map_cons, List.sum_cons]; rw [ih]; ring

theorem sum_map_mul {α : Type*} (a : α → ℝ) (s : ℝ) (l : List α) :
    (l.map (fun k => s * a k)).sum = s * (l.map a).sum := by
  induction l with
  | nil => simp
  | cons c l ih => simp only [List.map_cons, List.sum_cons]; rw [ih]; ring

theorem sum_inv_nonneg (states : List UniLS) (hst : ∀ st ∈ states, 0 < st.var) :
    0 ≤ (states.map (fun st => 1 / st.var)).sum := by
  apply List.sum_nonneg
  intro x hx
  obtain ⟨st, hs, rfl⟩ := List.mem_map.1 hx
  exact (one_div_pos.2 (hst st hs)).le

/-! ## C60: Normal-Inverse-Gamma -/

/-- The cluster parameters and the mean of the base measure: difference of the log joint density
at two values of the mean. -/
theorem nig_mean_diff (mu00 sig200 : ℝ) (hs : 0 < sig200) (h : NIG) (hl : 0 < h.varScaling)
    (states : List UniLS) (hst : ∀ st ∈ states, 0 < st.var) (m m' : ℝ) :
    (normalLpdf m mu00 (sqrt sig200) + (states.map (nigLpdf { h with mean := m })).sum) -
      (normalLpdf m' mu00 (sqrt sig200) + (states.map (nigLpdf { h with mean := m' })).sum) =
    -(1 / 2) * ((1 / sig200 + h.varScaling * (states.map (fun st => 1 / st.var)).sum) *
        (m ^ 2 - m' ^ 2) -
      2 * (mu00 / sig200 + h.varScaling * (states.map (fun st => st.mean / st.var)).sum) *
        (m - m')) := by
  have e1 : (states.map (nigLpdf { h with mean := m })).sum -
      (states.map (nigLpdf { h with mean := m' })).sum =
      (-(1 / 2) * h.varScaling) * ((states.map (fun st => 1 / st.var)).sum * (m ^ 2 - m' ^ 2) -
        2 * (states.map (fun st => st.mean / st.var)).sum * (m - m')) := by
    rw [sum_map_diff, ← sum_map_lin]
    congr 1
    apply List.map_congr_left
    intro st hmem
    have hv := hst st hmem
    have hw : 0 < st.var / h.varScaling := div_pos hv hl
    simp only [nigLpdf]
    rw [normalLpdf_sqrt _ _ _ hw, normalLpdf_sqrt _ _ _ hw]
    field_simp
    ring
  have e2 := normal_diff m m' mu00 sig200 hs
  have e3 : ∀ a b c e : ℝ, (a + b) - (c + e) = (a - c) + (b - e) := by intros; ring
  rw [e3, e1, e2]
  field_simp
  ring

/-- Normal prior on the mean of the base measure: the mean is redrawn with the parameters of its
full conditional given the cluster parameters; nothing else changes. -/
theorem c60_nig_normal_mean (mu00 sig200 a b : ℝ) (hs : 0 < sig200) (h : NIG)
    (hl : 0 < h.varScaling) (states : List UniLS) (hst : ∀ st ∈ states, 0 < st.var) :
    ∃ loc sd : ℝ, 0 < sd ∧
      (∀ g g1 g2, nigUpdateHypers (.normalMean mu00 sig200 h.varScaling a b) h states g g1 g2 =
        .ok { h with mean := g loc sd }) ∧
      ∀ m m' : ℝ,
        (normalLpdf m mu00 (sqrt sig200) + (states.map (nigLpdf { h with mean := m })).sum) -
          (normalLpdf m' mu00 (sqrt sig200) + (states.map (nigLpdf { h with mean := m' })).sum) =
        normalLpdf m loc sd - normalLpdf m' loc sd := by
  have hp : 0 < 1 / sig200 + h.varScaling * (states.map (fun st => 1 / st.var)).sum := by
    have h1 := sum_inv_nonneg states hst
    have h2 : 0 < 1 / sig200 := one_div_pos.2 hs
    have h3 := mul_nonneg hl.le h1
    linarith
  have hsd : 0 < (nigMeanParams mu00 sig200 h.varScaling states).2 :=
    Real.sqrt_pos.2 (one_div_pos.2 hp)
  refine ⟨(nigMeanParams mu00 sig200 h.varScaling states).1,
    (nigMeanParams mu00 sig200 h.varScaling states).2, hsd, ?_, ?_⟩
  · intro g g1 g2
    simp only [nigUpdateHypers, normalRngChk, not_le.2 hsd, if_false, ok_bind]
  · intro m m'
    rw [nig_mean_diff mu00 sig200 hs h hl states hst]
    simp only [nigMeanParams]
    rw [normal_diff _ _ _ _ (one_div_pos.2 hp)]
    revert hp
    generalize 1 / sig200 + h.varScaling * (states.map (fun st => 1 / st.var)).sum = P
    intro hp
    rw [show (1 / P)⁻¹ = P by rw [one_div, inv_inv], mul_div_cancel₀ _ hp.ne']

example : ∃ (h : NIG) (states : List UniLS), 0 < h.varScaling ∧ (∀ st ∈ states, 0 < st.var) ∧
    states ≠ [] := ⟨⟨1, 2, 3, 4⟩, [⟨0, 1⟩, ⟨5, 2⟩], by norm_num, by simp, by simp⟩

/-- Normal-Gamma-Gamma prior, mean: the mean is drawn with the right centre, but with its full
conditional only if the full conditional precision is one. -/
theorem c60_ngg_mean_partial (mu00 sig200 : ℝ) (hs : 0 < sig200) (h : NIG)
    (hl : 0 < h.varScaling) (states : List UniLS) (hst : ∀ st ∈ states, 0 < st.var) :
    (∀ m m' : ℝ,
      (normalLpdf m mu00 (sqrt sig200) + (states.map (nigLpdf { h with mean := m })).sum) -
        (normalLpdf m' mu00 (sqrt sig200) + (states.map (nigLpdf { h with mean := m' })).sum) =
      normalLpdf m (nggMeanParams mu00 sig200 h states).1 (nggMeanParams mu00 sig200 h states).2 -
        normalLpdf m' (nggMeanParams mu00 sig200 h states).1
          (nggMeanParams mu00 sig200 h states).2) ↔
    1 / sig200 + h.varScaling * (states.map (fun st => 1 / st.var)).sum = 1 := by
  obtain ⟨P, hP⟩ : ∃ P, P = 1 / sig200 + h.varScaling * (states.map (fun st => 1 / st.var)).sum :=
    ⟨_, rfl⟩
  obtain ⟨N, hN⟩ : ∃ N, N = mu00 / sig200 +
    h.varScaling * (states.map (fun st => st.mean / st.var)).sum := ⟨_, rfl⟩
  have hp : 0 < P := by
    have h1 := sum_inv_nonneg states hst
    have h2 : 0 < 1 / sig200 := one_div_pos.2 hs
    have h3 := mul_nonneg hl.le h1
    rw [hP]; linarith
  have hq1 : (nggMeanParams mu00 sig200 h states).1 = N / P := by
    simp only [nggMeanParams]; rw [hP, hN, add_comm (1 / sig200), add_comm (mu00 / sig200)]
  have hq2 : (nggMeanParams mu00 sig200 h states).2 = sqrt ((1 / P) ^ 2) := by
    rw [Real.sqrt_sq (one_div_pos.2 hp).le]
    simp only [nggMeanParams]; rw [hP, add_comm (1 / sig200)]
  have hpos : 0 < (1 / P) ^ 2 := by positivity
  rw [← hP]
  constructor
  · intro hall
    have h1 := hall (N / P + 1) (N / P)
    rw [nig_mean_diff mu00 sig200 hs h hl states hst, hq1, hq2, normal_diff _ _ _ _ hpos, ← hP,
      ← hN] at h1
    have h2 : ((1 / P) ^ 2)⁻¹ = P ^ 2 := by field_simp
    have h3 : N = P * (N / P) := (mul_div_cancel₀ _ hp.ne').symm
    rw [h2] at h1
    have h4 : P = P ^ 2 := by
      generalize N / P = t at h1 h3
      rw [h3] at h1
      linear_combination (-2) * h1
    nlinarith
  · intro hone m m'
    rw [nig_mean_diff mu00 sig200 hs h hl states hst, hq1, hq2, normal_diff _ _ _ _ hpos, ← hP,
      ← hN, hone]
    norm_num

/-- Normal-Gamma-Gamma prior, scaling: shape and rate are those of the full conditional of the
scaling given the cluster parameters and the mean BEFORE the update. -/
theorem c60_ngg_scaling_partial (alpha00 beta00 : ℝ) (h : NIG) (states : List UniLS)
    (hst : ∀ st ∈ states, 0 < st.var) (l l' : ℝ) (hl : 0 < l) (hl' : 0 < l') :
    (gammaLpdf l alpha00 beta00 + (states.map (nigLpdf { h with varScaling := l })).sum) -
      (gammaLpdf l' alpha00 beta00 + (states.map (nigLpdf { h with varScaling := l' })).sum) =
    gammaLpdf l (nggScalingParams alpha00 beta00 h states).1
        (nggScalingParams alpha00 beta00 h states).2 -
      gammaLpdf l' (nggScalingParams alpha00 beta00 h states).1
        (nggScalingParams alpha00 beta00 h states).2 := by
  have key : ∀ states : List UniLS, (∀ st ∈ states, 0 < st.var) →
      (states.map (nigLpdf { h with varScaling := l })).sum -
      (states.map (nigLpdf { h with varScaling := l' })).sum =
      (1 / 2) * states.length * (log l - log l') - (1 / 2) *
        (states.map (fun st => (h.mean - st.mean) * (h.mean - st.mean) / st.var)).sum *
          (l - l') := by
    intro states
    induction states with
    | nil => simp
    | cons st sts ih =>
      intro hall
      have hv := hall st (by simp)
      have ih' := ih (fun s hs => hall s (by simp [hs]))
      simp only [List.map_cons, List.sum_cons, List.length_cons]
      have e : nigLpdf { h with varScaling := l } st - nigLpdf { h with varScaling := l' } st =
          (1 / 2) * (log l - log l') -
            (1 / 2) * ((h.mean - st.mean) * (h.mean - st.mean) / st.var) * (l - l') := by
        simp only [nigLpdf]
        rw [normalLpdf_sqrt _ _ _ (div_pos hv hl), normalLpdf_sqrt _ _ _ (div_pos hv hl'),
          log_div hv.ne' hl.ne', log_div hv.ne' hl'.ne']
        field_simp
        ring
      push_cast
      linarith
  have := key states hst
  simp only [nggScalingParams, gammaLpdf]
  have e0 : (0.5 : ℝ) = 1 / 2 := by norm_num
  rw [e0]
  linarith

/-- Normal-Gamma-Gamma prior, scale: drawn with the parameters of its full conditional given the
cluster parameters. -/
theorem c60_ngg_scale (a00 b00 : ℝ) (h : NIG) (states : List UniLS)
    (s s' : ℝ) :
    (gammaLpdf s a00 b00 + (states.map (nigLpdf { h with scale := s })).sum) -
      (gammaLpdf s' a00 b00 + (states.map (nigLpdf { h with scale := s' })).sum) =
    gammaLpdf s (nggScaleParams a00 b00 h states).1 (nggScaleParams a00 b00 h states).2 -
      gammaLpdf s' (nggScaleParams a00 b00 h states).1 (nggScaleParams a00 b00 h states).2 := by
  have key : (states.map (nigLpdf { h with scale := s })).sum -
      (states.map (nigLpdf { h with scale := s' })).sum =
      states.length * h.shape * (log s - log s') -
        (states.map (fun st => 1 / st.var)).sum * (s - s') := by
    induction states with
    | nil => simp
    | cons st sts ih =>
      simp only [List.map_cons, List.sum_cons, List.length_cons, nigLpdf, invGammaLpdf] at ih ⊢
      push_cast
      linear_combination ih
  simp only [nggScaleParams, gammaLpdf]
  linarith

/-- The parameters above are the ones the update uses. -/
theorem c60_ngg_update (mu00 sig200 alpha00 beta00 a00 b00 sh : ℝ) (hs : 0 < sig200)
    (ha : 0 < alpha00) (hb : 0 < beta00) (ha' : 0 < a00) (hb' : 0 < b00) (h : NIG)
    (hl : 0 < h.varScaling) (hsh : 0 < h.shape) (states : List UniLS)
    (hst : ∀ st ∈ states, 0 < st.var) (g g1 g2 : ℝ → ℝ → ℝ) :
    nigUpdateHypers (.ngg mu00 sig200 alpha00 beta00 a00 b00 sh) h states g g1 g2 =
      .ok ⟨g (nggMeanParams mu00 sig200 h states).1 (nggMeanParams mu00 sig200 h states).2,
        g1 (nggScalingParams alpha00 beta00 h states).1 (nggScalingParams alpha00 beta00 h states).2,
        h.shape,
        g2 (nggScaleParams a00 b00 h states).1 (nggScaleParams a00 b00 h states).2⟩ := by
  have h1 := sum_inv_nonneg states hst
  have p1 : 0 < (nggMeanParams mu00 sig200 h states).2 := by
    have h2 : 0 < 1 / sig200 := one_div_pos.2 hs
    have h3 := mul_nonneg hl.le h1
    exact one_div_pos.2 (by linarith)
  have p2 : 0 < (nggScalingParams alpha00 beta00 h states).1 := by
    simp only [nggScalingParams]; positivity
  have p3 : 0 < (nggScalingParams alpha00 beta00 h states).2 := by
    simp only [nggScalingParams]
    have : 0 ≤ (states.map (fun st => (h.mean - st.mean) * (h.mean - st.mean) / st.var)).sum := by
      apply List.sum_nonneg
      intro x hx
      obtain ⟨st, hs, rfl⟩ := List.mem_map.1 hx
      exact div_nonneg (mul_self_nonneg _) (hst st hs).le
    positivity
  have p4 : 0 < (nggScaleParams a00 b00 h states).1 := by
    simp only [nggScaleParams]; positivity
  have p5 : 0 < (nggScaleParams a00 b00 h states).2 := by
    simp only [nggScaleParams]; linarith
  simp only [nigUpdateHypers, normalRngChk, gammaRngChk, not_le.2 p1, not_le.2 p2, not_le.2 p3,
    not_le.2 p4, not_le.2 p5, if_false, ok_bind]

/-- The claim for the mean fails with the Normal-Gamma-Gamma prior: one cluster at zero with unit
variance gives precision two. -/
theorem c60_ngg_mean_violated :
    ¬ ∀ (mu00 sig200 : ℝ) (h : NIG) (states : List UniLS), 0 < sig200 → 0 < h.varScaling →
      (∀ st ∈ states, 0 < st.var) → ∀ m m' : ℝ,
      (normalLpdf m mu00 (sqrt sig200) + (states.map (nigLpdf { h with mean := m })).sum) -
        (normalLpdf m' mu00 (sqrt sig200) + (states.map (nigLpdf { h with mean := m' })).sum) =
      normalLpdf m (nggMeanParams mu00 sig200 h states).1 (nggMeanParams mu00 sig200 h states).2 -
        normalLpdf m' (nggMeanParams mu00 sig200 h states).1
          (nggMeanParams mu00 sig200 h states).2 := by
  intro hall
  have h1 := (c60_ngg_mean_partial 0 1 one_pos ⟨0, 1, 1, 1⟩ one_pos [⟨0, 1⟩] (by simp)).1
    (hall 0 1 ⟨0, 1, 1, 1⟩ [⟨0, 1⟩] one_pos one_pos (by simp))
  norm_num at h1

/-- The claim for the scaling fails too: after the update the scaling should have been drawn given
the NEW mean; moving the mean changes the full conditional. -/
theorem c60_ngg_scaling_violated :
    ∃ (h h' : NIG) (states : List UniLS) (g g1 g2 : ℝ → ℝ → ℝ),
      0 < h.varScaling ∧ 0 < h.shape ∧ (∀ st ∈ states, 0 < st.var) ∧
      nigUpdateHypers (.ngg 0 1 1 1 1 1 1) h states g g1 g2 = .ok h' ∧
      ¬ ∀ l l' : ℝ, 0 < l → 0 < l' →
        (gammaLpdf l 1 1 + (states.map (nigLpdf { h' with varScaling := l })).sum) -
          (gammaLpdf l' 1 1 + (states.map (nigLpdf { h' with varScaling := l' })).sum) =
        gammaLpdf l (nggScalingParams 1 1 h states).1 (nggScalingParams 1 1 h states).2 -
          gammaLpdf l' (nggScalingParams 1 1 h states).1 (nggScalingParams 1 1 h states).2 := by
  refine ⟨⟨0, 1, 1, 1⟩, ⟨1, 1, 1, 1⟩, [⟨0, 1⟩], fun _ _ => 1, fun _ _ => 1, fun _ _ => 1, one_pos,
    one_pos, by simp, ?_, ?_⟩
  · rw [c60_ngg_update 0 1 1 1 1 1 1 one_pos one_pos one_pos one_pos one_pos ⟨0, 1, 1, 1⟩ one_pos
      one_pos [⟨0, 1⟩] (by simp)]
  · intro hall
    have h1 := hall 2 1 two_pos one_pos
    rw [c60_ngg_scaling_partial 1 1 ⟨1, 1, 1, 1⟩ [⟨0, 1⟩] (by simp) 2 1 two_pos one_pos] at h1
    simp only [nggScalingParams, gammaLpdf, List.map_cons, List.map_nil, List.sum_cons,
      List.sum_nil, List.length_cons, List.length_nil] at h1
    have e0 : (0.5 : ℝ) = 1 / 2 := by norm_num
    rw [e0] at h1
    norm_num at h1
    linarith

/-! ## C60: Normal-Wishart -/

theorem sum_prec_posSemidef (states : List (MultiLS d)) (hst : ∀ st ∈ states, st.prec.PosDef) :
    Matrix.PosSemidef (states.map (fun st : MultiLS d => st.prec)).sum := by
  induction states with
  | nil => simpa using Matrix.PosSemidef.zero
  | cons st sts ih =>
    simp only [List.map_cons, List.sum_cons]
    exact (hst st (by simp)).posSemidef.add (ih (fun s hs => hst s (by simp [hs])))

theorem nwMeanPrec_posDef (sigma00 : Matrix (Fin d) (Fin d) ℝ) (hs : sigma00.PosDef) (h : NW d)
    (hl : 0 < h.varScaling) (states : List (MultiLS d)) (hst : ∀ st ∈ states, st.prec.PosDef) :
    (nwMeanPrec sigma00 h states).PosDef := by
  unfold nwMeanPrec
  rw [add_comm]
  exact hs.inv.add_posSemidef ((sum_prec_posSemidef states hst).smul hl.le)

theorem quad_shift {P : Matrix (Fin d) (Fin d) ℝ} (hP : P.PosDef) (x m : Fin d → ℝ) :
    (x - m) ⬝ᵥ (P *ᵥ (x - m)) = x ⬝ᵥ (P *ᵥ x) - 2 * (m ⬝ᵥ (P *ᵥ x)) + m ⬝ᵥ (P *ᵥ m) := by
  rw [mulVec_sub, sub_dotProduct, dotProduct_sub, dotProduct_sub, PosDef.dot_comm hP x m]
  ring

theorem mvn_diff_mean {P : Matrix (Fin d) (Fin d) ℝ} (hP : P.PosDef) (x m m' : Fin d → ℝ) :
    stanMultiNormalPrecLpdf x m P - stanMultiNormalPrecLpdf x m' P =
      -(1 / 2) * ((m ⬝ᵥ (P *ᵥ m) - 2 * (m ⬝ᵥ (P *ᵥ x))) -
        (m' ⬝ᵥ (P *ᵥ m') - 2 * (m' ⬝ᵥ (P *ᵥ x)))) := by
  unfold stanMultiNormalPrecLpdf
  rw [quad_shift hP, quad_shift hP]
  ring

theorem nw_mean_diff (mu00 : Fin d → ℝ) (sigma00 : Matrix (Fin d) (Fin d) ℝ)
    (hs : sigma00.PosDef) (h : NW d) (hl : 0 < h.varScaling) (states : List (MultiLS d))
    (hst : ∀ st ∈ states, st.prec.PosDef) (m m' : Fin d → ℝ) :
    (stanMultiNormalPrecLpdf m mu00 sigma00⁻¹ +
        (states.map (fun st => nwLpdf { h with mean := m } st.mean st.prec)).sum) -
      (stanMultiNormalPrecLpdf m' mu00 sigma00⁻¹ +
        (states.map (fun st => nwLpdf { h with mean := m' } st.mean st.prec)).sum) =
    -(1 / 2) * ((m ⬝ᵥ (nwMeanPrec sigma00 h states *ᵥ m) -
        2 * (m ⬝ᵥ nwMeanNum mu00 sigma00 h states)) -
      (m' ⬝ᵥ (nwMeanPrec sigma00 h states *ᵥ m') -
        2 * (m' ⬝ᵥ nwMeanNum mu00 sigma00 h states))) := by
  have e1 : ∀ states : List (MultiLS d), (∀ st ∈ states, st.prec.PosDef) →
      (states.map (fun st => nwLpdf { h with mean := m } st.mean st.prec)).sum -
      (states.map (fun st => nwLpdf { h with mean := m' } st.mean st.prec)).sum =
      -(1 / 2) * h.varScaling * ((m ⬝ᵥ ((states.map (fun st => st.prec)).sum *ᵥ m) -
        2 * (m ⬝ᵥ (states.map (fun st => st.prec *ᵥ st.mean)).sum)) -
      (m' ⬝ᵥ ((states.map (fun st => st.prec)).sum *ᵥ m') -
        2 * (m' ⬝ᵥ (states.map (fun st => st.prec *ᵥ st.mean)).sum))) := by
    intro states
    induction states with
    | nil => simp
    | cons st sts ih =>
      intro hall
      have ih' := ih (fun s hs => hall s (by simp [hs]))
      have hP := hall st (by simp)
      have hd := mvn_diff_mean (hP.smul hl) st.mean m m'
      simp only [smul_mulVec, dotProduct_smul, smul_eq_mul] at hd
      simp only [List.map_cons, List.sum_cons, add_mulVec, dotProduct_add]
      have e : nwLpdf { h with mean := m } st.mean st.prec -
          nwLpdf { h with mean := m' } st.mean st.prec =
          stanMultiNormalPrecLpdf st.mean m (h.varScaling • st.prec) -
            stanMultiNormalPrecLpdf st.mean m' (h.varScaling • st.prec) := by
        simp only [nwLpdf]; ring
      rw [hd] at e
      linarith
  have e2 : ∀ m, stanMultiNormalPrecLpdf m mu00 sigma00⁻¹ =
      stanMultiNormalPrecLpdf mu00 m sigma00⁻¹ := by
    intro m
    unfold stanMultiNormalPrecLpdf
    rw [← neg_sub mu00 m, mulVec_neg, neg_dotProduct_neg]
  have e3 := mvn_diff_mean hs.inv mu00 m m'
  have e4 := e1 states hst
  rw [e2, e2]
  unfold nwMeanPrec nwMeanNum
  simp only [add_mulVec, dotProduct_add, smul_mulVec, dotProduct_smul, smul_eq_mul]
  linarith

/-- Normal prior on the mean: redrawn with the mean and precision of its full conditional given
the cluster parameters; nothing else changes. -/
theorem c60_nw_normal_mean (mu00 : Fin d → ℝ) (sigma00 tau0 : Matrix (Fin d) (Fin d) ℝ)
    (lambda0 nu0 : ℝ) (hs : sigma00.PosDef) (h : NW d) (hl : 0 < h.varScaling)
    (states : List (MultiLS d)) (hst : ∀ st ∈ states, st.prec.PosDef) :
    ∃ (loc : Fin d → ℝ) (prec : Matrix (Fin d) (Fin d) ℝ), prec.PosDef ∧
      (∀ g g1 g2 g3, nwUpdateHypers (.normalMean mu00 sigma00 lambda0 tau0 nu0) h states
        g g1 g2 g3 = .ok { h with mean := g loc prec }) ∧
      ∀ m m' : Fin d → ℝ,
        (stanMultiNormalPrecLpdf m mu00 sigma00⁻¹ +
            (states.map (fun st => nwLpdf { h with mean := m } st.mean st.prec)).sum) -
          (stanMultiNormalPrecLpdf m' mu00 sigma00⁻¹ +
            (states.map (fun st => nwLpdf { h with mean := m' } st.mean st.prec)).sum) =
        stanMultiNormalPrecLpdf m loc prec - stanMultiNormalPrecLpdf m' loc prec := by
  have hP := nwMeanPrec_posDef sigma00 hs h hl states hst
  refine ⟨nwMeanMean mu00 sigma00 h states, nwMeanPrec sigma00 h states, hP, ?_, ?_⟩
  · intro g g1 g2 g3
    simp only [nwUpdateHypers, inverseSpd, if_pos hs, multiNormalRngChk, if_pos hP, ok_bind]
  · intro m m'
    rw [nw_mean_diff mu00 sigma00 hs h hl states hst]
    unfold stanMultiNormalPrecLpdf nwMeanMean
    rw [complete_square hP, complete_square hP]
    ring

/-- Normal-Gamma-Inverse-Wishart prior, mean: drawn from its full conditional. -/
theorem c60_ngiw_mean (mu00 : Fin d → ℝ) (sigma00 : Matrix (Fin d) (Fin d) ℝ)
    (hs : sigma00.PosDef) (h : NW d) (hl : 0 < h.varScaling)
    (states : List (MultiLS d)) (hst : ∀ st ∈ states, st.prec.PosDef) (m m' : Fin d → ℝ) :
    (stanMultiNormalPrecLpdf m mu00 sigma00⁻¹ +
        (states.map (fun st => nwLpdf { h with mean := m } st.mean st.prec)).sum) -
      (stanMultiNormalPrecLpdf m' mu00 sigma00⁻¹ +
        (states.map (fun st => nwLpdf { h with mean := m' } st.mean st.prec)).sum) =
    logGauss m ((nwMeanPrec sigma00 h states)⁻¹ *ᵥ nwMeanNum mu00 sigma00 h states)
        (nwMeanPrec sigma00 h states)⁻¹ -
      logGauss m' ((nwMeanPrec sigma00 h states)⁻¹ *ᵥ nwMeanNum mu00 sigma00 h states)
        (nwMeanPrec sigma00 h states)⁻¹ := by
  have hP := nwMeanPrec_posDef sigma00 hs h hl states hst
  rw [nw_mean_diff mu00 sigma00 hs h hl states hst]
  unfold logGauss
  rw [nonsing_inv_nonsing_inv _ (PosDef.isUnit_det' hP), complete_square hP, complete_square hP]
  ring

/-- Normal-Gamma-Inverse-Wishart prior, scaling: with the mean before the update, shape and rate
are those of the full conditional exactly in dimension one or without clusters. -/
theorem c60_ngiw_scaling_partial (alpha00 beta00 : ℝ) (h : NW d) (states : List (MultiLS d))
    (hst : ∀ st ∈ states, st.prec.PosDef) :
    (∀ l l' : ℝ, 0 < l → 0 < l' →
      (gammaLpdf l alpha00 beta00 +
          (states.map (fun st => nwLpdf { h with varScaling := l } st.mean st.prec)).sum) -
        (gammaLpdf l' alpha00 beta00 +
          (states.map (fun st => nwLpdf { h with varScaling := l' } st.mean st.prec)).sum) =
      gammaLpdf l (ngiwScalingParams alpha00 beta00 h states).1
          (ngiwScalingParams alpha00 beta00 h states).2 -
        gammaLpdf l' (ngiwScalingParams alpha00 beta00 h states).1
          (ngiwScalingParams alpha00 beta00 h states).2) ↔ (d = 1 ∨ states = []) := by
  have key : ∀ (l l' : ℝ), 0 < l → 0 < l' → ∀ states : List (MultiLS d),
      (∀ st ∈ states, st.prec.PosDef) →
      (states.map (fun st => nwLpdf { h with varScaling := l } st.mean st.prec)).sum -
      (states.map (fun st => nwLpdf { h with varScaling := l' } st.mean st.prec)).sum =
      (d / 2) * states.length * (log l - log l') - (1 / 2) * (states.map (fun st =>
        (h.mean - st.mean) ⬝ᵥ (st.prec *ᵥ (h.mean - st.mean)))).sum * (l - l') := by
    intro l l' hl hl' states
    induction states with
    | nil => simp
    | cons st sts ih =>
      intro hall
      have ih' := ih (fun s hs => hall s (by simp [hs]))
      have hP := hall st (by simp)
      have hdet := hP.det_pos
      have e : nwLpdf { h with varScaling := l } st.mean st.prec -
          nwLpdf { h with varScaling := l' } st.mean st.prec =
          (d / 2) * (log l - log l') - (1 / 2) *
            ((h.mean - st.mean) ⬝ᵥ (st.prec *ᵥ (h.mean - st.mean))) * (l - l') := by
        simp only [nwLpdf, stanMultiNormalPrecLpdf]
        rw [det_smul, det_smul, Fintype.card_fin,
          log_mul (pow_pos hl d).ne' hdet.ne', log_mul (pow_pos hl' d).ne' hdet.ne', log_pow,
          log_pow, ← neg_sub h.mean st.mean]
        simp only [smul_mulVec, mulVec_neg, dotProduct_smul, neg_dotProduct_neg, smul_eq_mul]
        ring
      simp only [List.map_cons, List.sum_cons, List.length_cons]
      push_cast
      linarith
  have e0 : (0.5 : ℝ) = 1 / 2 := by norm_num
  constructor
  · intro hall
    have h1 := hall (exp 1) 1 (exp_pos 1) one_pos
    have h2 := key (exp 1) 1 (exp_pos 1) one_pos states hst
    simp only [ngiwScalingParams, gammaLpdf, log_exp, log_one] at h1 h2
    rw [e0] at h1
    have h3 : ((d : ℝ) - 1) * states.length = 0 := by linarith
    rcases mul_eq_zero.1 h3 with h4 | h4
    · left
      have : (d : ℝ) = 1 := by linarith
      exact_mod_cast this
    · right
      have : states.length = 0 := by exact_mod_cast h4
      exact List.length_eq_zero_iff.1 this
  · intro hd l l' hl hl'
    have h2 := key l l' hl hl' states hst
    have h3 : (d / 2 : ℝ) * states.length = 1 / 2 * states.length := by
      rcases hd with rfl | rfl
      · norm_num
      · simp
    rw [h3] at h2
    simp only [ngiwScalingParams, gammaLpdf]
    rw [e0]
    linarith

/-- `stan::math::inv_wishart_lpdf(W, nu, S)` (trusted formula). -/
noncomputable def invWishartLpdf (w : Matrix (Fin d) (Fin d) ℝ) (nu : ℝ)
    (s : Matrix (Fin d) (Fin d) ℝ) : ℝ :=
  -(nu * d / 2) * log 2 - lmgamma d (nu / 2) + (nu / 2) * log s.det
    - ((nu + d + 1) / 2) * log w.det - (1 / 2) * (s * w⁻¹).trace

/-- Normal-Gamma-Inverse-Wishart prior, scale: drawn with the parameters of its full conditional
given the cluster parameters. -/
theorem c60_ngiw_scale (nu00 : ℝ) (tau00 : Matrix (Fin d) (Fin d) ℝ) (h : NW d)
    (states : List (MultiLS d)) (s s' : Matrix (Fin d) (Fin d) ℝ) :
    (invWishartLpdf s nu00 tau00 +
        (states.map (fun st => nwLpdf { h with scale := s } st.mean st.prec)).sum) -
      (invWishartLpdf s' nu00 tau00 +
        (states.map (fun st => nwLpdf { h with scale := s' } st.mean st.prec)).sum) =
    invWishartLpdf s (ngiwScaleParams nu00 tau00 h states).1
        (ngiwScaleParams nu00 tau00 h states).2 -
      invWishartLpdf s' (ngiwScaleParams nu00 tau00 h states).1
        (ngiwScaleParams nu00 tau00 h states).2 := by
  have key : (states.map (fun st => nwLpdf { h with scale := s } st.mean st.prec)).sum -
      (states.map (fun st => nwLpdf { h with scale := s' } st.mean st.prec)).sum =
      -(states.length * h.degFree / 2) * (log s.det - log s'.det) -
        (1 / 2) * (((states.map (fun st => st.prec)).sum * s⁻¹).trace -
          ((states.map (fun st => st.prec)).sum * s'⁻¹).trace) := by
    induction states with
    | nil => simp
    | cons st sts ih =>
      simp only [List.map_cons, List.sum_cons, List.length_cons, nwLpdf, wishartLpdf,
        Matrix.add_mul, trace_add] at ih ⊢
      rw [trace_mul_comm s⁻¹ st.prec, trace_mul_comm s'⁻¹ st.prec]
      push_cast
      linear_combination ih
  simp only [ngiwScaleParams, invWishartLpdf, Matrix.add_mul, trace_add]
  linear_combination key

/-- The parameters above are the ones the update uses; the stored inverse and factor of the scale
are those of the new scale. -/
theorem c60_ngiw_update (mu00 : Fin d → ℝ) (sigma00 tau00 : Matrix (Fin d) (Fin d) ℝ)
    (alpha00 beta00 nu00 nu0 : ℝ) (hs : sigma00.PosDef) (ht : tau00.PosDef) (ha : 0 < alpha00)
    (hb : 0 < beta00) (hnu : 0 < nu00) (h : NW d) (hl : 0 < h.varScaling) (hdf : (d : ℝ) - 1 < h.degFree)
    (hd : 0 < d) (states : List (MultiLS d)) (hne : states ≠ [])
    (hst : ∀ st ∈ states, st.prec.PosDef)
    (g g1 : (Fin d → ℝ) → Matrix (Fin d) (Fin d) ℝ → Fin d → ℝ) (g2 : ℝ → ℝ → ℝ)
    (g3 : ℝ → Matrix (Fin d) (Fin d) ℝ → Matrix (Fin d) (Fin d) ℝ)
    (hg3 : ∀ nu s, s.PosDef → (g3 nu s).PosDef) :
    ∃ scale, nwUpdateHypers (.ngiw mu00 sigma00 alpha00 beta00 nu00 tau00 nu0) h states
        g g1 g2 g3 =
      .ok ⟨g1 ((nwMeanPrec sigma00 h states)⁻¹ *ᵥ nwMeanNum mu00 sigma00 h states)
            (nwMeanPrec sigma00 h states)⁻¹,
          g2 (ngiwScalingParams alpha00 beta00 h states).1
            (ngiwScalingParams alpha00 beta00 h states).2,
          h.degFree, scale, scale⁻¹, lltU scale⟩ ∧
      scale = g3 (ngiwScaleParams nu00 tau00 h states).1
        (ngiwScaleParams nu00 tau00 h states).2 := by
  have hP := nwMeanPrec_posDef sigma00 hs h hl states hst
  have p1 : 0 < (ngiwScalingParams alpha00 beta00 h states).1 := by
    simp only [ngiwScalingParams]; positivity
  have p2 : 0 < (ngiwScalingParams alpha00 beta00 h states).2 := by
    simp only [ngiwScalingParams]
    have : 0 ≤ (states.map (fun st =>
        (h.mean - st.mean) ⬝ᵥ (st.prec *ᵥ (h.mean - st.mean)))).sum := by
      apply List.sum_nonneg
      intro x hx
      obtain ⟨st, hs, rfl⟩ := List.mem_map.1 hx
      exact PosDef.quad_nonneg (hst st hs) _
    positivity
  have p3 : ¬ (ngiwScaleParams nu00 tau00 h states).1 ≤ d - 1 := by
    simp only [ngiwScaleParams, not_le]
    have hlen : (1 : ℝ) ≤ states.length := by
      have := List.length_pos_iff.2 hne
      exact_mod_cast this
    have hd' : (1 : ℝ) ≤ d := by exact_mod_cast hd
    have hdf0 : 0 < h.degFree := by linarith
    nlinarith
  have hinv : ((nwMeanPrec sigma00 h states)⁻¹).PosDef := hP.inv
  have htn : (ngiwScaleParams nu00 tau00 h states).2.PosDef := by
    simp only [ngiwScaleParams]
    rw [add_comm]
    exact ht.add_posSemidef (sum_prec_posSemidef states hst)
  refine ⟨_, ?_, rfl⟩
  simp only [nwUpdateHypers, inverseSpd, if_pos hs, if_pos hP, multiNormalRngChk, if_pos hinv,
    gammaRngChk, not_le.2 p1, not_le.2 p2, invWishartRngChk, p3, if_false, if_pos (hg3 _ _ htn),
    ok_bind]

/-- The claim for the scaling fails in dimension two with one cluster. -/
theorem c60_ngiw_scaling_violated :
    ¬ ∀ (d : ℕ) (h : NW d) (states : List (MultiLS d)), (∀ st ∈ states, st.prec.PosDef) →
      ∀ l l' : ℝ, 0 < l → 0 < l' →
      (gammaLpdf l 1 1 +
          (states.map (fun st => nwLpdf { h with varScaling := l } st.mean st.prec)).sum) -
        (gammaLpdf l' 1 1 +
          (states.map (fun st => nwLpdf { h with varScaling := l' } st.mean st.prec)).sum) =
      gammaLpdf l (ngiwScalingParams 1 1 h states).1 (ngiwScalingParams 1 1 h states).2 -
        gammaLpdf l' (ngiwScalingParams 1 1 h states).1 (ngiwScalingParams 1 1 h states).2 := by
  intro hall
  have h1 := (c60_ngiw_scaling_partial 1 1 (⟨0, 1, 2, 1, 1, 1⟩ : NW 2) [⟨0, 1, 1, 0⟩]
    (by simpa using Matrix.PosDef.one)).1 (hall 2 ⟨0, 1, 2, 1, 1, 1⟩ [⟨0, 1, 1, 0⟩]
    (by simpa using Matrix.PosDef.one))
  simp at h1

example : ∃ (h : NW 2) (states : List (MultiLS 2)), 0 < h.varScaling ∧ (2 : ℝ) - 1 < h.degFree ∧
    states ≠ [] ∧ ∀ st ∈ states, st.prec.PosDef :=
  ⟨⟨0, 1, 3, 1, 1, 1⟩, [⟨0, 1, 1, 0⟩], one_pos, by norm_num, by simp,
    by simpa using Matrix.PosDef.one⟩

/-! ## C79: updates of accepted hyperparameters do not fail -/

/-- Fixed values: nothing changes. -/
theorem c79_fixed (m v a b : ℝ) (h : NIG) (states : List UniLS) (g g1 g2 : ℝ → ℝ → ℝ) :
    nigUpdateHypers (.fixed m v a b) h states g g1 g2 = .ok h := rfl

/-- Starting from accepted hyperparameters, with generators of positive values for the gamma
draws, every sequence of updates with the Normal-Gamma-Gamma prior succeeds and keeps the
hyperparameters valid. -/
theorem c79_ngg_never_fails (mu00 sig200 alpha00 beta00 a00 b00 sh : ℝ) (h : NIG)
    (hin : nigInit (.ngg mu00 sig200 alpha00 beta00 a00 b00 sh) = .ok h)
    (rounds : List (List UniLS × (ℝ → ℝ → ℝ) × (ℝ → ℝ → ℝ) × (ℝ → ℝ → ℝ)))
    (hr : ∀ r ∈ rounds, (∀ st ∈ r.1, 0 < st.var) ∧ (∀ x y, 0 < x → 0 < y → 0 < r.2.2.1 x y) ∧
      ∀ x y, 0 < x → 0 < y → 0 < r.2.2.2 x y) :
    ∃ h', rounds.foldlM (fun h r => nigUpdateHypers (.ngg mu00 sig200 alpha00 beta00 a00 b00 sh)
        h r.1 r.2.1 r.2.2.1 r.2.2.2) h = .ok h' ∧
      0 < h'.varScaling ∧ 0 < h'.shape ∧ 0 < h'.scale := by
  have hv := nigInit_pos hin
  simp only [nigInit] at hin
  (repeat' split at hin) <;> cases hin
  rename_i h1 h2 h3 h4 h5 h6
  push Not at h1 h2 h3 h4 h5 h6
  revert hv
  generalize (⟨mu00, alpha00 / beta00, sh, a00 / b00⟩ : NIG) = h
  intro hv
  induction rounds generalizing h with
  | nil => exact ⟨h, rfl, hv.1, hv.2.1, hv.2.2⟩
  | cons r rs ih =>
    obtain ⟨hs, hg1, hg2⟩ := hr r (by simp)
    rw [List.foldlM_cons, c60_ngg_update mu00 sig200 alpha00 beta00 a00 b00 sh h1 h2 h3 h4 h5 h
      hv.1 hv.2.1 r.1 hs, ok_bind]
    apply ih (fun r' hr' => hr r' (by simp [hr']))
    have hb := sum_inv_nonneg r.1 hs
    refine ⟨hg1 _ _ ?_ ?_, hv.2.1, hg2 _ _ ?_ ?_⟩
    · simp only [nggScalingParams]; positivity
    · simp only [nggScalingParams]
      have : 0 ≤ (r.1.map (fun st => (h.mean - st.mean) * (h.mean - st.mean) / st.var)).sum := by
        apply List.sum_nonneg
        intro x hx
        obtain ⟨st, hst, rfl⟩ := List.mem_map.1 hx
        exact div_nonneg (mul_self_nonneg _) (hs st hst).le
      positivity
    · simp only [nggScaleParams]
      have := hv.2.1
      positivity
    · simp only [nggScaleParams]; linarith

example : ∃ h, nigInit (.ngg 0 1 2 2 3 3 1) = .ok h := by
  refine ⟨⟨0, 1, 1, 1⟩, ?_⟩
  norm_num [nigInit]

/-- With a Normal prior on the mean, updates succeed if its variance is positive ... -/
theorem c79_normal_mean_partial (mu00 sig200 l a b : ℝ) (hs : 0 < sig200) (h : NIG)
    (hin : nigInit (.normalMean mu00 sig200 l a b) = .ok h)
    (rounds : List (List UniLS × (ℝ → ℝ → ℝ))) (hr : ∀ r ∈ rounds, ∀ st ∈ r.1, 0 < st.var) :
    ∃ m, rounds.foldlM (fun h r => nigUpdateHypers (.normalMean mu00 sig200 l a b)
        h r.1 r.2 r.2 r.2) h = .ok { h with mean := m } := by
  have hv := nigInit_pos hin
  simp only [nigInit] at hin
  (repeat' split at hin) <;> cases hin
  rename_i h1 h2 h3
  push Not at h1
  have key : ∀ (rounds : List (List UniLS × (ℝ → ℝ → ℝ))),
      (∀ r ∈ rounds, ∀ st ∈ r.1, 0 < st.var) → ∀ m0,
      ∃ m, rounds.foldlM (fun h r => nigUpdateHypers (.normalMean mu00 sig200 l a b)
        h r.1 r.2 r.2 r.2) ⟨m0, l, a, b⟩ = .ok ⟨m, l, a, b⟩ := by
    intro rounds
    induction rounds with
    | nil => exact fun _ m0 => ⟨m0, rfl⟩
    | cons r rs ih =>
      intro hall m0
      obtain ⟨loc, sd, _, hu, _⟩ := c60_nig_normal_mean mu00 sig200 a b hs ⟨m0, l, a, b⟩ h1 r.1
        (hall r (by simp))
      obtain ⟨m, hm⟩ := ih (fun r' hr' => hall r' (by simp [hr'])) (r.2 loc sd)
      refine ⟨m, ?_⟩
      rw [List.foldlM_cons, hu, ok_bind]
      exact hm
  exact key rounds hr mu00

/-- ... but the variance is not checked at initialisation: a negative one is accepted and the
first update throws. -/
theorem c79_normal_mean_violated :
    ∃ h, nigInit (.normalMean 0 (-1) 1 1 1) = .ok h ∧ ∀ g g1 g2,
      nigUpdateHypers (.normalMean 0 (-1) 1 1 1) h [⟨0, 2⟩] g g1 g2 = .error .throw := by
  refine ⟨⟨0, 1, 1, 1⟩, ?_, ?_⟩
  · norm_num [nigInit]
  · intro g g1 g2
    have : (nigMeanParams 0 (-1) 1 [⟨0, 2⟩]).2 = 0 := by
      simp only [nigMeanParams]
      apply Real.sqrt_eq_zero_of_nonpos
      norm_num
    simp [nigUpdateHypers, normalRngChk, this, error_bind]

/-- Normal-Wishart hyperparameters with the Normal-Gamma-Inverse-Wishart prior: starting from
accepted hyperparameters every sequence of updates with at least one cluster succeeds and keeps
the hyperparameters valid and the stored inverse and factor in sync with the scale. -/
theorem c79_ngiw_never_fails (mu00 : Fin d → ℝ) (sigma00 tau00 : Matrix (Fin d) (Fin d) ℝ)
    (alpha00 beta00 nu00 nu0 : ℝ) (hd : 0 < d) (h : NW d)
    (hin : nwInit (.ngiw mu00 sigma00 alpha00 beta00 nu00 tau00 nu0) = .ok h)
    (g : (Fin d → ℝ) → Matrix (Fin d) (Fin d) ℝ → Fin d → ℝ)
    (rounds : List (List (MultiLS d) × ((Fin d → ℝ) → Matrix (Fin d) (Fin d) ℝ → Fin d → ℝ) ×
      (ℝ → ℝ → ℝ) × (ℝ → Matrix (Fin d) (Fin d) ℝ → Matrix (Fin d) (Fin d) ℝ)))
    (hr : ∀ r ∈ rounds, r.1 ≠ [] ∧ (∀ st ∈ r.1, st.prec.PosDef) ∧
      (∀ x y, 0 < x → 0 < y → 0 < r.2.2.1 x y) ∧ ∀ nu s, s.PosDef → (r.2.2.2 nu s).PosDef) :
    ∃ h', rounds.foldlM (fun h r => nwUpdateHypers
        (.ngiw mu00 sigma00 alpha00 beta00 nu00 tau00 nu0) h r.1 g r.2.1 r.2.2.1 r.2.2.2) h =
        .ok h' ∧
      0 < h'.varScaling ∧ (d : ℝ) - 1 < h'.degFree ∧ h'.scale.PosDef ∧
      h'.scaleInv = h'.scale⁻¹ ∧ h'.scaleChol = lltU h'.scale := by
  have hinit : sigma00.PosDef ∧ 0 < alpha00 ∧ 0 < beta00 ∧ 0 < nu00 ∧ tau00.PosDef ∧
      (0 < h.varScaling ∧ (d : ℝ) - 1 < h.degFree ∧ h.scale.PosDef ∧
        h.scaleInv = h.scale⁻¹ ∧ h.scaleChol = lltU h.scale) := by
    simp only [nwInit, checkSpd] at hin
    by_cases h1 : sigma00.PosDef
    swap
    · rw [if_neg h1, error_bind] at hin; cases hin
    rw [if_pos h1, ok_bind] at hin
    by_cases h2 : alpha00 ≤ 0
    · rw [if_pos h2] at hin; cases hin
    rw [if_neg h2] at hin
    by_cases h3 : beta00 ≤ 0
    · rw [if_pos h3] at hin; cases hin
    rw [if_neg h3] at hin
    by_cases h4 : nu00 ≤ 0
    · rw [if_pos h4] at hin; cases hin
    rw [if_neg h4] at hin
    by_cases h5 : tau00.PosDef
    swap
    · rw [if_neg h5, error_bind] at hin; cases hin
    rw [if_pos h5, ok_bind] at hin
    by_cases h6 : nu0 ≤ d - 1
    · rw [if_pos h6] at hin; cases hin
    rw [if_neg h6] at hin
    unfold nwFinish inverseSpd at hin
    by_cases h7 : ((1 / (nu00 + d + 1)) • tau00).PosDef
    swap
    · rw [if_neg h7, error_bind] at hin; cases hin
    rw [if_pos h7, ok_bind] at hin
    have := Except.ok.inj hin
    subst this
    push Not at h2 h3 h4 h6
    exact ⟨h1, h2, h3, h4, h5, div_pos h2 h3, h6, h7, rfl, rfl⟩
  obtain ⟨h1, h2, h3, h4, h5, hv⟩ := hinit
  clear hin
  induction rounds generalizing h with
  | nil => exact ⟨h, rfl, hv⟩
  | cons r rs ih =>
    obtain ⟨hne, hst, hg2, hg3⟩ := hr r (by simp)
    obtain ⟨scale, hu, hsc⟩ := c60_ngiw_update mu00 sigma00 tau00 alpha00 beta00 nu00 nu0 h1 h5 h2
      h3 h4 h hv.1 hv.2.1 hd r.1 hne hst g r.2.1 r.2.2.1 r.2.2.2 hg3
    rw [List.foldlM_cons, hu, ok_bind]
    apply ih _ (fun r' hr' => hr r' (by simp [hr']))
    refine ⟨hg2 _ _ ?_ ?_, hv.2.1, ?_, rfl, rfl⟩
    · simp only [ngiwScalingParams]; positivity
    · simp only [ngiwScalingParams]
      have : 0 ≤ (r.1.map (fun st =>
          (h.mean - st.mean) ⬝ᵥ (st.prec *ᵥ (h.mean - st.mean)))).sum := by
        apply List.sum_nonneg
        intro x hx
        obtain ⟨st, hs, rfl⟩ := List.mem_map.1 hx
        exact PosDef.quad_nonneg (hst st hs) _
      positivity
    · rw [hsc]
      apply hg3
      simp only [ngiwScaleParams]
      rw [add_comm]
      exact h5.add_posSemidef (sum_prec_posSemidef r.1 hst)

example : ∃ h : NW 2, nwInit (.ngiw 0 1 1 1 1 1 3) = .ok h := by
  have hone : (1 : Matrix (Fin 2) (Fin 2) ℝ).PosDef := Matrix.PosDef.one
  have hs : ((1 / ((1 : ℝ) + (2 : ℕ) + 1)) • (1 : Matrix (Fin 2) (Fin 2) ℝ)).PosDef :=
    hone.smul (by norm_num)
  simp only [nwInit, checkSpd, if_pos hone, ok_bind, nwFinish, inverseSpd, if_pos hs]
  rw [if_neg (by norm_num), if_neg (by norm_num), if_neg (by norm_num), if_neg (by norm_num)]
  exact ⟨_, rfl⟩

/-- Normal-Wishart hyperparameters with a Normal prior on the mean. -/
theorem c79_nw_normal_mean_never_fails (mu00 : Fin d → ℝ)
    (sigma00 tau0 : Matrix (Fin d) (Fin d) ℝ) (lambda0 nu0 : ℝ) (h : NW d)
    (hin : nwInit (.normalMean mu00 sigma00 lambda0 tau0 nu0) = .ok h)
    (g1 : (Fin d → ℝ) → Matrix (Fin d) (Fin d) ℝ → Fin d → ℝ) (g2 : ℝ → ℝ → ℝ)
    (g3 : ℝ → Matrix (Fin d) (Fin d) ℝ → Matrix (Fin d) (Fin d) ℝ)
    (rounds : List (List (MultiLS d) ×
      ((Fin d → ℝ) → Matrix (Fin d) (Fin d) ℝ → Fin d → ℝ)))
    (hr : ∀ r ∈ rounds, ∀ st ∈ r.1, st.prec.PosDef) :
    ∃ m, rounds.foldlM (fun h r => nwUpdateHypers
        (.normalMean mu00 sigma00 lambda0 tau0 nu0) h r.1 r.2 g1 g2 g3) h =
        .ok { h with mean := m } := by
  have hinit : sigma00.PosDef ∧ 0 < h.varScaling := by
    simp only [nwInit, checkSpd] at hin
    by_cases h1 : sigma00.PosDef
    swap
    · rw [if_neg h1, error_bind] at hin; cases hin
    rw [if_pos h1, ok_bind] at hin
    by_cases h2 : lambda0 ≤ 0
    · rw [if_pos h2] at hin; cases hin
    rw [if_neg h2] at hin
    by_cases h5 : tau0.PosDef
    swap
    · rw [if_neg h5, error_bind] at hin; cases hin
    rw [if_pos h5, ok_bind] at hin
    by_cases h6 : nu0 ≤ d - 1
    · rw [if_pos h6] at hin; cases hin
    rw [if_neg h6] at hin
    unfold nwFinish inverseSpd at hin
    rw [if_pos h5, ok_bind] at hin
    have := Except.ok.inj hin
    subst this
    exact ⟨h1, not_le.1 h2⟩
  obtain ⟨h1, h2⟩ := hinit
  clear hin
  induction rounds generalizing h with
  | nil => exact ⟨h.mean, rfl⟩
  | cons r rs ih =>
    obtain ⟨loc, prec, _, hu, _⟩ := c60_nw_normal_mean mu00 sigma00 tau0 lambda0 nu0 h1 h h2 r.1
      (hr r (by simp))
    rw [List.foldlM_cons, hu, ok_bind]
    exact ih { h with mean := r.2 loc prec } (fun r' hr' => hr r' (by simp [hr'])) h2

/-- C79: dimension two, unit precisions; one round without clusters and one with a cluster. -/
example (g1 : (Fin 2 → ℝ) → Matrix (Fin 2) (Fin 2) ℝ → Fin 2 → ℝ) (g2 : ℝ → ℝ → ℝ)
    (g3 : ℝ → Matrix (Fin 2) (Fin 2) ℝ → Matrix (Fin 2) (Fin 2) ℝ) : ∃ (h : NW 2) (m : Fin 2 → ℝ),
    nwInit (.normalMean 0 1 1 1 3) = .ok h ∧
    ([([], fun _ _ => 0), ([⟨0, 1, 1, 0⟩], fun v _ => v)] : List (List (MultiLS 2) × _)).foldlM
      (fun h r => nwUpdateHypers (.normalMean 0 1 1 1 3) h r.1 r.2 g1 g2 g3) h =
        .ok { h with mean := m } := by
  obtain ⟨h, hh⟩ : ∃ h : NW 2, nwInit (.normalMean 0 1 1 1 3) = .ok h := by
    classical
    have h1 : (1 : Matrix (Fin 2) (Fin 2) ℝ).PosDef := Matrix.PosDef.one
    have h2 : ¬ (3 : ℝ) ≤ 2 - 1 := by norm_num
    have h3 : ¬ (1 : ℝ) ≤ 0 := by norm_num
    simp [nwInit, checkSpd, nwFinish, inverseSpd, h1, h2, h3]
  obtain ⟨m, hm⟩ := c79_nw_normal_mean_never_fails 0 1 1 1 3 h hh g1 g2 g3
    [([], fun _ _ => 0), ([⟨0, 1, 1, 0⟩], fun v _ => v)] (by
      intro r hr st hst
      fin_cases hr
      · cases hst
      · simp only [List.mem_singleton] at hst
        rw [hst]
        exact Matrix.PosDef.one)
  exact ⟨h, m, hh, hm⟩

end Bayesmix.Hierarchies
