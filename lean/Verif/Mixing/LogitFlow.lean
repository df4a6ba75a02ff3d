import Verif.Mixing.LogitLaw
import Mathlib.Analysis.SpecialFunctions.Gaussian.GaussianIntegral
import Mathlib.MeasureTheory.Measure.OpenPos
import Mathlib.MeasureTheory.Measure.Haar.NormedSpace

/-!
# Flows of the update of a column with a normal target

`flow a P v x y` is, up to a constant, the density of moves from `x` to `y` of a column, in
deviations from the prior mean, with target precision `P`, proposal mean `(1 - a) x` and proposal
variance `v`.
-/

namespace Bayesmix.Mixing

open Real MeasureTheory

variable {d : ℕ}

/-- Squared length. -/
def nsq (x : Fin d → ℝ) : ℝ := ∑ i, x i ^ 2

theorem nsq_nonneg (x : Fin d → ℝ) : 0 ≤ nsq x := Finset.sum_nonneg fun i _ => sq_nonneg _

theorem nsq_smul (c : ℝ) (x : Fin d → ℝ) : nsq (c • x) = c ^ 2 * nsq x := by
  unfold nsq
  rw [Finset.mul_sum]
  exact Finset.sum_congr rfl fun i _ => by simp only [Pi.smul_apply, smul_eq_mul]; ring

theorem nsq_neg (x : Fin d → ℝ) : nsq (-x) = nsq x := by
  unfold nsq
  exact Finset.sum_congr rfl fun i _ => by simp only [Pi.neg_apply]; ring

theorem nsq_continuous : Continuous (nsq : (Fin d → ℝ) → ℝ) := by
  unfold nsq
  fun_prop

/-- Density of the moves from `x` to `y`. -/
noncomputable def flow (a P v : ℝ) (x y : Fin d → ℝ) : ℝ :=
  exp (-(max (P * nsq x + nsq (y - (1 - a) • x) / v) (P * nsq y + nsq (a • x) / v)) / 2)

variable {a P v : ℝ}

theorem flow_continuous (a P v : ℝ) :
    Continuous fun p : (Fin d → ℝ) × (Fin d → ℝ) => flow a P v p.1 p.2 := by
  have h := nsq_continuous (d := d)
  have h1 : Continuous fun p : (Fin d → ℝ) × (Fin d → ℝ) => nsq p.1 := h.comp (by fun_prop)
  have h2 : Continuous fun p : (Fin d → ℝ) × (Fin d → ℝ) => nsq p.2 := h.comp (by fun_prop)
  have h3 : Continuous fun p : (Fin d → ℝ) × (Fin d → ℝ) => nsq (p.2 - (1 - a) • p.1) :=
    h.comp (by fun_prop)
  have h4 : Continuous fun p : (Fin d → ℝ) × (Fin d → ℝ) => nsq (a • p.1) := h.comp (by fun_prop)
  unfold flow
  fun_prop

theorem flow_pos (x y : Fin d → ℝ) : 0 < flow a P v x y := exp_pos _

theorem flow_le_in (hP : 0 < P) (x y : Fin d → ℝ) :
    flow a P v x y ≤ exp (-(a ^ 2 / v / 2) * nsq x) := by
  unfold flow
  rw [exp_le_exp]
  have h1 := le_max_right (P * nsq x + nsq (y - (1 - a) • x) / v) (P * nsq y + nsq (a • x) / v)
  have h2 : 0 ≤ P * nsq y := mul_nonneg hP.le (nsq_nonneg y)
  have h3 : nsq (a • x) / v = a ^ 2 / v * nsq x := by rw [nsq_smul]; ring
  linarith

theorem flow_le_out (hv : 0 < v) (x y : Fin d → ℝ) :
    flow a P v y x ≤ exp (-(P / 2) * nsq x) := by
  unfold flow
  rw [exp_le_exp]
  have h1 := le_max_right (P * nsq y + nsq (x - (1 - a) • y) / v) (P * nsq x + nsq (a • y) / v)
  have h2 : 0 ≤ nsq (a • y) / v := div_nonneg (nsq_nonneg _) hv.le
  linarith

theorem exp_nsq (b : ℝ) (x : Fin d → ℝ) : exp (-b * nsq x) = ∏ i, exp (-b * x i ^ 2) := by
  unfold nsq
  rw [Finset.mul_sum, exp_sum]

theorem gauss_nsq_integrable {b : ℝ} (hb : 0 < b) :
    Integrable fun x : Fin d → ℝ => exp (-b * nsq x) := by
  simp only [exp_nsq]
  exact Integrable.fintype_prod (f := fun _ : Fin d => fun x : ℝ => exp (-b * x ^ 2))
    (fun _ => integrable_exp_neg_mul_sq hb)

theorem gauss_nsq_integral (b : ℝ) :
    ∫ x : Fin d → ℝ, exp (-b * nsq x) = sqrt (π / b) ^ d := by
  simp only [exp_nsq]
  rw [integral_fintype_prod_volume_eq_prod (fun _ : Fin d => fun x : ℝ => exp (-b * x ^ 2))]
  simp only [integral_gaussian]
  rw [Finset.prod_const, Finset.card_univ, Fintype.card_fin]

theorem flow_continuous_right (x : Fin d → ℝ) : Continuous fun y => flow a P v x y :=
  Continuous.comp (g := fun p : (Fin d → ℝ) × (Fin d → ℝ) => flow a P v p.1 p.2)
    (f := fun y : Fin d → ℝ => (x, y)) (flow_continuous a P v) (by fun_prop)

theorem flow_continuous_left (y : Fin d → ℝ) : Continuous fun x => flow a P v x y :=
  Continuous.comp (g := fun p : (Fin d → ℝ) × (Fin d → ℝ) => flow a P v p.1 p.2)
    (f := fun x : Fin d → ℝ => (x, y)) (flow_continuous a P v) (by fun_prop)

theorem flow_in_integrable (ha : 0 < a) (hP : 0 < P) (hv : 0 < v) (y : Fin d → ℝ) :
    Integrable fun x => flow a P v x y := by
  refine (gauss_nsq_integrable (b := a ^ 2 / v / 2) (by positivity)).mono'
    (flow_continuous_left y).aestronglyMeasurable
    (Filter.Eventually.of_forall fun x => ?_)
  rw [Real.norm_eq_abs, abs_of_pos (flow_pos x y)]
  exact flow_le_in hP x y

theorem flow_out_integrable (hP : 0 < P) (hv : 0 < v) (y : Fin d → ℝ) :
    Integrable fun x => flow a P v y x := by
  refine (gauss_nsq_integrable (b := P / 2) (by positivity)).mono'
    (flow_continuous_right y).aestronglyMeasurable
    (Filter.Eventually.of_forall fun x => ?_)
  rw [Real.norm_eq_abs, abs_of_pos (flow_pos y x)]
  exact flow_le_out hv x y

theorem flow_in_continuous (ha : 0 < a) (hP : 0 < P) (hv : 0 < v) :
    Continuous fun y : Fin d → ℝ => ∫ x, flow a P v x y := by
  refine continuous_of_dominated (bound := fun x => exp (-(a ^ 2 / v / 2) * nsq x))
    (fun y => (flow_in_integrable ha hP hv y).aestronglyMeasurable)
    (fun y => Filter.Eventually.of_forall fun x => ?_)
    (gauss_nsq_integrable (by positivity))
    (Filter.Eventually.of_forall fun x => flow_continuous_right x)
  rw [Real.norm_eq_abs, abs_of_pos (flow_pos x y)]
  exact flow_le_in hP x y

theorem flow_out_continuous (hP : 0 < P) (hv : 0 < v) :
    Continuous fun y : Fin d → ℝ => ∫ x, flow a P v y x := by
  refine continuous_of_dominated (bound := fun x => exp (-(P / 2) * nsq x))
    (fun y => (flow_out_integrable hP hv y).aestronglyMeasurable)
    (fun y => Filter.Eventually.of_forall fun x => ?_)
    (gauss_nsq_integrable (by positivity))
    (Filter.Eventually.of_forall fun x => flow_continuous_left x)
  rw [Real.norm_eq_abs, abs_of_pos (flow_pos y x)]
  exact flow_le_out hv x y

/-- Flows that agree almost everywhere agree everywhere. -/
theorem flow_everywhere (ha : 0 < a) (hP : 0 < P) (hv : 0 < v)
    (h : ∀ᵐ y : Fin d → ℝ,
      ∫⁻ x, ENNReal.ofReal (flow a P v x y) = ∫⁻ x, ENNReal.ofReal (flow a P v y x))
    (y : Fin d → ℝ) : ∫ x, flow a P v x y = ∫ x, flow a P v y x := by
  have h' : (fun y : Fin d → ℝ => ∫ x, flow a P v x y) =ᵐ[volume]
      fun y => ∫ x, flow a P v y x := by
    filter_upwards [h] with y hy
    rw [← ofReal_integral_eq_lintegral_ofReal (flow_in_integrable ha hP hv y)
      (Filter.Eventually.of_forall fun x => (flow_pos x y).le),
      ← ofReal_integral_eq_lintegral_ofReal (flow_out_integrable hP hv y)
      (Filter.Eventually.of_forall fun x => (flow_pos y x).le)] at hy
    exact (ENNReal.ofReal_eq_ofReal_iff (integral_nonneg fun x => (flow_pos x y).le)
      (integral_nonneg fun x => (flow_pos y x).le)).mp hy
  exact congrFun ((Continuous.ae_eq_iff_eq volume (flow_in_continuous ha hP hv)
    (flow_out_continuous hP hv)).mp h') y

/-- At the mean the flows agree only if the step times the precision is one, or if the proposal
keeps the target by itself. -/
theorem flow_zero (hd : 0 < d) (ha : 0 < a) (hP : 0 < P) (hv : 0 < v)
    (h : ∫ x : Fin d → ℝ, flow a P v x 0 = ∫ x : Fin d → ℝ, flow a P v 0 x) :
    a = 1 ∨ (a < 1 ∧ v * P = a * (2 - a)) := by
  have hz : nsq (0 : Fin d → ℝ) = 0 := by simp [nsq]
  have e1 : ∀ x : Fin d → ℝ, flow a P v x 0 =
      exp (-(max (P + (1 - a) ^ 2 / v) (a ^ 2 / v) / 2) * nsq x) := by
    intro x
    unfold flow
    have h1 : P * nsq x + nsq (0 - (1 - a) • x) / v = (P + (1 - a) ^ 2 / v) * nsq x := by
      rw [zero_sub, nsq_neg, nsq_smul]; ring
    have h2 : P * nsq (0 : Fin d → ℝ) + nsq (a • x) / v = a ^ 2 / v * nsq x := by rw [hz, nsq_smul]; ring
    rw [h1, h2, ← max_mul_of_nonneg _ _ (nsq_nonneg x)]
    congr 1
    ring
  have e2 : ∀ x : Fin d → ℝ, flow a P v 0 x = exp (-(max (1 / v) P / 2) * nsq x) := by
    intro x
    unfold flow
    have h1 : P * nsq (0 : Fin d → ℝ) + nsq (x - (1 - a) • 0) / v = 1 / v * nsq x := by
      rw [hz, smul_zero, sub_zero]; ring
    have h2 : P * nsq x + nsq (a • (0 : Fin d → ℝ)) / v = P * nsq x := by
      rw [smul_zero, hz]; ring
    rw [h1, h2, ← max_mul_of_nonneg _ _ (nsq_nonneg x)]
    congr 1
    ring
  simp only [e1, e2] at h
  rw [gauss_nsq_integral, gauss_nsq_integral] at h
  have hM1 : 0 < max (P + (1 - a) ^ 2 / v) (a ^ 2 / v) := lt_max_of_lt_left (by positivity)
  have hM2 : 0 < max (1 / v) P := lt_max_of_lt_right hP
  have h3 : max (P + (1 - a) ^ 2 / v) (a ^ 2 / v) = max (1 / v) P := by
    have h := (pow_left_inj₀ (sqrt_nonneg _) (sqrt_nonneg _) hd.ne').mp h
    have := (Real.sqrt_inj (by positivity) (by positivity)).mp h
    rw [div_eq_div_iff (by positivity) (by positivity)] at this
    have := mul_left_cancel₀ pi_pos.ne' this
    linarith
  by_cases ha1 : a = 1
  · exact Or.inl ha1
  right
  have hsq : 0 < (1 - a) ^ 2 / v := by
    have : (1 - a) ≠ 0 := fun h => ha1 (by linarith)
    positivity
  have h4 : P + (1 - a) ^ 2 / v ≤ max (1 / v) P := h3 ▸ le_max_left _ _
  have h5 : a ^ 2 / v ≤ max (1 / v) P := h3 ▸ le_max_right _ _
  have h6 : max (1 / v) P = 1 / v := by
    rcases le_total (1 / v) P with h | h
    · rw [max_eq_right h] at h4
      linarith
    · exact max_eq_left h
  rw [h6] at h3 h5
  have h7 : a ^ 2 ≤ 1 := by
    rwa [div_le_div_iff_of_pos_right hv] at h5
  have h8 : a < 1 := lt_of_le_of_ne (by nlinarith) ha1
  refine ⟨h8, ?_⟩
  rcases max_choice (P + (1 - a) ^ 2 / v) (a ^ 2 / v) with hm | hm
  · rw [hm] at h3
    field_simp at h3
    nlinarith
  · rw [hm, div_left_inj' hv.ne'] at h3
    nlinarith

/-- Positive inside the sphere with diameter from `r y` to `y`. -/
def cap (r : ℝ) (y x : Fin d → ℝ) : ℝ := ∑ i, (x i - r * y i) * (y i - x i)

theorem cap_continuous (r : ℝ) (y : Fin d → ℝ) : Continuous (cap r y) := by
  unfold cap
  fun_prop

theorem cap_bound (r : ℝ) (y x : Fin d → ℝ) (h : 0 < cap r y x) :
    nsq x ≤ (1 + r ^ 2) * nsq y := by
  have : 2 * cap r y x + nsq x ≤ (1 + r ^ 2) * nsq y := by
    unfold cap nsq
    rw [Finset.mul_sum, Finset.mul_sum, ← Finset.sum_add_distrib]
    refine Finset.sum_le_sum fun i _ => ?_
    nlinarith [sq_nonneg (x i - (1 + r) * y i)]
  linarith

theorem cap_support (r : ℝ) (y : Fin d → ℝ) :
    HasCompactSupport fun x => max 0 (cap r y x) := by
  obtain ⟨R, hR⟩ : ∃ R, R = sqrt ((1 + r ^ 2) * nsq y) := ⟨_, rfl⟩
  refine HasCompactSupport.intro (K := Set.univ.pi fun _ => Set.Icc (-R) R)
    (isCompact_univ_pi fun _ => isCompact_Icc) fun x hx => ?_
  refine max_eq_left (not_lt.mp fun h => hx fun i _ => ?_)
  have h1 := cap_bound r y x h
  have h2 : x i ^ 2 ≤ nsq x :=
    Finset.single_le_sum (f := fun i => x i ^ 2) (fun i _ => sq_nonneg _) (Finset.mem_univ i)
  have h3 : |x i| ≤ R := by
    rw [hR]
    exact Real.abs_le_sqrt (h2.trans h1)
  exact abs_le.mp h3

theorem cap_scale {r : ℝ} (hr : r ≠ 0) (y x : Fin d → ℝ) :
    ∑ i, (x i - y i) * (y i / r - x i) = cap r y (r • x) / r ^ 2 := by
  unfold cap
  rw [Finset.sum_div]
  refine Finset.sum_congr rfl fun i _ => ?_
  simp only [Pi.smul_apply, smul_eq_mul]
  field_simp

set_option maxHeartbeats 1000000 in
/-- The flows also differ if the proposal keeps the target by itself. -/
theorem flow_special (hd : 0 < d) (ha : 0 < a) (ha1 : a < 1) (hv : 0 < v) (hP : 0 < P)
    (hvP : v * P = a * (2 - a)) :
    ∃ y : Fin d → ℝ, ∫ x, flow a P v x y ≠ ∫ x, flow a P v y x := by
  obtain ⟨r, hr⟩ : ∃ r, r = (1 - a) / (1 + a) := ⟨_, rfl⟩
  have hr0 : 0 < r := by rw [hr]; exact div_pos (by linarith) (by linarith)
  have hr1 : r < 1 := by rw [hr, div_lt_one (by linarith)]; linarith
  have hra : (1 + a) * r = 1 - a := by rw [hr]; field_simp
  have hPv : P = a * (2 - a) / v := by rw [eq_div_iff hv.ne']; linarith
  have h1a : 0 < 1 - a := by linarith
  obtain ⟨κ, hκ⟩ : ∃ κ, κ = (a * (2 - a) * (1 + (1 / r) ^ 2) + a ^ 2) / v / 2 := ⟨_, rfl⟩
  have hκ0 : 0 < κ := by
    rw [hκ]
    have : 0 < 2 - a := by linarith
    positivity
  have hrr : 0 < 1 - r := by linarith
  -- the value at which the flows are compared
  have hd' : (0 : ℝ) < d := Nat.cast_pos.mpr hd
  obtain ⟨y, hy2⟩ : ∃ y : Fin d → ℝ, κ * nsq y = (1 - r) / 2 := by
    refine ⟨fun _ => sqrt ((1 - r) / 2 / κ / d), ?_⟩
    unfold nsq
    rw [Finset.sum_const, Finset.card_univ, Fintype.card_fin, sq_sqrt (by positivity), nsmul_eq_mul]
    field_simp
  have hy0 : 0 < nsq y := by
    by_contra hc
    have := nsq_nonneg y
    have : nsq y = 0 := le_antisymm (not_lt.mp hc) this
    rw [this] at hy2
    linarith
  -- the two exponents
  obtain ⟨A, hA⟩ : ∃ A : (Fin d → ℝ) → ℝ, A = fun x =>
    (∑ i, (x i ^ 2 + y i ^ 2 - 2 * (1 - a) * x i * y i)) / v := ⟨_, rfl⟩
  obtain ⟨B, hB⟩ : ∃ B : (Fin d → ℝ) → ℝ, B = fun x =>
    (∑ i, (a * (2 - a) * y i ^ 2 + a ^ 2 * x i ^ 2)) / v := ⟨_, rfl⟩
  obtain ⟨B', hB'⟩ : ∃ B' : (Fin d → ℝ) → ℝ, B' = fun x =>
    (∑ i, (a * (2 - a) * x i ^ 2 + a ^ 2 * y i ^ 2)) / v := ⟨_, rfl⟩
  have eA : ∀ x z : Fin d → ℝ, P * nsq x + nsq (z - (1 - a) • x) / v =
      (∑ i, (x i ^ 2 + z i ^ 2 - 2 * (1 - a) * x i * z i)) / v := by
    intro x z
    unfold nsq
    rw [hPv, div_mul_eq_mul_div, ← add_div, Finset.mul_sum, ← Finset.sum_add_distrib]
    congr 1
    refine Finset.sum_congr rfl fun i _ => ?_
    simp only [Pi.sub_apply, Pi.smul_apply, smul_eq_mul]
    ring
  have eB : ∀ x z : Fin d → ℝ, P * nsq z + nsq (a • x) / v =
      (∑ i, (a * (2 - a) * z i ^ 2 + a ^ 2 * x i ^ 2)) / v := by
    intro x z
    unfold nsq
    rw [hPv, div_mul_eq_mul_div, ← add_div, Finset.mul_sum, ← Finset.sum_add_distrib]
    congr 1
    refine Finset.sum_congr rfl fun i _ => ?_
    simp only [Pi.smul_apply, smul_eq_mul]
    ring
  have hin : ∀ x, flow a P v x y = exp (-(max (A x) (B x)) / 2) := by
    intro x; unfold flow; rw [eA, eB, hA, hB]
  have hout : ∀ x, flow a P v y x = exp (-(max (A x) (B' x)) / 2) := by
    intro x; unfold flow; rw [eA, eB, hA, hB']
    have : ∑ i, (y i ^ 2 + x i ^ 2 - 2 * (1 - a) * y i * x i) =
        ∑ i, (x i ^ 2 + y i ^ 2 - 2 * (1 - a) * x i * y i) :=
      Finset.sum_congr rfl fun i _ => by ring
    rw [this]
  have hA0 : ∀ x, 0 ≤ A x := by
    intro x
    rw [hA]
    refine div_nonneg (Finset.sum_nonneg fun i _ => ?_) hv.le
    have : 0 ≤ (x i - (1 - a) * y i) ^ 2 + a * (2 - a) * y i ^ 2 := by
      have : 0 < 2 - a := by linarith
      positivity
    linarith
  have hBA : ∀ x, B x - A x = (1 - a) * (1 + a) / v * cap r y x := by
    intro x
    rw [hA, hB]
    unfold cap
    dsimp only
    rw [← sub_div, ← Finset.sum_sub_distrib, div_mul_eq_mul_div, Finset.mul_sum]
    congr 1
    refine Finset.sum_congr rfl fun i _ => ?_
    have : (1 + a) * (x i - r * y i) = (1 + a) * x i - (1 - a) * y i := by rw [← hra]; ring
    have e : (1 - a) * (1 + a) * ((x i - r * y i) * (y i - x i)) =
      (1 - a) * ((1 + a) * (x i - r * y i)) * (y i - x i) := by ring
    rw [e, this]
    ring
  have hBA' : ∀ x, B' x - A x = (1 - a) ^ 2 / v * (cap r y (r • x) / r ^ 2) := by
    intro x
    rw [← cap_scale hr0.ne', hA, hB']
    dsimp only
    rw [← sub_div, ← Finset.sum_sub_distrib, div_mul_eq_mul_div, Finset.mul_sum]
    congr 1
    refine Finset.sum_congr rfl fun i _ => ?_
    have : (1 - a) * (y i / r - x i) = (1 + a) * y i - (1 - a) * x i := by
      rw [← hra]; field_simp
    have e : (1 - a) ^ 2 * ((x i - y i) * (y i / r - x i)) =
      (1 - a) * (x i - y i) * ((1 - a) * (y i / r - x i)) := by ring
    rw [e, this]
    ring
  obtain ⟨c1, hc1⟩ : ∃ c1, c1 = (1 - a) * (1 + a) / v / 2 := ⟨_, rfl⟩
  have hc1p : 0 < c1 := by rw [hc1]; positivity
  have hc2 : (1 - a) ^ 2 / v / 2 = r * c1 := by
    rw [hc1, hr]; field_simp
  obtain ⟨h1, hh1⟩ : ∃ h1 : (Fin d → ℝ) → ℝ, h1 = fun x => max 0 (cap r y x) := ⟨_, rfl⟩
  have hh1c : Continuous h1 := by
    rw [hh1]; exact continuous_const.max (cap_continuous r y)
  have hh1s : HasCompactSupport h1 := by rw [hh1]; exact cap_support r y
  have hh1i : Integrable h1 := hh1c.integrable_of_hasCompactSupport hh1s
  have hh1p : 0 < ∫ x, h1 x := by
    refine hh1c.integral_pos_of_hasCompactSupport_nonneg_nonzero hh1s
      (fun x => by rw [hh1]; exact le_max_left _ _) (x := ((1 + r) / 2) • y) ?_
    have : cap r y (((1 + r) / 2) • y) = ((1 - r) / 2) ^ 2 * nsq y := by
      unfold cap nsq
      rw [Finset.mul_sum]
      refine Finset.sum_congr rfl fun i _ => ?_
      simp only [Pi.smul_apply, smul_eq_mul]
      ring
    rw [hh1]
    dsimp only
    rw [this]
    exact (lt_max_of_lt_right (by positivity)).ne'
  have hh2i : Integrable fun x => h1 (r • x) := hh1i.comp_smul hr0.ne'
  have hh2 : ∫ x, h1 (r • x) = (r ^ d)⁻¹ * ∫ x, h1 x := by
    rw [Measure.integral_comp_smul, Module.finrank_fin_fun, abs_of_pos (by positivity), smul_eq_mul]
  have hexp : ∀ s t : ℝ, exp (-t / 2) * ((t - s) / 2) ≤ exp (-s / 2) - exp (-t / 2) := by
    intro s t
    have h1 := add_one_le_exp ((t - s) / 2)
    have h2 : exp (-s / 2) = exp (-t / 2) * exp ((t - s) / 2) := by
      rw [← exp_add]; congr 1; ring
    rw [h2]
    have := mul_le_mul_of_nonneg_left h1 (exp_pos (-t / 2)).le
    linarith
  have hle : ∀ x, (1 + r) / 2 * (r * c1) / r ^ 2 * h1 (r • x) - c1 * h1 x ≤
      flow a P v x y - flow a P v y x := by
    intro x
    rw [hin, hout]
    have k1 : exp (-A x / 2) - c1 * h1 x ≤ exp (-(max (A x) (B x)) / 2) := by
      have h0 := hBA x
      rw [hh1]
      dsimp only
      rcases le_total (cap r y x) 0 with hc | hc
      · have : B x ≤ A x := by
          have : (1 - a) * (1 + a) / v * cap r y x ≤ 0 :=
            mul_nonpos_of_nonneg_of_nonpos (by positivity) hc
          linarith
        rw [max_eq_left hc, max_eq_left this]
        linarith
      · have hab : A x ≤ B x := by
          have : 0 ≤ (1 - a) * (1 + a) / v * cap r y x := mul_nonneg (by positivity) hc
          linarith
        rw [max_eq_right hc, max_eq_right hab]
        have h4 := hexp (B x) (A x)
        have h5 : exp (-A x / 2) ≤ 1 := exp_le_one_iff.mpr (by linarith [hA0 x])
        have h6 : c1 * cap r y x = (B x - A x) / 2 := by rw [h0, hc1]; ring
        rw [h6]
        have h7 := mul_nonneg (sub_nonneg.mpr h5) (sub_nonneg.mpr hab)
        linarith
    have k2 : exp (-(max (A x) (B' x)) / 2) ≤
        exp (-A x / 2) - (1 + r) / 2 * (r * c1) / r ^ 2 * h1 (r • x) := by
      have h0 := hBA' x
      rw [hh1]
      dsimp only
      rcases le_or_gt (cap r y (r • x)) 0 with hc | hc
      · have : exp (-max (A x) (B' x) / 2) ≤ exp (-A x / 2) :=
          exp_le_exp.mpr (by linarith [le_max_left (A x) (B' x)])
        rw [max_eq_left hc]
        linarith
      · have hab : A x ≤ B' x := by
          have : 0 ≤ (1 - a) ^ 2 / v * (cap r y (r • x) / r ^ 2) := by positivity
          linarith
        rw [max_eq_right hc.le, max_eq_right hab]
        have hxb : nsq x ≤ (1 + (1 / r) ^ 2) * nsq y := by
          have := cap_bound r y _ hc
          rw [nsq_smul] at this
          have hr2 : 0 < r ^ 2 := by positivity
          have e : (1 + (1 / r) ^ 2) * nsq y = (1 + r ^ 2) * nsq y / r ^ 2 := by
            field_simp
            ring
          rw [e, le_div_iff₀ hr2]
          linarith
        have h3 : B' x / 2 ≤ (1 - r) / 2 := by
          rw [← hy2, hκ, hB']
          dsimp only
          rw [Finset.sum_add_distrib, ← Finset.mul_sum, ← Finset.mul_sum]
          change (a * (2 - a) * nsq x + a ^ 2 * nsq y) / v / 2 ≤ _
          have e : (a * (2 - a) * (1 + (1 / r) ^ 2) + a ^ 2) / v / 2 * nsq y =
              (a * (2 - a) * ((1 + (1 / r) ^ 2) * nsq y) + a ^ 2 * nsq y) / v / 2 := by ring
          rw [e]
          have h7 := mul_le_mul_of_nonneg_left hxb (mul_pos ha (show 0 < 2 - a by linarith)).le
          refine div_le_div_of_nonneg_right (div_le_div_of_nonneg_right ?_ hv.le) zero_le_two
          linarith
        have h4 := hexp (A x) (B' x)
        have h5 : (1 + r) / 2 ≤ exp (-B' x / 2) := by
          have := add_one_le_exp (-B' x / 2)
          linarith
        have h6 : (1 + r) / 2 * (r * c1) / r ^ 2 * cap r y (r • x) =
            (1 + r) / 2 * ((B' x - A x) / 2) := by rw [h0, ← hc2]; ring
        rw [h6]
        have h7 := mul_le_mul_of_nonneg_right h5 (show 0 ≤ (B' x - A x) / 2 by linarith)
        linarith
    linarith
  refine ⟨y, fun h => ?_⟩
  have g1 := flow_in_integrable ha hP hv y
  have g2 := flow_out_integrable (a := a) hP hv y
  have i1 := hh2i.const_mul ((1 + r) / 2 * (r * c1) / r ^ 2)
  have i2 := hh1i.const_mul c1
  have h3 := integral_mono (i1.sub i2) (g1.sub g2) hle
  simp only [Pi.sub_apply] at h3
  rw [integral_sub g1 g2, h, sub_self, integral_sub i1 i2, integral_const_mul, integral_const_mul,
    hh2] at h3
  have hrd : 1 ≤ (r ^ d)⁻¹ * r := by
    rw [inv_mul_eq_div, one_le_div (by positivity)]
    calc r ^ d ≤ r ^ 1 := pow_le_pow_of_le_one hr0.le hr1.le hd
      _ = r := pow_one r
  have e : (1 + r) / 2 * (r * c1) / r ^ 2 * ((r ^ d)⁻¹ * ∫ x, h1 x) =
      (1 + r) / 2 / r ^ 2 * ((r ^ d)⁻¹ * r) * (c1 * ∫ x, h1 x) := by ring
  rw [e] at h3
  have hI : 0 < c1 * ∫ x, h1 x := mul_pos hc1p hh1p
  have hgt : 1 < (1 + r) / 2 / r ^ 2 := by
    rw [one_lt_div (by positivity)]
    nlinarith
  have : 1 < (1 + r) / 2 / r ^ 2 * ((r ^ d)⁻¹ * r) := by
    calc (1 : ℝ) < (1 + r) / 2 / r ^ 2 := hgt
      _ ≤ _ := le_mul_of_one_le_right (by positivity) hrd
  nlinarith

/-- The flows agree almost everywhere only if the step times the precision is one. -/
theorem flow_eq_one (hd : 0 < d) (ha : 0 < a) (hP : 0 < P) (hv : 0 < v)
    (h : ∀ᵐ y : Fin d → ℝ, ∫⁻ x, ENNReal.ofReal (flow a P v x y) =
      ∫⁻ x, ENNReal.ofReal (flow a P v y x)) : a = 1 := by
  have h' := flow_everywhere ha hP hv h
  rcases flow_zero hd ha hP hv (h' 0) with h1 | ⟨h1, h2⟩
  · exact h1
  · obtain ⟨y, hy⟩ := flow_special hd ha h1 hv hP h2
    exact absurd (h' y) hy

end Bayesmix.Mixing
