import Mathlib.Probability.Distributions.Beta
import Mathlib.Probability.Distributions.Exponential
import Mathlib.Probability.Distributions.Gamma
import Verif.Algo.PropsGibbsVals
import Verif.Hier.ShareLemmas

/-!
# The law of the update of the total mass
-/

namespace Bayesmix.Chain
open Bayesmix Gibbs SplitMerge Hierarchies Mixing MeasureTheory ENNReal Set

/-- A generator with two parameters has the law `law`, if the parameters are positive. -/
structure GenLaw {Z : Type} [MeasurableSpace Z] (ζ : Measure Z) (gen : Z → ℝ → ℝ → ℝ)
    (law : ℝ → ℝ → Measure ℝ) : Prop where
  prob : IsProbabilityMeasure ζ
  meas : ∀ a r, 0 < a → 0 < r → Measurable fun z => gen z a r
  law : ∀ a r, 0 < a → 0 < r → ζ.map (fun z => gen z a r) = law a r

theorem GenLaw.lintegral {Z : Type} [MeasurableSpace Z] {ζ : Measure Z} {gen : Z → ℝ → ℝ → ℝ}
    {law : ℝ → ℝ → Measure ℝ} (h : GenLaw ζ gen law) {a r : ℝ} (ha : 0 < a) (hr : 0 < r)
    {f : ℝ → ℝ≥0∞} (hf : Measurable f) : ∫⁻ z, f (gen z a r) ∂ζ = ∫⁻ x, f x ∂law a r := by
  rw [← h.law a r ha hr, lintegral_map hf (h.meas a r ha hr)]

/-- The mean of `g` after `DirichletMixing::update_state` with a gamma prior
(`src/mixings/dirichlet_mixing.cc` 14-46): the auxiliary variable is made from the seed `z`, the
uniform value is `p`, the new total mass is made from the seed `w`; infinite where the update fails. -/
noncomputable def massMean {Z W : Type} [MeasurableSpace Z] [MeasurableSpace W]
    (phi : Z → ℝ → ℝ → ℝ) (ζ : Measure Z) (gen : W → ℝ → ℝ → ℝ) (ω : Measure W) (a b : ℝ) (n k : ℕ)
    (g : DPState → ℝ≥0∞) (s : DPState) : ℝ≥0∞ :=
  ∫⁻ z, ∫⁻ p in Ioo (0 : ℝ) 1, ∫⁻ w, (match dpUpdate s (.gamma a b) n k (phi z) p (gen w) with
    | .error _ => ∞
    | .ok s' => g s') ∂ω ∂volume ∂ζ

theorem lintegral_gammaMeasure {a r : ℝ} (ha : 0 < a) (hr : 0 < r) {g : ℝ → ℝ≥0∞} (hg : Measurable g) :
    ∫⁻ x, g x ∂ProbabilityTheory.gammaMeasure a r =
      ∫⁻ x in Ioi (0 : ℝ), ENNReal.ofReal (r ^ a / Real.Gamma a * x ^ (a - 1) * Real.exp (-(r * x))) *
        g x := by
  have hm : Measurable (ProbabilityTheory.gammaPDF a r) :=
    ENNReal.measurable_ofReal.comp (ProbabilityTheory.measurable_gammaPDFReal a r)
  rw [ProbabilityTheory.gammaMeasure, lintegral_withDensity_eq_lintegral_mul _ hm hg,
    ← lintegral_add_compl _ (measurableSet_Ici (a := (0 : ℝ)))]
  have h0 : ∫⁻ x in (Ici (0 : ℝ))ᶜ, (ProbabilityTheory.gammaPDF a r * g) x = 0 := by
    rw [lintegral_eq_zero_iff (hm.mul hg)]
    refine (ae_restrict_iff' measurableSet_Ici.compl).2 (Filter.Eventually.of_forall fun x hx => ?_)
    simp only [mem_compl_iff, mem_Ici, not_le] at hx
    simp [ProbabilityTheory.gammaPDF_of_neg hx]
  rw [h0, add_zero, ← restrict_Ioi_eq_restrict_Ici]
  refine setLIntegral_congr_fun measurableSet_Ioi fun x hx => ?_
  simp only [Pi.mul_apply]
  rw [ProbabilityTheory.gammaPDF_of_nonneg (le_of_lt hx)]

theorem ae_gammaMeasure (a r : ℝ) : ∀ᵐ x ∂ProbabilityTheory.gammaMeasure a r, 0 < x := by
  have hm : Measurable (ProbabilityTheory.gammaPDF a r) :=
    ENNReal.measurable_ofReal.comp (ProbabilityTheory.measurable_gammaPDFReal a r)
  rw [ProbabilityTheory.gammaMeasure, ae_withDensity_iff hm]
  have h0 : ∀ᵐ x : ℝ, x ≠ 0 := by simp [ae_iff]
  filter_upwards [h0] with x hx hp
  rcases lt_or_gt_of_ne hx with h | h
  · exact absurd (ProbabilityTheory.gammaPDF_of_neg h) hp
  · exact h

theorem ae_betaMeasure (a r : ℝ) : ∀ᵐ x ∂ProbabilityTheory.betaMeasure a r, 0 < x ∧ x < 1 := by
  have hm : Measurable (ProbabilityTheory.betaPDF a r) :=
    ENNReal.measurable_ofReal.comp (ProbabilityTheory.measurable_betaPDFReal a r)
  rw [ProbabilityTheory.betaMeasure, ae_withDensity_iff hm]
  refine Filter.Eventually.of_forall fun x hp => ⟨?_, ?_⟩
  · by_contra h
    exact hp (ProbabilityTheory.betaPDF_eq_zero_of_nonpos (not_lt.1 h))
  · by_contra h
    exact hp (ProbabilityTheory.betaPDF_eq_zero_of_one_le (not_lt.1 h))

theorem lintegral_betaMeasure (a r : ℝ) {g : ℝ → ℝ≥0∞} (hg : Measurable g) :
    ∫⁻ x, g x ∂ProbabilityTheory.betaMeasure a r =
      ∫⁻ x in Ioo (0 : ℝ) 1,
        ENNReal.ofReal (1 / ProbabilityTheory.beta a r * x ^ (a - 1) * (1 - x) ^ (r - 1)) * g x := by
  have hm : Measurable (ProbabilityTheory.betaPDF a r) :=
    ENNReal.measurable_ofReal.comp (ProbabilityTheory.measurable_betaPDFReal a r)
  rw [ProbabilityTheory.betaMeasure, lintegral_withDensity_eq_lintegral_mul _ hm hg,
    ← lintegral_add_compl _ (measurableSet_Ioo (a := (0 : ℝ)) (b := 1))]
  have h0 : ∫⁻ x in (Ioo (0 : ℝ) 1)ᶜ, (ProbabilityTheory.betaPDF a r * g) x = 0 := by
    rw [lintegral_eq_zero_iff (hm.mul hg)]
    refine (ae_restrict_iff' measurableSet_Ioo.compl).2 (Filter.Eventually.of_forall fun x hx => ?_)
    have : ProbabilityTheory.betaPDF a r x = 0 := by
      by_cases h : x ≤ 0
      · exact ProbabilityTheory.betaPDF_eq_zero_of_nonpos h
      · refine ProbabilityTheory.betaPDF_eq_zero_of_one_le ?_
        by_contra h1
        exact hx ⟨not_le.1 h, not_le.1 h1⟩
    simp [this]
  rw [h0, add_zero]
  refine setLIntegral_congr_fun measurableSet_Ioo fun x hx => ?_
  simp only [Pi.mul_apply]
  rw [ProbabilityTheory.betaPDF_of_pos_lt_one hx.1 hx.2]

theorem lintegral_threshold {q : ℝ} (h0 : 0 ≤ q) (h1 : q ≤ 1) (u v : ℝ≥0∞) :
    ∫⁻ p in Ioo (0 : ℝ) 1, (if p ≤ q then u else v) =
      ENNReal.ofReal q * u + ENNReal.ofReal (1 - q) * v := by
  have e : (fun p : ℝ => if p ≤ q then u else v) =
      fun p => (Iic q).indicator (fun _ => u) p + (Ioi q).indicator (fun _ => v) p := by
    funext p
    by_cases h : p ≤ q
    · simp [h]
    · simp [h, not_le.1 h]
  rw [e, lintegral_add_left (measurable_const.indicator measurableSet_Iic),
    lintegral_indicator measurableSet_Iic, lintegral_indicator measurableSet_Ioi,
    setLIntegral_const, setLIntegral_const, Measure.restrict_apply measurableSet_Iic,
    Measure.restrict_apply measurableSet_Ioi, mul_comm u, mul_comm v]
  congr 2
  · rcases h1.lt_or_eq with h | h
    · have : Iic q ∩ Ioo 0 1 = Ioc 0 q := by
        ext x
        simp only [mem_inter_iff, mem_Iic, mem_Ioo, mem_Ioc]
        constructor
        · rintro ⟨a, b, c⟩; exact ⟨b, a⟩
        · rintro ⟨a, b⟩; exact ⟨b, a, by linarith⟩
      rw [this, Real.volume_Ioc, sub_zero]
    · have : Iic q ∩ Ioo 0 1 = Ioo 0 1 := by
        rw [h]
        refine inter_eq_right.2 fun x hx => le_of_lt hx.2
      rw [this, Real.volume_Ioo, sub_zero, h]
  · have : Ioi q ∩ Ioo 0 1 = Ioo q 1 := by
      ext x
      simp only [mem_inter_iff, mem_Ioi, mem_Ioo]
      constructor
      · rintro ⟨a, b, c⟩; exact ⟨a, c⟩
      · rintro ⟨a, b⟩; exact ⟨a, by linarith, b⟩
    rw [this, Real.volume_Ioo]

/-- The joint density of total mass and auxiliary variable, in the total mass. -/
noncomputable def massJoint (A r n x : ℝ) : ℝ := x ^ (A - 1) * (x + n) * Real.exp (-(r * x))

/-- The mass of `massJoint`. -/
noncomputable def massConst (A r n : ℝ) : ℝ :=
  Real.Gamma A / r ^ A * (A / r + n)

/-- Given the auxiliary variable, the total mass is a mixture of two Gamma distributions. -/
theorem massJoint_mix {A r n : ℝ} (hA : 0 < A) (hr : 0 < r) (hn : 0 < n) {g : ℝ → ℝ≥0∞}
    (hg : Measurable g) :
    ∫⁻ x in Ioi (0 : ℝ), ENNReal.ofReal (massJoint A r n x) * g x =
      ENNReal.ofReal (massConst A r n) *
        (ENNReal.ofReal (A / (n * r) / (1 + A / (n * r))) *
            ∫⁻ x, g x ∂ProbabilityTheory.gammaMeasure (A + 1) r +
          ENNReal.ofReal (1 - A / (n * r) / (1 + A / (n * r))) *
            ∫⁻ x, g x ∂ProbabilityTheory.gammaMeasure A r) := by
  have hG := Real.Gamma_pos_of_pos hA
  have hrA : 0 < r ^ A := Real.rpow_pos_of_pos hr A
  have hod : 0 < A / (n * r) := by positivity
  have hq : 1 - A / (n * r) / (1 + A / (n * r)) = n * r / (n * r + A) := by field_simp; ring
  have hq' : A / (n * r) / (1 + A / (n * r)) = A / (n * r + A) := by field_simp
  have hm : ∀ c : ℝ, Measurable fun x : ℝ =>
      ENNReal.ofReal (c * x ^ A * Real.exp (-(r * x))) * g x := fun c =>
    (ENNReal.measurable_ofReal.comp (by fun_prop)).mul hg
  have hm' : ∀ c : ℝ, Measurable fun x : ℝ =>
      ENNReal.ofReal (c * x ^ (A - 1) * Real.exp (-(r * x))) * g x := fun c =>
    (ENNReal.measurable_ofReal.comp (by fun_prop)).mul hg
  have hC : 0 < massConst A r n := by unfold massConst; positivity
  rw [lintegral_gammaMeasure (by linarith) hr hg, lintegral_gammaMeasure hA hr hg, hq, hq']
  simp only [add_sub_cancel_right]
  rw [← lintegral_const_mul _ (hm _), ← lintegral_const_mul _ (hm' _),
    ← lintegral_add_left ((hm _).const_mul _)]
  have hsum : ∀ c c' d d' : _, Measurable fun x : ℝ =>
      c * (ENNReal.ofReal (d * x ^ A * Real.exp (-(r * x))) * g x) +
        c' * (ENNReal.ofReal (d' * x ^ (A - 1) * Real.exp (-(r * x))) * g x) := fun c c' d d' =>
    ((hm d).const_mul c).add ((hm' d').const_mul c')
  rw [← lintegral_const_mul _ (hsum _ _ _ _)]
  refine setLIntegral_congr_fun measurableSet_Ioi fun x hx => ?_
  have hx0 : 0 < x := hx
  have hxA : x ^ A = x ^ (A - 1) * x := by
    rw [← Real.rpow_add_one hx0.ne', sub_add_cancel]
  have hxp : 0 < x ^ (A - 1) := Real.rpow_pos_of_pos hx0 _
  rw [← mul_assoc, ← mul_assoc, ← add_mul, ← mul_assoc, ← ENNReal.ofReal_mul (by positivity),
    ← ENNReal.ofReal_mul (by positivity), ← ENNReal.ofReal_add, ← ENNReal.ofReal_mul hC.le]
  · congr 2
    rw [massJoint, massConst, Real.Gamma_add_one hA.ne', Real.rpow_add_one hr.ne', hxA]
    field_simp
    ring
  · have := Real.Gamma_pos_of_pos (by linarith : 0 < A + 1)
    rw [hxA]
    positivity
  · positivity

/-- The update, given a drawn auxiliary variable below one. -/
theorem mass_inner {W : Type} [MeasurableSpace W] {gen : W → ℝ → ℝ → ℝ} {ω : Measure W}
    (hw : GenLaw ω gen ProbabilityTheory.gammaMeasure) {a b : ℝ} (ha : 0 < a) (hb : 0 < b) {n k : ℕ}
    (hn : 0 < n) (hk : 0 < k) {g : DPState → ℝ≥0∞} {s : DPState} (hs : 0 < s.totalmass)
    (hg : Measurable fun x => g { s with totalmass := x }) {phi : ℝ → ℝ → ℝ}
    (h0 : 0 < phi (s.totalmass + 1) n) (h1 : phi (s.totalmass + 1) n < 1) :
    ∫⁻ p in Ioo (0 : ℝ) 1, ∫⁻ w, (match dpUpdate s (.gamma a b) n k phi p (gen w) with
        | .error _ => ∞
        | .ok s' => g s') ∂ω =
      (∫⁻ x in Ioi (0 : ℝ), ENNReal.ofReal (massJoint (a + k - 1)
          (b - Real.log (phi (s.totalmass + 1) n)) n x) * g { s with totalmass := x }) /
        ENNReal.ofReal (massConst (a + k - 1) (b - Real.log (phi (s.totalmass + 1) n)) n) := by
  obtain ⟨φ, hφ⟩ : ∃ φ, φ = phi (s.totalmass + 1) n := ⟨_, rfl⟩
  have hn' : (0 : ℝ) < n := by exact_mod_cast hn
  have hk' : (1 : ℝ) ≤ k := by exact_mod_cast hk
  have hr : 0 < b - Real.log φ := by
    have := Real.log_neg (hφ ▸ h0) (hφ ▸ h1)
    linarith
  have hA : 0 < a + k - 1 := by linarith
  have hod : 0 < (a + k - 1) / (n * (b - Real.log φ)) := by positivity
  have hC : 0 < massConst (a + k - 1) (b - Real.log φ) n := by
    have := Real.Gamma_pos_of_pos hA
    have := Real.rpow_pos_of_pos hr (a + k - 1)
    unfold massConst
    positivity
  rw [← hφ]
  have step : ∀ p, (∫⁻ w, (match dpUpdate s (.gamma a b) n k phi p (gen w) with
        | .error _ => ∞
        | .ok s' => g s') ∂ω) =
      if p ≤ (a + k - 1) / (n * (b - Real.log φ)) / (1 + (a + k - 1) / (n * (b - Real.log φ))) then
        ∫⁻ x, g { s with totalmass := x } ∂ProbabilityTheory.gammaMeasure (a + k) (b - Real.log φ)
      else ∫⁻ x, g { s with totalmass := x } ∂ProbabilityTheory.gammaMeasure (a + k - 1) (b - Real.log φ) := by
    intro p
    have hs1 : 0 < s.totalmass + 1 ∧ (0 : ℝ) < n := ⟨by linarith, hn'⟩
    have hA1 : 0 < a + k := by linarith
    split_ifs with hp
    · rw [← hw.lintegral hA1 hr hg]
      refine lintegral_congr fun w => ?_
      simp only [dpUpdate, gammaRng, hs1, and_self, if_true, ok_bind, dpUpdateParams, ← hφ, hp, hA1, hr]
    · rw [← hw.lintegral hA hr hg]
      refine lintegral_congr fun w => ?_
      simp only [dpUpdate, gammaRng, hs1, and_self, if_true, ok_bind, dpUpdateParams, ← hφ, hp, hA, hr,
        if_false]
  simp only [step]
  rw [lintegral_threshold (by positivity) ((div_le_one (by positivity)).2 (by linarith)),
    massJoint_mix hA hr hn' hg, sub_add_cancel, mul_comm (ENNReal.ofReal (massConst _ _ _)),
    ENNReal.mul_div_cancel_right (by simpa using hC) ENNReal.ofReal_ne_top]

/-- The probability of labels as a function of the total mass. -/
theorem dpPrior_mass {n : ℕ} (hn : 0 < n) (al : List ℕ) (hl : al.length = n) :
    ∃ C : ℝ, 0 ≤ C ∧ ∀ x : ℝ, 0 < x → dpPrior x al =
      C * x ^ ((al.toFinset.card : ℝ) - 1) * ((x + n) * ProbabilityTheory.beta (x + 1) n) := by
  have hne : al ≠ [] := by intro h; simp [h] at hl; omega
  have hK : 1 ≤ al.toFinset.card := by
    rw [Nat.one_le_iff_ne_zero, Ne, Finset.card_eq_zero, List.toFinset_eq_empty_iff]
    exact hne
  have hn' : (0 : ℝ) < n := by exact_mod_cast hn
  have hG := Real.Gamma_pos_of_pos hn'
  have hsize : 0 ≤ ∏ c ∈ al.toFinset, sizeW (pyB ⟨1, 0⟩) (membersIn (Finset.range al.length) al c) := by
    refine Finset.prod_nonneg fun c _ => ?_
    unfold sizeW pyB
    refine Finset.prod_nonneg fun i _ => ?_
    have : (0 : ℝ) ≤ i := Nat.cast_nonneg i
    simp only
    linarith
  refine ⟨(Real.Gamma n)⁻¹ *
    ∏ c ∈ al.toFinset, sizeW (pyB ⟨1, 0⟩) (membersIn (Finset.range al.length) al c),
    mul_nonneg (inv_nonneg.2 hG.le) hsize, fun x hx => ?_⟩
  have hGx : ∀ m : ℕ, Real.Gamma (x + (m + 1 : ℕ)) = Real.Gamma (x + 1) * pyD ⟨x, 0⟩ (m + 1) := by
    intro m
    induction m with
    | zero => simp [pyD]
    | succ m ih =>
      have e : x + ((m + 1 + 1 : ℕ) : ℝ) = x + ((m + 1 : ℕ) : ℝ) + 1 := by push_cast; ring
      have hp : x + ((m + 1 : ℕ) : ℝ) ≠ 0 := by positivity
      rw [e, Real.Gamma_add_one hp, ih]
      unfold pyD
      simp only [Nat.add_sub_cancel]
      rw [Finset.prod_range_succ]
      push_cast
      ring
  have hD : 0 < pyD ⟨x, 0⟩ n := pyD_pos (by simp only; linarith) n
  have hA : pyA ⟨x, 0⟩ al.toFinset.card = x ^ ((al.toFinset.card : ℝ) - 1) := by
    unfold pyA
    simp only [zero_mul, add_zero, Finset.prod_const, Finset.card_range]
    rw [← Real.rpow_natCast, Nat.cast_sub hK, Nat.cast_one]
  have hB : (x + n) * ProbabilityTheory.beta (x + 1) n = Real.Gamma n * (pyD ⟨x, 0⟩ n)⁻¹ := by
    have e : x + 1 + n = x + n + 1 := by ring
    have hG1 := Real.Gamma_pos_of_pos (by linarith : 0 < x + 1)
    have hxn : 0 < x + n := by linarith
    obtain ⟨m, rfl⟩ : ∃ m, n = m + 1 := ⟨n - 1, by omega⟩
    rw [ProbabilityTheory.beta, e, Real.Gamma_add_one hxn.ne', hGx m]
    field_simp
  rw [dpPrior_prod hx hn al hl, prodPost, hA, hB]
  field_simp

/-- With an auxiliary variable from a Beta distribution the update keeps the full conditional of the
total mass. -/
theorem mass_balance {Z W : Type} [MeasurableSpace Z] [MeasurableSpace W] {phi : Z → ℝ → ℝ → ℝ}
    {ζ : Measure Z} (hz : GenLaw ζ phi ProbabilityTheory.betaMeasure) {gen : W → ℝ → ℝ → ℝ}
    {ω : Measure W} (hw : GenLaw ω gen ProbabilityTheory.gammaMeasure) {a b : ℝ} (ha : 0 < a)
    (hb : 0 < b) {n : ℕ} (hn : 0 < n) (al : List ℕ) (hl : al.length = n) (l : ℝ)
    {g : DPState → ℝ≥0∞} (hg : Measurable fun x => g ⟨x, l⟩) :
    ∫⁻ x, massMean phi ζ gen ω a b n al.toFinset.card g ⟨x, l⟩ * ENNReal.ofReal (dpPrior x al)
        ∂ProbabilityTheory.gammaMeasure a b =
      ∫⁻ x, g ⟨x, l⟩ * ENNReal.ofReal (dpPrior x al) ∂ProbabilityTheory.gammaMeasure a b := by
  obtain ⟨K, hK⟩ : ∃ K, K = al.toFinset.card := ⟨_, rfl⟩
  have hne : al ≠ [] := by intro h; simp [h] at hl; omega
  have hK1 : 1 ≤ K := by
    rw [hK, Nat.one_le_iff_ne_zero, Ne, Finset.card_eq_zero, List.toFinset_eq_empty_iff]
    exact hne
  have hK' : (1 : ℝ) ≤ K := by exact_mod_cast hK1
  have hn' : (0 : ℝ) < n := by exact_mod_cast hn
  have hA : 0 < a + K - 1 := by linarith
  obtain ⟨C, hC0, hC⟩ := dpPrior_mass hn al hl
  rw [← hK] at hC ⊢
  have hJm : Measurable fun p : ℝ × ℝ => massJoint (a + K - 1) (b - Real.log p.1) n p.2 := by
    unfold massJoint
    fun_prop
  have hCm : Measurable fun φ : ℝ => massConst (a + K - 1) (b - Real.log φ) n := by
    unfold massConst
    fun_prop
  have hGm : Measurable fun p : ℝ × ℝ => g ⟨p.2, l⟩ := hg.comp measurable_snd
  obtain ⟨F, hF⟩ : ∃ F : ℝ → ℝ≥0∞, F = fun φ =>
    (∫⁻ y in Ioi (0 : ℝ), ENNReal.ofReal (massJoint (a + K - 1) (b - Real.log φ) n y) * g ⟨y, l⟩) /
      ENNReal.ofReal (massConst (a + K - 1) (b - Real.log φ) n) := ⟨_, rfl⟩
  have hFm : Measurable F := by
    have hn1 : Measurable fun p : ℝ × ℝ =>
        ENNReal.ofReal (massJoint (a + K - 1) (b - Real.log p.1) n p.2) * g ⟨p.2, l⟩ :=
      (ENNReal.measurable_ofReal.comp hJm).mul hGm
    rw [hF]
    exact (hn1.lintegral_prod_right' (ν := volume.restrict (Ioi (0 : ℝ)))).div
      (ENNReal.measurable_ofReal.comp hCm)
  -- the weight of a pair
  obtain ⟨Q, hQ⟩ : ∃ Q : ℝ → ℝ → ℝ, Q = fun x φ =>
    C * x ^ ((K : ℝ) - 1) * (x + n) * (Real.exp (x * Real.log φ) * (1 - φ) ^ ((n : ℝ) - 1)) := ⟨_, rfl⟩
  have hQm : Measurable fun p : ℝ × ℝ => Q p.1 p.2 := by
    rw [hQ]
    fun_prop
  have hbeta : ∀ x : ℝ, 0 < x → ∀ u : ℝ → ℝ≥0∞, Measurable u →
      (∫⁻ φ, u φ ∂ProbabilityTheory.betaMeasure (x + 1) n) * ENNReal.ofReal (dpPrior x al) =
        ∫⁻ φ in Ioo (0 : ℝ) 1, ENNReal.ofReal (Q x φ) * u φ := by
    intro x hx u hu
    have hB := ProbabilityTheory.beta_pos (by linarith : 0 < x + 1) hn'
    have hm1 : Measurable fun φ : ℝ => ENNReal.ofReal (1 / ProbabilityTheory.beta (x + 1) n *
        φ ^ (x + 1 - 1) * (1 - φ) ^ ((n : ℝ) - 1)) * u φ :=
      (ENNReal.measurable_ofReal.comp (by fun_prop)).mul hu
    rw [lintegral_betaMeasure _ _ hu, ← lintegral_mul_const _ hm1]
    refine setLIntegral_congr_fun measurableSet_Ioo fun φ hφ => ?_
    have h1 : 0 < 1 - φ := by linarith [hφ.2]
    have h2 : 0 < φ ^ (x + 1 - 1) := Real.rpow_pos_of_pos hφ.1 _
    have h3 : 0 < (1 - φ) ^ ((n : ℝ) - 1) := Real.rpow_pos_of_pos h1 _
    rw [mul_right_comm, ← ENNReal.ofReal_mul (by positivity), hC x hx, hQ]
    congr 2
    have h4 : φ ^ (x + 1 - 1) = Real.exp (x * Real.log φ) := by
      rw [add_sub_cancel_right, Real.rpow_def_of_pos hφ.1, mul_comm]
    rw [h4]
    field_simp
  have hmass : ∀ x : ℝ, 0 < x → massMean phi ζ gen ω a b n K g ⟨x, l⟩ =
      ∫⁻ φ, F φ ∂ProbabilityTheory.betaMeasure (x + 1) n := by
    intro x hx
    rw [← hz.lintegral (by linarith) hn' hFm, massMean]
    have hae : ∀ᵐ z ∂ζ, 0 < phi z (x + 1) n ∧ phi z (x + 1) n < 1 := by
      have := ae_betaMeasure (x + 1) n
      rw [← hz.law (x + 1) n (by linarith) hn'] at this
      exact ae_of_ae_map (hz.meas _ _ (by linarith) hn').aemeasurable this
    refine lintegral_congr_ae ?_
    filter_upwards [hae] with z hzz
    rw [mass_inner hw ha hb hn hK1 (s := ⟨x, l⟩) hx hg hzz.1 hzz.2, hF]
  -- both sides as integrals over pairs
  have key : ∀ u : ℝ → ℝ → ℝ≥0∞, (Measurable fun p : ℝ × ℝ => u p.1 p.2) → ∀ f : ℝ → ℝ≥0∞,
      (∀ x, 0 < x → f x = ∫⁻ φ in Ioo (0 : ℝ) 1, ENNReal.ofReal (Q x φ) * u x φ) →
      ∫⁻ x, f x ∂ProbabilityTheory.gammaMeasure a b =
        ∫⁻ φ in Ioo (0 : ℝ) 1, ENNReal.ofReal (b ^ a / Real.Gamma a * C * (1 - φ) ^ ((n : ℝ) - 1)) *
          ∫⁻ x in Ioi (0 : ℝ), ENNReal.ofReal (massJoint (a + K - 1) (b - Real.log φ) n x) * u x φ := by
    intro u hu f hf
    have hQu : Measurable fun p : ℝ × ℝ => ENNReal.ofReal (Q p.1 p.2) * u p.1 p.2 :=
      (ENNReal.measurable_ofReal.comp hQm).mul hu
    have hfm : Measurable fun x => ∫⁻ φ in Ioo (0 : ℝ) 1, ENNReal.ofReal (Q x φ) * u x φ :=
      hQu.lintegral_prod_right' (ν := volume.restrict (Ioo (0 : ℝ) 1))
    have e1 : ∫⁻ x, f x ∂ProbabilityTheory.gammaMeasure a b =
        ∫⁻ x, (∫⁻ φ in Ioo (0 : ℝ) 1, ENNReal.ofReal (Q x φ) * u x φ)
          ∂ProbabilityTheory.gammaMeasure a b := by
      refine lintegral_congr_ae ?_
      filter_upwards [ae_gammaMeasure a b] with x hx using hf x hx
    have hg1 : Measurable fun p : ℝ × ℝ => ENNReal.ofReal (b ^ a / Real.Gamma a * p.1 ^ (a - 1) *
        Real.exp (-(b * p.1))) * (ENNReal.ofReal (Q p.1 p.2) * u p.1 p.2) :=
      (ENNReal.measurable_ofReal.comp (by fun_prop)).mul hQu
    rw [e1, lintegral_gammaMeasure ha hb hfm]
    have e2 : ∀ x, ENNReal.ofReal (b ^ a / Real.Gamma a * x ^ (a - 1) * Real.exp (-(b * x))) *
        (∫⁻ φ in Ioo (0 : ℝ) 1, ENNReal.ofReal (Q x φ) * u x φ) =
        ∫⁻ φ in Ioo (0 : ℝ) 1, ENNReal.ofReal (b ^ a / Real.Gamma a * x ^ (a - 1) *
          Real.exp (-(b * x))) * (ENNReal.ofReal (Q x φ) * u x φ) := fun x =>
      (lintegral_const_mul _ (hQu.comp (measurable_prodMk_left (x := x)))).symm
    simp only [e2]
    rw [lintegral_lintegral_swap (f := fun x φ => ENNReal.ofReal (b ^ a / Real.Gamma a * x ^ (a - 1) *
          Real.exp (-(b * x))) * (ENNReal.ofReal (Q x φ) * u x φ)) hg1.aemeasurable]
    refine setLIntegral_congr_fun measurableSet_Ioo fun φ hφ => ?_
    have hm3 : Measurable fun x : ℝ =>
        ENNReal.ofReal (massJoint (a + K - 1) (b - Real.log φ) n x) * u x φ :=
      (ENNReal.measurable_ofReal.comp (hJm.comp (measurable_prodMk_left (x := φ)))).mul
        (hu.comp (measurable_prodMk_right (y := φ)))
    rw [← lintegral_const_mul _ hm3]
    refine setLIntegral_congr_fun measurableSet_Ioi fun x hx => ?_
    have hx0 : 0 < x := hx
    have h1 : 0 < 1 - φ := by linarith [hφ.2]
    have h3 : 0 < (1 - φ) ^ ((n : ℝ) - 1) := Real.rpow_pos_of_pos h1 _
    have hGa := Real.Gamma_pos_of_pos ha
    have hba := Real.rpow_pos_of_pos hb a
    have hxa := Real.rpow_pos_of_pos hx0 (a - 1)
    rw [← mul_assoc, ← mul_assoc, ← ENNReal.ofReal_mul (by positivity),
      ← ENNReal.ofReal_mul (by positivity)]
    congr 2
    have e3 : x ^ (a + K - 1 - 1) = x ^ (a - 1) * x ^ ((K : ℝ) - 1) := by
      rw [← Real.rpow_add hx0]
      congr 1
      ring
    have e4 : Real.exp (-((b - Real.log φ) * x)) = Real.exp (-(b * x)) * Real.exp (x * Real.log φ) := by
      rw [← Real.exp_add]
      congr 1
      ring
    rw [hQ, massJoint, e3, e4]
    ring
  rw [key (fun _ φ => F φ) (hFm.comp measurable_snd) _ fun x hx => by
      rw [hmass x hx]; exact hbeta x hx F hFm,
    key (fun x _ => g ⟨x, l⟩) (hg.comp measurable_fst) _ fun x hx => by
      have := hbeta x hx (fun _ => g ⟨x, l⟩) measurable_const
      have hp := ProbabilityTheory.isProbabilityMeasureBeta (by linarith : 0 < x + 1) hn'
      rwa [lintegral_const, measure_univ, mul_one] at this]
  refine setLIntegral_congr_fun measurableSet_Ioo fun φ hφ => ?_
  have hr : 0 < b - Real.log φ := by
    have := Real.log_neg hφ.1 hφ.2
    linarith
  have hMC : 0 < massConst (a + K - 1) (b - Real.log φ) n := by
    have := Real.Gamma_pos_of_pos hA
    have := Real.rpow_pos_of_pos hr (a + K - 1)
    unfold massConst
    positivity
  have hone : ∫⁻ x in Ioi (0 : ℝ), ENNReal.ofReal (massJoint (a + K - 1) (b - Real.log φ) n x) =
      ENNReal.ofReal (massConst (a + K - 1) (b - Real.log φ) n) := by
    have := massJoint_mix hA hr hn' (g := fun _ => 1) measurable_const
    have p1 := ProbabilityTheory.isProbabilityMeasure_gammaMeasure (by linarith : 0 < a + K - 1 + 1) hr
    have p2 := ProbabilityTheory.isProbabilityMeasure_gammaMeasure hA hr
    simp only [mul_one, lintegral_one, measure_univ] at this
    have hod : 0 < (a + K - 1) / (n * (b - Real.log φ)) := by positivity
    rw [this, ← ENNReal.ofReal_add (by positivity)
      (sub_nonneg.2 ((div_le_one (by positivity)).2 (by linarith)))]
    simp
  have hm4 : Measurable fun x : ℝ => ENNReal.ofReal (massJoint (a + K - 1) (b - Real.log φ) n x) :=
    ENNReal.measurable_ofReal.comp (hJm.comp (measurable_prodMk_left (x := φ)))
  rw [lintegral_mul_const _ hm4, hone, hF]
  simp only
  rw [ENNReal.mul_div_cancel (by simpa using hMC) ENNReal.ofReal_ne_top]

/-- A Gamma variable with shape above one exceeds every bound with at least the probability that an
exponential variable does. -/
theorem gamma_tail {t r c : ℝ} (ht : 0 ≤ t) (hr : 0 < r) (hc : 0 < c) :
    ENNReal.ofReal (Real.exp (-(r * c))) ≤ ProbabilityTheory.gammaMeasure (t + 1) r (Ioi c) := by
  have p1 := ProbabilityTheory.isProbabilityMeasure_gammaMeasure one_pos hr
  have pt := ProbabilityTheory.isProbabilityMeasure_gammaMeasure (by linarith : 0 < t + 1) hr
  have hexp : ProbabilityTheory.gammaMeasure 1 r (Iic c) = ENNReal.ofReal (1 - Real.exp (-(r * c))) := by
    have := ProbabilityTheory.isProbabilityMeasure_expMeasure hr
    have h := ProbabilityTheory.cdf_expMeasure_eq hr c
    rw [if_pos hc.le, ProbabilityTheory.cdf_eq_real] at h
    rw [← h, ofReal_measureReal]
    rfl
  have hle1 : Real.exp (-(r * c)) ≤ 1 := Real.exp_le_one_iff.2 (by nlinarith)
  have hG := Real.Gamma_pos_of_pos (by linarith : 0 < t + 1)
  -- the ratio of the densities
  have hratio : ∀ x, 0 ≤ x → ProbabilityTheory.gammaPDFReal (t + 1) r x =
      r ^ t * x ^ t / Real.Gamma (t + 1) * ProbabilityTheory.gammaPDFReal 1 r x := by
    intro x hx
    unfold ProbabilityTheory.gammaPDFReal
    rw [if_pos hx, if_pos hx, Real.rpow_add_one hr.ne', Real.Gamma_one]
    simp
    ring
  have hpdf : ∀ x, 0 ≤ ProbabilityTheory.gammaPDFReal 1 r x := fun x =>
    ProbabilityTheory.gammaPDFReal_nonneg one_pos hr x
  have hrt : 0 < r ^ t := Real.rpow_pos_of_pos hr t
  have hIoi : ∀ a : ℝ, 0 < a → ProbabilityTheory.gammaMeasure a r (Ioi c) =
      ∫⁻ x in Ioi c, ProbabilityTheory.gammaPDF a r x := fun a _ => by
    rw [ProbabilityTheory.gammaMeasure, withDensity_apply _ measurableSet_Ioi]
  have hIic : ∀ a : ℝ, 0 < a → ProbabilityTheory.gammaMeasure a r (Iic c) =
      ∫⁻ x in Iic c, ProbabilityTheory.gammaPDF a r x := fun a _ => by
    rw [ProbabilityTheory.gammaMeasure, withDensity_apply _ measurableSet_Iic]
  have hcompl : ∀ (μ : Measure ℝ) [IsProbabilityMeasure μ], μ (Ioi c) = 1 - μ (Iic c) := by
    intro μ _
    rw [← compl_Iic, prob_compl_eq_one_sub measurableSet_Iic]
  have h1 : ProbabilityTheory.gammaMeasure 1 r (Ioi c) = ENNReal.ofReal (Real.exp (-(r * c))) := by
    rw [hcompl, hexp, ← ENNReal.ofReal_one, ← ENNReal.ofReal_sub _ (by linarith)]
    congr 1
    ring
  rw [← h1]
  rcases le_or_gt 1 (r ^ t * c ^ t / Real.Gamma (t + 1)) with h | h
  · rw [hIoi 1 one_pos, hIoi _ (by linarith)]
    refine setLIntegral_mono' measurableSet_Ioi fun x hx => ENNReal.ofReal_le_ofReal ?_
    have hx' : c < x := hx
    rw [hratio x (by linarith)]
    have : c ^ t ≤ x ^ t := Real.rpow_le_rpow hc.le hx'.le ht
    have h2 : 1 ≤ r ^ t * x ^ t / Real.Gamma (t + 1) := by
      refine h.trans ?_
      gcongr
    nlinarith [hpdf x]
  · rw [hcompl, hcompl]
    refine tsub_le_tsub_left ?_ 1
    rw [hIic 1 one_pos, hIic _ (by linarith)]
    refine setLIntegral_mono' measurableSet_Iic fun x hx => ENNReal.ofReal_le_ofReal ?_
    have hx' : x ≤ c := hx
    by_cases h0 : 0 ≤ x
    · rw [hratio x h0]
      have : x ^ t ≤ c ^ t := Real.rpow_le_rpow h0 hx' ht
      have h2 : r ^ t * x ^ t / Real.Gamma (t + 1) ≤ 1 := by
        refine le_trans ?_ h.le
        gcongr
      nlinarith [hpdf x]
    · unfold ProbabilityTheory.gammaPDFReal
      simp [h0]

/-- The probability that none of the next updates of the total mass fails. Before each of them the
rest of the iteration changes the rest of the state `x` (labels, values, hyperparameters) in any way,
`cl x` is then the number of clusters. -/
noncomputable def massRunOk {Z W X : Type} [MeasurableSpace Z] [MeasurableSpace W] [MeasurableSpace X]
    (phi : Z → ℝ → ℝ → ℝ) (ζ : Measure Z) (gen : W → ℝ → ℝ → ℝ) (ω : Measure W) (a b : ℝ) (n : ℕ)
    (κ : DPState → X → Measure X) (cl : X → ℕ) : ℕ → DPState → X → ℝ≥0∞
  | 0, _, _ => 1
  | N + 1, s, x => ∫⁻ x', ∫⁻ z, ∫⁻ p in Ioo (0 : ℝ) 1, ∫⁻ w,
      (match dpUpdate s (.gamma a b) n (cl x') (phi z) p (gen w) with
      | .error _ => 0
      | .ok s' => massRunOk phi ζ gen ω a b n κ cl N s' x') ∂ω ∂volume ∂ζ ∂κ s x

theorem gammaRng_ok {sh r m : ℝ} {draw : ℝ → ℝ → ℝ} (h : gammaRng sh r draw = .ok m) :
    0 < sh ∧ 0 < r ∧ m = draw sh r := by
  unfold gammaRng at h
  split_ifs at h with h1
  exact ⟨h1.1, h1.2, (Except.ok.inj h).symm⟩

theorem dpUpdate_ok {s s' : DPState} {a b : ℝ} {n k : ℕ} {phi draw : ℝ → ℝ → ℝ} {p : ℝ}
    (h : dpUpdate s (.gamma a b) n k phi p draw = .ok s') :
    phi (s.totalmass + 1) n < Real.exp b ∧
      ∃ sh r, 0 < sh ∧ 0 < r ∧ s'.totalmass = draw sh r ∧
        sh = (if p ≤ (dpUpdateParams a b n k (phi (s.totalmass + 1) n)).1 then a + k else a + k - 1) ∧
        r = b - Real.log (phi (s.totalmass + 1) n) := by
  constructor
  · by_contra hc
    rw [c67_total_mass_update_violated n k p _ phi draw rfl (not_lt.1 hc)] at h
    cases h
  · simp only [dpUpdate] at h
    obtain ⟨φ, hφ, h⟩ := bind_eq_ok.1 h
    have hφ' : φ = phi (s.totalmass + 1) n := by
      unfold gammaRng at hφ
      split_ifs at hφ
      exact (Except.ok.inj hφ).symm
    rw [hφ'] at h
    split_ifs at h with h1
    all_goals
      obtain ⟨m, hm, h⟩ := bind_eq_ok.1 h
      obtain ⟨h2, h3, h4⟩ := gammaRng_ok hm
      refine ⟨_, _, h2, h3, ?_, ?_, rfl⟩
      · rw [← Except.ok.inj h, h4]
      · first | (rw [if_pos h1]; rfl) | (rw [if_neg h1]; rfl)

theorem massRunOk_le {Z W X : Type} [MeasurableSpace Z] [MeasurableSpace W] [MeasurableSpace X]
    {phi : Z → ℝ → ℝ → ℝ} {ζ : Measure Z} (hz : GenLaw ζ phi ProbabilityTheory.gammaMeasure)
    {gen : W → ℝ → ℝ → ℝ} {ω : Measure W} (hw : GenLaw ω gen ProbabilityTheory.gammaMeasure)
    {a b : ℝ} {n : ℕ} (hn : 0 < n) {κ : DPState → X → Measure X}
    (hκ : ∀ s x, IsProbabilityMeasure (κ s x)) (cl : X → ℕ) (N : ℕ) :
    ∀ (s : DPState) (x : X), 0 < s.totalmass → massRunOk phi ζ gen ω a b n κ cl N s x ≤
      (1 - ENNReal.ofReal (Real.exp (-(n * Real.exp b)))) ^ N := by
  have := hz.prob
  have := hw.prob
  have hn' : (0 : ℝ) < n := by exact_mod_cast hn
  obtain ⟨q, hq⟩ : ∃ q : ℝ≥0∞, q = 1 - ENNReal.ofReal (Real.exp (-(n * Real.exp b))) := ⟨_, rfl⟩
  rw [← hq]
  induction N with
  | zero => intro s x _; simp [massRunOk]
  | succ N ih =>
    intro s x hs
    have hm := hz.meas (s.totalmass + 1) n (by linarith) hn'
    have hset : MeasurableSet {z | phi z (s.totalmass + 1) n ≤ Real.exp b} :=
      hm measurableSet_Iic
    have hpr : ζ {z | phi z (s.totalmass + 1) n ≤ Real.exp b} ≤ q := by
      have h1 := gamma_tail hs.le hn' (Real.exp_pos b)
      have pt := ProbabilityTheory.isProbabilityMeasure_gammaMeasure
        (by linarith : 0 < s.totalmass + 1) hn'
      have e : ζ {z | phi z (s.totalmass + 1) n ≤ Real.exp b} =
          ProbabilityTheory.gammaMeasure (s.totalmass + 1) n (Iic (Real.exp b)) := by
        rw [← hz.law (s.totalmass + 1) n (by linarith) hn', Measure.map_apply hm measurableSet_Iic]
        rfl
      rw [e, hq, ← compl_Ioi, prob_compl_eq_one_sub measurableSet_Ioi]
      exact tsub_le_tsub_left h1 1
    have hx : ∀ x', (∫⁻ z, ∫⁻ p in Ioo (0 : ℝ) 1, ∫⁻ w,
        (match dpUpdate s (.gamma a b) n (cl x') (phi z) p (gen w) with
        | .error _ => 0
        | .ok s' => massRunOk phi ζ gen ω a b n κ cl N s' x') ∂ω ∂volume ∂ζ) ≤ q ^ (N + 1) := by
      intro x'
      have hzz : ∀ z, (∫⁻ p in Ioo (0 : ℝ) 1, ∫⁻ w,
          (match dpUpdate s (.gamma a b) n (cl x') (phi z) p (gen w) with
          | .error _ => 0
          | .ok s' => massRunOk phi ζ gen ω a b n κ cl N s' x') ∂ω ∂volume) ≤
          {z | phi z (s.totalmass + 1) n ≤ Real.exp b}.indicator (fun _ => q ^ N) z := by
        intro z
        by_cases hp : phi z (s.totalmass + 1) n ≤ Real.exp b
        · rw [indicator_of_mem (by exact hp)]
          have hin : ∀ p, (∫⁻ w, (match dpUpdate s (.gamma a b) n (cl x') (phi z) p (gen w) with
              | .error _ => 0
              | .ok s' => massRunOk phi ζ gen ω a b n κ cl N s' x') ∂ω) ≤ q ^ N := by
            intro p
            obtain ⟨sh, hsh⟩ : ∃ sh, sh = (if p ≤ (dpUpdateParams a b n (cl x')
              (phi z (s.totalmass + 1) n)).1 then a + (cl x' : ℝ) else a + cl x' - 1) := ⟨_, rfl⟩
            obtain ⟨r, hr⟩ : ∃ r, r = b - Real.log (phi z (s.totalmass + 1) n) := ⟨_, rfl⟩
            have hae : ∀ᵐ w ∂ω, 0 < sh → 0 < r → 0 < gen w sh r := by
              by_cases h : 0 < sh ∧ 0 < r
              · have h1 := ae_gammaMeasure sh r
                rw [← hw.law sh r h.1 h.2] at h1
                filter_upwards [ae_of_ae_map (hw.meas sh r h.1 h.2).aemeasurable h1] with w hw1 _ _
                exact hw1
              · exact Filter.Eventually.of_forall fun w h1 h2 => absurd ⟨h1, h2⟩ h
            calc _ ≤ ∫⁻ _ : W, q ^ N ∂ω := by
                  refine lintegral_mono_ae ?_
                  filter_upwards [hae] with w hw1
                  cases hd : dpUpdate s (.gamma a b) n (cl x') (phi z) p (gen w) with
                  | error e => simp
                  | ok s' =>
                    obtain ⟨-, sh', r', h1, h2, h3, h4, h5⟩ := dpUpdate_ok hd
                    rw [← hsh] at h4
                    rw [← hr] at h5
                    subst h4 h5
                    exact ih s' x' (h3 ▸ hw1 h1 h2)
              _ = q ^ N := by simp
          calc _ ≤ ∫⁻ _ in Ioo (0 : ℝ) 1, q ^ N := lintegral_mono fun p => hin p
            _ = q ^ N := by simp
        · have h0 : ∀ p w, dpUpdate s (.gamma a b) n (cl x') (phi z) p (gen w) = .error .throw :=
            fun p w => c67_total_mass_update_violated n _ p _ (phi z) (gen w) rfl (not_le.1 hp).le
          simp [h0]
      calc _ ≤ ∫⁻ z, {z | phi z (s.totalmass + 1) n ≤ Real.exp b}.indicator (fun _ => q ^ N) z ∂ζ :=
            lintegral_mono hzz
        _ = q ^ N * ζ {z | phi z (s.totalmass + 1) n ≤ Real.exp b} := by
            rw [lintegral_indicator hset, setLIntegral_const]
        _ ≤ q ^ N * q := by gcongr
        _ = q ^ (N + 1) := (pow_succ _ _).symm
    have := hκ s x
    rw [massRunOk]
    calc _ ≤ ∫⁻ _, q ^ (N + 1) ∂κ s x := lintegral_mono hx
      _ = q ^ (N + 1) := by simp

/-- With an auxiliary variable from a Gamma distribution the update fails with positive probability. -/
theorem massMean_top {Z W : Type} [MeasurableSpace Z] [MeasurableSpace W]
    {phi : Z → ℝ → ℝ → ℝ} {ζ : Measure Z} (hz : GenLaw ζ phi ProbabilityTheory.gammaMeasure)
    {gen : W → ℝ → ℝ → ℝ} {ω : Measure W} (hw : GenLaw ω gen ProbabilityTheory.gammaMeasure)
    {a b : ℝ} {n : ℕ} (hn : 0 < n) (k : ℕ) (g : DPState → ℝ≥0∞) {s : DPState}
    (hs : 0 < s.totalmass) : massMean phi ζ gen ω a b n k g s = ∞ := by
  have := hw.prob
  have hn' : (0 : ℝ) < n := by exact_mod_cast hn
  have hm := hz.meas (s.totalmass + 1) n (by linarith) hn'
  have h1 := gamma_tail hs.le hn' (Real.exp_pos b)
  rw [← hz.law (s.totalmass + 1) n (by linarith) hn', Measure.map_apply hm measurableSet_Ioi] at h1
  have hpos : ζ ((fun z => phi z (s.totalmass + 1) n) ⁻¹' Ioi (Real.exp b)) ≠ 0 := by
    intro h0
    rw [h0, nonpos_iff_eq_zero, ENNReal.ofReal_eq_zero] at h1
    exact absurd h1 (not_le.2 (Real.exp_pos _))
  refine top_le_iff.1 ?_
  calc ∞ = ∫⁻ z, ((fun z => phi z (s.totalmass + 1) n) ⁻¹' Ioi (Real.exp b)).indicator (fun _ => ∞) z ∂ζ := by
        rw [lintegral_indicator (hm measurableSet_Ioi), setLIntegral_const, ENNReal.top_mul hpos]
    _ ≤ _ := by
        refine lintegral_mono fun z => ?_
        by_cases hp : phi z (s.totalmass + 1) n ∈ Ioi (Real.exp b)
        · have h0 : ∀ p w, dpUpdate s (.gamma a b) n k (phi z) p (gen w) = .error .throw :=
            fun p w => c67_total_mass_update_violated n _ p _ (phi z) (gen w) rfl (le_of_lt hp)
          simp [h0]
        · rw [indicator_of_notMem (by exact hp)]
          exact zero_le

end Bayesmix.Chain
