import Verif.Hier.PropsLaw
import Mathlib.Analysis.SpecialFunctions.ImproperIntegrals

/-!
# Proper priors

A prior with positive kernel (density up to a constant factor) is proper if the integral of the
kernel is finite.
-/

namespace Bayesmix.Hierarchies

open Real MeasureTheory Matrix
open scoped ENNReal

/-- Kernel of the normal distribution with mean `mu` and variance `s2`. -/
noncomputable def normalKernel (mu s2 x : ℝ) : ℝ := exp (-((x - mu) ^ 2 / (2 * s2)))

/-- Kernel of the Gamma distribution with shape `a` and rate `b`, on the positive numbers. -/
noncomputable def gammaKernel (a b x : ℝ) : ℝ := x ^ (a - 1) * exp (-(b * x))

/-- Kernel of the inverse Gamma distribution with shape `a` and scale `b`, on the positive
numbers. -/
noncomputable def invGammaKernel (a b x : ℝ) : ℝ := x ^ (-a - 1) * exp (-(b / x))

/-- Kernel of the normal-inverse-Gamma distribution: an inverse Gamma variance `v`, and a normal
mean `m` with variance `v / l`; the factor `v ^ (-1/2)` is from the normalization of the latter. -/
noncomputable def nigKernel (mu l a b m v : ℝ) : ℝ :=
  invGammaKernel a b v * (v ^ (-(1 / 2) : ℝ) * exp (-(l * (m - mu) ^ 2 / (2 * v))))

/-- A function on the positive numbers has a finite integral. -/
def FinPos (k : ℝ → ℝ) : Prop := ∫⁻ x in Set.Ioi 0, ENNReal.ofReal (k x) < ∞

/-- A function on all numbers has a finite integral. -/
def FinLine (k : ℝ → ℝ) : Prop := ∫⁻ x, ENNReal.ofReal (k x) < ∞

/-- A function of a mean and a positive variance has a finite integral. -/
def FinMeanVar (k : ℝ → ℝ → ℝ) : Prop :=
  ∫⁻ v in Set.Ioi 0, ∫⁻ m, ENNReal.ofReal (k m v) < ∞

/-! ### Proofs -/

theorem lintegral_one_le {k : ℝ → ℝ} (h : ∀ x, 1 ≤ k x) : ∫⁻ x, ENNReal.ofReal (k x) = ∞ := by
  refine top_le_iff.1 ?_
  calc (∞ : ℝ≥0∞) = ∫⁻ _ : ℝ, 1 := by simp
    _ ≤ _ := lintegral_mono fun x => by
      rw [← ENNReal.ofReal_one]; exact ENNReal.ofReal_le_ofReal (h x)

theorem finLine_normal (mu s2 : ℝ) : FinLine (normalKernel mu s2) ↔ 0 < s2 := by
  constructor
  · intro h
    by_contra hs
    push Not at hs
    refine absurd (lintegral_one_le fun x => ?_) h.ne
    unfold normalKernel
    rw [one_le_exp_iff, Left.nonneg_neg_iff]
    exact div_nonpos_of_nonneg_of_nonpos (sq_nonneg _) (by linarith)
  · intro hs
    have e : ∀ x, ENNReal.ofReal (normalKernel mu s2 x) =
        ENNReal.ofReal (exp ((1 / 2) * log (2 * π) + log (sqrt s2))) *
          ENNReal.ofReal (exp (normalLpdf x mu (sqrt s2))) := by
      intro x
      rw [← ENNReal.ofReal_mul (exp_pos _).le, ← exp_add, normalKernel, normalLpdf, div_pow,
        sq_sqrt hs.le]
      congr 2
      field_simp
      ring
    unfold FinLine
    rw [lintegral_congr e, lintegral_const_mul' _ _ ENNReal.ofReal_ne_top,
      lintegral_normalLpdf _ _ hs, mul_one]
    exact ENNReal.ofReal_lt_top

/-- If a set carries a smaller power with infinite integral, then the integral is infinite. -/
theorem not_finPos_of {k : ℝ → ℝ} {S : Set ℝ} (hS : MeasurableSet S) (hsub : S ⊆ Set.Ioi 0)
    {s c : ℝ} (hc : 0 < c) (hle : ∀ x ∈ S, c * x ^ s ≤ k x)
    (hni : ¬ IntegrableOn (fun x : ℝ => x ^ s) S) : ¬ FinPos k := by
  intro h
  apply hni
  have hm : Measurable fun x : ℝ => x ^ s := by fun_prop
  refine ⟨hm.aestronglyMeasurable, ?_⟩
  rw [hasFiniteIntegral_iff_ofReal]
  · have h1 : ∫⁻ x in S, ENNReal.ofReal (c * x ^ s) < ∞ := by
      refine lt_of_le_of_lt ?_ h
      calc ∫⁻ x in S, ENNReal.ofReal (c * x ^ s) ≤ ∫⁻ x in S, ENNReal.ofReal (k x) :=
            setLIntegral_mono' hS fun x hx => ENNReal.ofReal_le_ofReal (hle x hx)
        _ ≤ _ := lintegral_mono_set hsub
    have e : ∀ x : ℝ, ENNReal.ofReal (c * x ^ s) = ENNReal.ofReal c * ENNReal.ofReal (x ^ s) :=
      fun x => ENNReal.ofReal_mul hc.le
    rw [lintegral_congr e, lintegral_const_mul' _ _ ENNReal.ofReal_ne_top] at h1
    by_contra htop
    rw [not_lt, top_le_iff] at htop
    rw [htop, ENNReal.mul_top (by simpa using hc)] at h1
    exact lt_irrefl _ h1
  · filter_upwards [ae_restrict_mem hS] with x hx
    exact rpow_nonneg (le_of_lt (hsub hx)) _

theorem finPos_gamma (a b : ℝ) : FinPos (gammaKernel a b) ↔ 0 < a ∧ 0 < b := by
  constructor
  · intro h
    have hb : 0 < b := by
      by_contra hb
      push Not at hb
      refine not_finPos_of (s := a - 1) measurableSet_Ioi subset_rfl one_pos ?_
        (not_integrableOn_Ioi_rpow _) h
      intro x hx
      have hx : 0 < x := hx
      unfold gammaKernel
      rw [one_mul]
      refine le_mul_of_one_le_right (rpow_nonneg hx.le _) ?_
      rw [one_le_exp_iff]
      nlinarith
    refine ⟨?_, hb⟩
    by_contra ha
    push Not at ha
    refine not_finPos_of (S := Set.Ioo 0 1) (s := a - 1) measurableSet_Ioo
      Set.Ioo_subset_Ioi_self (exp_pos (-b)) ?_ ?_ h
    · intro x hx
      unfold gammaKernel
      rw [mul_comm]
      refine mul_le_mul_of_nonneg_left (exp_le_exp.2 ?_) (rpow_nonneg hx.1.le _)
      nlinarith [hx.1, hx.2]
    · rw [intervalIntegral.integrableOn_Ioo_rpow_iff one_pos]
      linarith
  · rintro ⟨ha, hb⟩
    have e : ∀ x ∈ Set.Ioi (0 : ℝ), ENNReal.ofReal (gammaKernel a b x) =
        ENNReal.ofReal (exp (-(a * log b - log (Gamma a)))) *
          ENNReal.ofReal (exp (gammaLpdf x a b)) := by
      intro x hx
      rw [← ENNReal.ofReal_mul (exp_pos _).le, ← exp_add, gammaKernel, gammaLpdf,
        rpow_def_of_pos hx, ← exp_add]
      congr 2
      ring
    unfold FinPos
    rw [setLIntegral_congr_fun measurableSet_Ioi e,
      lintegral_const_mul' _ _ ENNReal.ofReal_ne_top, lintegral_gammaLpdf _ _ ha hb, mul_one]
    exact ENNReal.ofReal_lt_top

theorem finPos_invGamma (a b : ℝ) : FinPos (invGammaKernel a b) ↔ 0 < a ∧ 0 < b := by
  constructor
  · intro h
    have hb : 0 < b := by
      by_contra hb
      push Not at hb
      refine not_finPos_of (s := -a - 1) measurableSet_Ioi subset_rfl one_pos ?_
        (not_integrableOn_Ioi_rpow _) h
      intro x hx
      have hx : 0 < x := hx
      unfold invGammaKernel
      rw [one_mul]
      refine le_mul_of_one_le_right (rpow_nonneg hx.le _) ?_
      rw [one_le_exp_iff, Left.nonneg_neg_iff]
      exact div_nonpos_of_nonpos_of_nonneg hb hx.le
    refine ⟨?_, hb⟩
    by_contra ha
    push Not at ha
    refine not_finPos_of (S := Set.Ioi 1) (s := -a - 1) measurableSet_Ioi
      (Set.Ioi_subset_Ioi zero_le_one) (exp_pos (-b)) ?_ ?_ h
    · intro x hx
      have hx : 1 < x := hx
      unfold invGammaKernel
      rw [mul_comm]
      refine mul_le_mul_of_nonneg_left (exp_le_exp.2 ?_) (rpow_nonneg (by linarith) _)
      rw [neg_le_neg_iff]
      exact div_le_self hb.le hx.le
    · rw [integrableOn_Ioi_rpow_iff one_pos]
      linarith
  · rintro ⟨ha, hb⟩
    have e : ∀ x ∈ Set.Ioi (0 : ℝ), ENNReal.ofReal (invGammaKernel a b x) =
        ENNReal.ofReal (exp (-(a * log b - log (Gamma a)))) *
          ENNReal.ofReal (exp (invGammaLpdf x a b)) := by
      intro x hx
      rw [← ENNReal.ofReal_mul (exp_pos _).le, ← exp_add, invGammaKernel, invGammaLpdf,
        rpow_def_of_pos hx, ← exp_add]
      congr 2
      ring
    unfold FinPos
    rw [setLIntegral_congr_fun measurableSet_Ioi e,
      lintegral_const_mul' _ _ ENNReal.ofReal_ne_top, lintegral_invGammaLpdf _ _ ha hb, mul_one]
    exact ENNReal.ofReal_lt_top

theorem invGammaKernel_pos {a b x : ℝ} (hx : 0 < x) : 0 < invGammaKernel a b x :=
  mul_pos (rpow_pos_of_pos hx _) (exp_pos _)

theorem lintegral_top_of_pos {g : ℝ → ℝ≥0∞} (h : ∀ v, 0 < v → g v = ∞) :
    ∫⁻ v in Set.Ioi 0, g v = ∞ := by
  rw [setLIntegral_congr_fun measurableSet_Ioi (g := fun _ => ∞) fun v hv => h v hv]
  simp

theorem finMeanVar_nig (mu l a b : ℝ) :
    FinMeanVar (nigKernel mu l a b) ↔ 0 < l ∧ 0 < a ∧ 0 < b := by
  have split : ∀ v : ℝ, 0 < v → ∫⁻ m, ENNReal.ofReal (nigKernel mu l a b m v) =
      ENNReal.ofReal (invGammaKernel a b v) * ENNReal.ofReal (v ^ (-(1 / 2) : ℝ)) *
        ∫⁻ m, ENNReal.ofReal (exp (-(l * (m - mu) ^ 2 / (2 * v)))) := by
    intro v hv
    rw [← lintegral_const_mul' _ _ (ENNReal.mul_ne_top ENNReal.ofReal_ne_top ENNReal.ofReal_ne_top)]
    refine lintegral_congr fun m => ?_
    rw [nigKernel, ENNReal.ofReal_mul (invGammaKernel_pos hv).le,
      ENNReal.ofReal_mul (rpow_nonneg hv.le _), mul_assoc]
  by_cases hl : 0 < l
  · have inner : ∀ v : ℝ, 0 < v → ∫⁻ m, ENNReal.ofReal (nigKernel mu l a b m v) =
        ENNReal.ofReal (sqrt (2 * π / l)) * ENNReal.ofReal (invGammaKernel a b v) := by
      intro v hv
      have hvl : 0 < v / l := div_pos hv hl
      have e : ∀ m, ENNReal.ofReal (exp (-(l * (m - mu) ^ 2 / (2 * v)))) =
          ENNReal.ofReal (exp ((1 / 2) * log (2 * π) + log (sqrt (v / l)))) *
            ENNReal.ofReal (exp (normalLpdf m mu (sqrt (v / l)))) := by
        intro m
        rw [← ENNReal.ofReal_mul (exp_pos _).le, ← exp_add, normalLpdf, div_pow, sq_sqrt hvl.le]
        congr 2
        field_simp
        ring
      rw [split v hv, lintegral_congr e, lintegral_const_mul' _ _ ENNReal.ofReal_ne_top,
        lintegral_normalLpdf _ _ hvl, mul_one, mul_assoc, ← ENNReal.ofReal_mul (rpow_nonneg hv.le _),
        mul_comm]
      congr 2
      rw [log_sqrt hvl.le, rpow_def_of_pos hv, ← exp_add, sqrt_eq_rpow,
        rpow_def_of_pos (by positivity), log_div hv.ne' hl.ne', log_div (by positivity) hl.ne']
      congr 1
      ring
    unfold FinMeanVar
    rw [setLIntegral_congr_fun measurableSet_Ioi (fun v hv => inner v hv),
      lintegral_const_mul' _ _ ENNReal.ofReal_ne_top]
    have hpos : 0 < sqrt (2 * π / l) := sqrt_pos.2 (by positivity)
    have : (ENNReal.ofReal (sqrt (2 * π / l)) *
        ∫⁻ v in Set.Ioi 0, ENNReal.ofReal (invGammaKernel a b v) < ∞) ↔
        FinPos (invGammaKernel a b) := by
      unfold FinPos
      constructor
      · intro h
        by_contra htop
        rw [not_lt, top_le_iff] at htop
        rw [htop, ENNReal.mul_top (by simpa using hpos)] at h
        exact lt_irrefl _ h
      · intro h
        exact ENNReal.mul_lt_top ENNReal.ofReal_lt_top h
    rw [this, finPos_invGamma]
    simp [hl]
  · constructor
    · intro h
      exfalso
      refine absurd (lintegral_top_of_pos fun v hv => ?_) h.ne
      have h1 : ∫⁻ m, ENNReal.ofReal (exp (-(l * (m - mu) ^ 2 / (2 * v)))) = ∞ := by
        refine lintegral_one_le fun m => ?_
        rw [one_le_exp_iff, Left.nonneg_neg_iff]
        push Not at hl
        exact div_nonpos_of_nonpos_of_nonneg
          (mul_nonpos_of_nonpos_of_nonneg hl (sq_nonneg _)) (by linarith)
      rw [split v hv, h1]
      refine ENNReal.mul_top (mul_ne_zero ?_ ?_)
      · simpa using invGammaKernel_pos hv
      · simpa using rpow_pos_of_pos hv _
    · rintro ⟨h, -⟩
      exact absurd h hl

theorem lintegral_normalKernel_ne_zero (mu s2 : ℝ) :
    ∫⁻ m, ENNReal.ofReal (normalKernel mu s2 m) ≠ 0 := by
  intro h0
  have hm : Measurable fun m => ENNReal.ofReal (normalKernel mu s2 m) := by
    unfold normalKernel; fun_prop
  rw [lintegral_eq_zero_iff hm] at h0
  have : (volume : Measure ℝ) Set.univ = 0 := by
    refine measure_mono_null (fun x _ => ?_) (ae_iff.1 h0)
    have : 0 < normalKernel mu s2 x := exp_pos _
    simpa using this
  simp at this

theorem finMeanVar_prod (mu s2 a b : ℝ) :
    FinMeanVar (fun m v => normalKernel mu s2 m * invGammaKernel a b v) ↔
      0 < s2 ∧ 0 < a ∧ 0 < b := by
  have e : ∀ v : ℝ, 0 < v → ∫⁻ m, ENNReal.ofReal (normalKernel mu s2 m * invGammaKernel a b v) =
      (∫⁻ m, ENNReal.ofReal (normalKernel mu s2 m)) * ENNReal.ofReal (invGammaKernel a b v) := by
    intro v hv
    rw [← lintegral_mul_const' _ _ ENNReal.ofReal_ne_top]
    refine lintegral_congr fun m => ?_
    exact ENNReal.ofReal_mul (exp_pos _).le
  have hne := lintegral_normalKernel_ne_zero mu s2
  unfold FinMeanVar
  rw [setLIntegral_congr_fun measurableSet_Ioi (fun v hv => e v hv)]
  by_cases hs : 0 < s2
  · have hfin := (finLine_normal mu s2).2 hs
    rw [lintegral_const_mul' _ _ hfin.ne]
    have : ((∫⁻ m, ENNReal.ofReal (normalKernel mu s2 m)) *
        ∫⁻ v in Set.Ioi 0, ENNReal.ofReal (invGammaKernel a b v) < ∞) ↔
        FinPos (invGammaKernel a b) := by
      unfold FinPos
      constructor
      · intro h
        by_contra htop
        rw [not_lt, top_le_iff] at htop
        rw [htop, ENNReal.mul_top hne] at h
        exact lt_irrefl _ h
      · exact fun h => ENNReal.mul_lt_top hfin h
    rw [this, finPos_invGamma]
    simp [hs]
  · have htop : ∫⁻ m, ENNReal.ofReal (normalKernel mu s2 m) = ∞ := by
      have := mt (finLine_normal mu s2).1 hs
      rwa [FinLine, not_lt, top_le_iff] at this
    constructor
    · intro h
      exfalso
      refine absurd (lintegral_top_of_pos fun v hv => ?_) h.ne
      rw [htop]
      exact ENNReal.top_mul (by simpa using invGammaKernel_pos hv)
    · rintro ⟨h, -⟩
      exact absurd h hs

end Bayesmix.Hierarchies
