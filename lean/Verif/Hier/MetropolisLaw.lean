import Verif.Hier.PropsMetropolis
import Verif.Hier.MomentLemmas
import Mathlib.MeasureTheory.Function.AEEqOfLIntegral
import Mathlib.MeasureTheory.Integral.Pi

/-!
# Metropolis-Hastings steps as operators

A step that proposes `y` from `x` with log density `lq x y` and accepts it with the probability of
the code, for an arbitrary σ-finite reference measure. The step is reversible for the density
`exp l`; a density `exp l * h` with finite integral is kept only if `h` is almost everywhere
constant.
-/

namespace Bayesmix.Hierarchies

open Real MeasureTheory ENNReal

section Operator

variable {X : Type} [MeasurableSpace X]

/-- Density of the proposal. -/
noncomputable def mhW (lq : X → X → ℝ) (x y : X) : ℝ≥0∞ := ENNReal.ofReal (exp (lq x y))

/-- Probability of acceptance. -/
noncomputable def mhAcc (l : X → ℝ) (lq : X → X → ℝ) (x y : X) : ℝ≥0∞ :=
  ENNReal.ofReal (min 1 (exp (l y - l x + lq y x - lq x y)))

/-- Mean of `f` after one step from `x`. -/
noncomputable def mhOp (vol : Measure X) (l : X → ℝ) (lq : X → X → ℝ) (f : X → ℝ≥0∞) (x : X) :
    ℝ≥0∞ :=
  ∫⁻ y, mhW lq x y * (mhAcc l lq x y * f y + (1 - mhAcc l lq x y) * f x) ∂vol

theorem mhAcc_le (l : X → ℝ) (lq : X → X → ℝ) (x y : X) : mhAcc l lq x y ≤ 1 :=
  ENNReal.ofReal_le_one.mpr (min_le_left _ _)

theorem mhAcc_ne_zero (l : X → ℝ) (lq : X → X → ℝ) (x y : X) : mhAcc l lq x y ≠ 0 :=
  (ENNReal.ofReal_pos.mpr (lt_min one_pos (exp_pos _))).ne'

theorem mhW_ne_zero (lq : X → X → ℝ) (x y : X) : mhW lq x y ≠ 0 :=
  (ENNReal.ofReal_pos.mpr (exp_pos _)).ne'

theorem mhBalance (l : X → ℝ) (lq : X → X → ℝ) (x y : X) :
    ENNReal.ofReal (exp (l x)) * (mhW lq x y * mhAcc l lq x y) =
      ENNReal.ofReal (exp (l y)) * (mhW lq y x * mhAcc l lq y x) := by
  unfold mhW mhAcc
  rw [← ENNReal.ofReal_mul (exp_pos _).le, ← ENNReal.ofReal_mul (exp_pos _).le,
    ← ENNReal.ofReal_mul (exp_pos _).le, ← ENNReal.ofReal_mul (exp_pos _).le]
  congr 1
  rw [← mul_assoc, ← mul_assoc, ← exp_add, ← exp_add]
  exact mh_balance (l x) (l y) (lq y x) (lq x y)

variable (vol : Measure X) {l : X → ℝ} {lq : X → X → ℝ}

theorem mhW_meas (hq : Measurable (Function.uncurry lq)) :
    Measurable fun p : X × X => mhW lq p.1 p.2 :=
  (measurable_exp.comp hq).ennreal_ofReal

theorem mhAcc_meas (hl : Measurable l) (hq : Measurable (Function.uncurry lq)) :
    Measurable fun p : X × X => mhAcc l lq p.1 p.2 := by
  have h1 : Measurable fun p : X × X => lq p.1 p.2 := hq
  have h2 : Measurable fun p : X × X => lq p.2 p.1 := hq.comp measurable_swap
  unfold mhAcc
  exact (measurable_const.min (measurable_exp.comp (by fun_prop))).ennreal_ofReal

theorem mhW_meas' (hq : Measurable (Function.uncurry lq)) (x : X) : Measurable (mhW lq x) :=
  (mhW_meas hq).comp measurable_prodMk_left

theorem mhAcc_meas' (hl : Measurable l) (hq : Measurable (Function.uncurry lq)) (x : X) :
    Measurable (mhAcc l lq x) :=
  (mhAcc_meas hl hq).comp measurable_prodMk_left

/-- The two parts of a step: accepted and rejected. -/
theorem mhOp_split (hl : Measurable l) (hq : Measurable (Function.uncurry lq)) {f : X → ℝ≥0∞}
    (hf : Measurable f) (x : X) : mhOp vol l lq f x =
      (∫⁻ y, mhW lq x y * mhAcc l lq x y * f y ∂vol) +
        (∫⁻ y, mhW lq x y * (1 - mhAcc l lq x y) ∂vol) * f x := by
  have h1 := mhW_meas' hq x
  have h2 := mhAcc_meas' hl hq x
  unfold mhOp
  rw [← lintegral_mul_const _ (by fun_prop), ← lintegral_add_left (by fun_prop)]
  refine lintegral_congr fun y => ?_
  ring

theorem mhOp_meas [SFinite vol] (hl : Measurable l) (hq : Measurable (Function.uncurry lq))
    {f : X → ℝ≥0∞} (hf : Measurable f) : Measurable (mhOp vol l lq f) := by
  have h1 := mhW_meas hq
  have h2 := mhAcc_meas hl hq
  have : Measurable fun p : X × X =>
      mhW lq p.1 p.2 * (mhAcc l lq p.1 p.2 * f p.2 + (1 - mhAcc l lq p.1 p.2) * f p.1) := by
    fun_prop
  exact this.lintegral_prod_right'

theorem mhOp_const (hq1 : ∀ x, ∫⁻ y, mhW lq x y ∂vol = 1)
    (hq : Measurable (Function.uncurry lq)) (c : ℝ≥0∞) (x : X) :
    mhOp vol l lq (fun _ => c) x = c := by
  unfold mhOp
  have : ∀ y, mhW lq x y * (mhAcc l lq x y * c + (1 - mhAcc l lq x y) * c) = mhW lq x y * c := by
    intro y
    rw [← add_mul, add_tsub_cancel_of_le (mhAcc_le l lq x y), one_mul]
  rw [lintegral_congr this, lintegral_mul_const _ (mhW_meas' hq x), hq1, one_mul]

theorem mhOp_mono {f g : X → ℝ≥0∞} (h : ∀ x, f x ≤ g x) (x : X) :
    mhOp vol l lq f x ≤ mhOp vol l lq g x := by
  unfold mhOp
  exact lintegral_mono fun y => by gcongr <;> exact h _

/-- A step is self-adjoint for the density `exp l`. -/
theorem mhOp_reversible [SFinite vol] (hl : Measurable l) (hq : Measurable (Function.uncurry lq))
    {f g : X → ℝ≥0∞} (hf : Measurable f) (hg : Measurable g) :
    ∫⁻ x, ENNReal.ofReal (exp (l x)) * (f x * mhOp vol l lq g x) ∂vol =
      ∫⁻ x, ENNReal.ofReal (exp (l x)) * (g x * mhOp vol l lq f x) ∂vol := by
  have h1 := mhW_meas hq
  have h2 := mhAcc_meas hl hq
  have hw : ∀ x, Measurable (mhW lq x) := mhW_meas' hq
  have ha : ∀ x, Measurable (mhAcc l lq x) := mhAcc_meas' hl hq
  have hL : Measurable fun x => ENNReal.ofReal (exp (l x)) := (measurable_exp.comp hl).ennreal_ofReal
  -- both sides as a double integral and a single one
  have key : ∀ {f g : X → ℝ≥0∞}, Measurable f → Measurable g →
      ∫⁻ x, ENNReal.ofReal (exp (l x)) * (f x * mhOp vol l lq g x) ∂vol =
        (∫⁻ x, ∫⁻ y, ENNReal.ofReal (exp (l x)) * (mhW lq x y * mhAcc l lq x y) * (f x * g y) ∂vol
          ∂vol) +
        ∫⁻ x, ENNReal.ofReal (exp (l x)) * (∫⁻ y, mhW lq x y * (1 - mhAcc l lq x y) ∂vol) *
          (f x * g x) ∂vol := by
    intro f g hf hg
    rw [← lintegral_add_left]
    · refine lintegral_congr fun x => ?_
      rw [mhOp_split vol hl hq hg]
      have e : ∫⁻ y, ENNReal.ofReal (exp (l x)) * (mhW lq x y * mhAcc l lq x y) * (f x * g y) ∂vol =
          ENNReal.ofReal (exp (l x)) * f x * ∫⁻ y, mhW lq x y * mhAcc l lq x y * g y ∂vol := by
        rw [← lintegral_const_mul _ (show Measurable fun y => mhW lq x y * mhAcc l lq x y * g y from
          ((hw x).mul (ha x)).mul hg)]
        refine lintegral_congr fun y => ?_
        ring
      rw [e]
      ring
    · have : Measurable fun p : X × X =>
          ENNReal.ofReal (exp (l p.1)) * (mhW lq p.1 p.2 * mhAcc l lq p.1 p.2) * (f p.1 * g p.2) := by
        fun_prop
      exact this.lintegral_prod_right'
  rw [key hf hg, key hg hf]
  congr 1
  · rw [lintegral_lintegral_swap]
    · refine lintegral_congr fun y => lintegral_congr fun x => ?_
      rw [mhBalance l lq x y, mul_comm (f x)]
    · have : Measurable fun p : X × X =>
          ENNReal.ofReal (exp (l p.1)) * (mhW lq p.1 p.2 * mhAcc l lq p.1 p.2) * (f p.1 * g p.2) := by
        fun_prop
      exact this.aemeasurable
  · refine lintegral_congr fun x => ?_
    rw [mul_comm (f x)]

/-- The density `exp l` is kept. -/
theorem mhOp_invariant [SFinite vol] (hl : Measurable l) (hq : Measurable (Function.uncurry lq))
    (hq1 : ∀ x, ∫⁻ y, mhW lq x y ∂vol = 1) {g : X → ℝ≥0∞} (hg : Measurable g) :
    ∫⁻ x, ENNReal.ofReal (exp (l x)) * mhOp vol l lq g x ∂vol =
      ∫⁻ x, ENNReal.ofReal (exp (l x)) * g x ∂vol := by
  have h := mhOp_reversible vol hl hq (f := fun _ => 1) measurable_const hg
  simp only [one_mul] at h
  rw [h]
  refine lintegral_congr fun x => ?_
  rw [mhOp_const vol hq1 hq, mul_one]

/-- If `exp l * h` is kept, every level of `h` splits the space trivially. -/
theorem mhOp_level [SigmaFinite vol] (hl : Measurable l) (hq : Measurable (Function.uncurry lq))
    (hq1 : ∀ x, ∫⁻ y, mhW lq x y ∂vol = 1) {h : X → ℝ≥0∞} (hh : Measurable h)
    (hfin : ∫⁻ x, ENNReal.ofReal (exp (l x)) * h x ∂vol ≠ ∞)
    (hinv : ∀ s, MeasurableSet s → ∫⁻ x, ENNReal.ofReal (exp (l x)) *
      (h x * mhOp vol l lq (s.indicator fun _ => 1) x) ∂vol =
        ∫⁻ x, ENNReal.ofReal (exp (l x)) * (h x * s.indicator (fun _ => 1) x) ∂vol)
    (c : ℝ≥0∞) (hc : c ≠ ∞) : (∀ᵐ x ∂vol, h x < c) ∨ ∀ᵐ x ∂vol, c ≤ h x := by
  have hL : Measurable fun x => ENNReal.ofReal (exp (l x)) := (measurable_exp.comp hl).ennreal_ofReal
  have hL0 : ∀ x, ENNReal.ofReal (exp (l x)) ≠ 0 := fun x => (ENNReal.ofReal_pos.mpr (exp_pos _)).ne'
  have hLt : ∀ x, ENNReal.ofReal (exp (l x)) ≠ ∞ := fun x => ENNReal.ofReal_ne_top
  have hcan : ∀ {x : X} {a b : ℝ≥0∞}, ENNReal.ofReal (exp (l x)) * a = ENNReal.ofReal (exp (l x)) * b →
      a = b := fun {x a b} e => (ENNReal.mul_right_inj (hL0 x) (hLt x)).mp e
  have hKh := mhOp_meas vol hl hq hh
  -- `h` is harmonic
  have hharm : ∀ᵐ x ∂vol, mhOp vol l lq h x = h x := by
    have : (fun x => ENNReal.ofReal (exp (l x)) * mhOp vol l lq h x) =ᵐ[vol]
        fun x => ENNReal.ofReal (exp (l x)) * h x := by
      refine ae_eq_of_forall_setLIntegral_eq_of_sigmaFinite (hL.mul hKh) (hL.mul hh) ?_
      intro s hs _
      have hsm : Measurable (s.indicator fun _ : X => (1 : ℝ≥0∞)) := measurable_const.indicator hs
      have e1 := hinv s hs
      rw [mhOp_reversible vol hl hq hh hsm] at e1
      rw [← lintegral_indicator hs, ← lintegral_indicator hs]
      convert e1 using 2
      · funext x
        by_cases hx : x ∈ s <;> simp [hx]
      · funext x
        by_cases hx : x ∈ s <;> simp [hx]
    filter_upwards [this] with x hx using hcan hx
  -- so is its truncation
  obtain ⟨g, hg⟩ : ∃ g : X → ℝ≥0∞, g = fun x => min (h x) c := ⟨_, rfl⟩
  have hgm : Measurable g := by rw [hg]; exact hh.min measurable_const
  have hle : ∀ᵐ x ∂vol, mhOp vol l lq g x ≤ g x := by
    filter_upwards [hharm] with x hx
    rw [hg]
    refine le_min ?_ ?_
    · rw [← hx]; exact mhOp_mono vol (fun y => min_le_left _ _) x
    · calc _ ≤ mhOp vol l lq (fun _ => c) x := mhOp_mono vol (fun y => min_le_right _ _) x
        _ = c := mhOp_const vol hq1 hq c x
  have hgfin : ∫⁻ x, ENNReal.ofReal (exp (l x)) * g x ∂vol ≠ ∞ := by
    refine ne_top_of_le_ne_top hfin (lintegral_mono fun x => ?_)
    rw [hg]
    exact mul_le_mul' le_rfl (min_le_left _ _)
  have hgharm : ∀ᵐ x ∂vol, mhOp vol l lq g x = g x := by
    have hi := mhOp_invariant vol hl hq hq1 hgm
    have : (fun x => ENNReal.ofReal (exp (l x)) * mhOp vol l lq g x) =ᵐ[vol]
        fun x => ENNReal.ofReal (exp (l x)) * g x := by
      refine ae_eq_of_ae_le_of_lintegral_le ?_ (by rw [hi]; exact hgfin)
        (hL.mul hgm).aemeasurable hi.ge
      filter_upwards [hle] with x hx using mul_le_mul' le_rfl hx
    filter_upwards [this] with x hx using hcan hx
  -- a point at the level sees the whole space
  by_cases hex : ∃ x, c ≤ h x ∧ mhOp vol l lq g x = g x
  · right
    obtain ⟨x, hx, hKx⟩ := hex
    have hgx : g x = c := by rw [hg]; exact min_eq_right hx
    rw [hgx] at hKx
    have hKc := mhOp_const vol (l := l) hq1 hq c x
    have hw := mhW_meas' hq x
    have ha := mhAcc_meas' hl hq x
    have hlt : ∀ y, mhW lq x y * (mhAcc l lq x y * g y + (1 - mhAcc l lq x y) * g x) ≤
        mhW lq x y * (mhAcc l lq x y * c + (1 - mhAcc l lq x y) * c) := by
      intro y
      rw [hgx]
      gcongr
      rw [hg]; exact min_le_right _ _
    have hae := ae_eq_of_ae_le_of_lintegral_le (μ := vol) (Filter.Eventually.of_forall hlt)
      (by change mhOp vol l lq g x ≠ ∞; rw [hKx]; exact hc) (by fun_prop)
      (by change mhOp vol l lq (fun _ => c) x ≤ mhOp vol l lq g x; rw [hKx, hKc])
    filter_upwards [hae] with y hy
    rw [hgx] at hy
    have h1 := (ENNReal.mul_right_inj (mhW_ne_zero lq x y) ENNReal.ofReal_ne_top).mp hy
    have hfin' : (1 - mhAcc l lq x y) * c ≠ ∞ :=
      ENNReal.mul_ne_top (ne_top_of_le_ne_top one_ne_top tsub_le_self) hc
    have h2 := (ENNReal.add_left_inj hfin').mp h1
    have h3 := (ENNReal.mul_right_inj (mhAcc_ne_zero l lq x y) ENNReal.ofReal_ne_top).mp h2
    rw [hg] at h3
    exact min_eq_right_iff.mp h3
  · left
    push Not at hex
    filter_upwards [hgharm] with x hx
    by_contra hcx
    exact hex x (not_lt.mp hcx) hx

/-- A real function all of whose levels split the space trivially is almost everywhere constant. -/
theorem ae_const_of_levels (hv : vol ≠ 0) (p : X → ℝ)
    (h : ∀ c : ℝ, (∀ᵐ x ∂vol, p x < c) ∨ ∀ᵐ x ∂vol, c ≤ p x) : ∃ a, ∀ᵐ x ∂vol, p x = a := by
  have : (ae vol).NeBot := ae_neBot.mpr hv
  obtain ⟨A, hA⟩ : ∃ A : Set ℝ, A = {c | ∀ᵐ x ∂vol, c ≤ p x} := ⟨_, rfl⟩
  have hmem : ∀ c, (∀ᵐ x ∂vol, c ≤ p x) → c ∈ A := fun c h' => by rw [hA]; exact h'
  have hne : A.Nonempty := by
    by_contra hc
    have : ∀ n : ℕ, ∀ᵐ x ∂vol, p x < -(n : ℝ) := fun n => (h (-(n : ℝ))).resolve_right fun h' =>
      hc ⟨_, by rw [hA]; exact h'⟩
    obtain ⟨x, hx⟩ := (ae_all_iff.mpr this).exists
    obtain ⟨n, hn⟩ := exists_nat_gt (-(p x))
    linarith [hx n]
  have hbdd : BddAbove A := by
    by_contra hc
    have : ∀ n : ℕ, ∀ᵐ x ∂vol, (n : ℝ) ≤ p x := fun n => (h n).resolve_left fun h' => by
      refine hc ⟨n, fun c hcA => ?_⟩
      rw [hA] at hcA
      obtain ⟨x, h1, h2⟩ := (h'.and hcA).exists
      linarith
    obtain ⟨x, hx⟩ := (ae_all_iff.mpr this).exists
    obtain ⟨n, hn⟩ := exists_nat_gt (p x)
    linarith [hx n]
  refine ⟨sSup A, ?_⟩
  have h1 : ∀ n : ℕ, ∀ᵐ x ∂vol, sSup A - 1 / ((n : ℝ) + 1) ≤ p x := by
    intro n
    obtain ⟨c, hc, hlt⟩ := exists_lt_of_lt_csSup hne
      (show sSup A - 1 / ((n : ℝ) + 1) < sSup A by linarith [Nat.one_div_pos_of_nat (α := ℝ) (n := n)])
    rw [hA] at hc
    filter_upwards [hc] with x hx using hlt.le.trans hx
  have h2 : ∀ n : ℕ, ∀ᵐ x ∂vol, p x < sSup A + 1 / ((n : ℝ) + 1) := by
    intro n
    refine (h _).resolve_right fun h' => ?_
    have := le_csSup hbdd (hmem _ h')
    linarith [Nat.one_div_pos_of_nat (α := ℝ) (n := n)]
  filter_upwards [ae_all_iff.mpr h1, ae_all_iff.mpr h2] with x hx1 hx2
  refine le_antisymm (le_of_forall_pos_lt_add fun e he => ?_) (le_of_forall_pos_le_add fun e he => ?_)
  · obtain ⟨n, hn⟩ := exists_nat_one_div_lt he
    linarith [hx2 n]
  · obtain ⟨n, hn⟩ := exists_nat_one_div_lt he
    linarith [hx1 n]

end Operator

end Bayesmix.Hierarchies
