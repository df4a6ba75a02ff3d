import Verif.Algo.SpotConv
import Verif.Algo.AuxMeasure
import Verif.Algo.Neal2Iter

/-!
# The row update with auxiliary values, on partitions with values

Given the auxiliary values, Neal8 draws the place of a row as Gibbs sampling does for the prior that
gives each auxiliary value the same weight. General facts, not about the code.
-/

namespace Bayesmix.Chain
open Bayesmix Cond Gibbs SplitMerge Slice MeasureTheory ENNReal

variable {n : ℕ} {Θ : Type} [MeasurableSpace Θ]

/-- The law that gives each of the values the same weight. -/
noncomputable def empLaw {m : ℕ} (a : Fin (m + 1) → Θ) : Measure Θ :=
  (((m + 1 : ℕ) : ℝ≥0∞))⁻¹ • ∑ j, Measure.dirac (a j)

theorem lintegral_empLaw {m : ℕ} (a : Fin (m + 1) → Θ) {f : Θ → ℝ≥0∞} (hf : Measurable f) :
    ∫⁻ t, f t ∂empLaw a = ∑ j, f (a j) * (((m + 1 : ℕ) : ℝ≥0∞))⁻¹ := by
  unfold empLaw
  rw [lintegral_smul_measure, lintegral_finsetSum_measure, smul_eq_mul, Finset.mul_sum]
  refine Finset.sum_congr rfl fun j _ => ?_
  rw [lintegral_dirac' _ hf, mul_comm]

theorem empLaw_perm {m : ℕ} (e : Equiv.Perm (Fin (m + 1))) (a : Fin (m + 1) → Θ) :
    empLaw (fun j => a (e j)) = empLaw a := by
  unfold empLaw
  congr 1
  exact Equiv.sum_comp e fun j => Measure.dirac (a j)

theorem inv_count_ne (m : ℕ) : (((m + 1 : ℕ) : ℝ≥0∞))⁻¹ ≠ 0 ∧ (((m + 1 : ℕ) : ℝ≥0∞))⁻¹ ≠ ∞ :=
  ⟨ENNReal.inv_ne_zero.mpr (ENNReal.natCast_ne_top _), ENNReal.inv_ne_top.mpr (by simp)⟩

instance empLaw_prob {m : ℕ} (a : Fin (m + 1) → Θ) : IsProbabilityMeasure (empLaw a) := by
  constructor
  have h := lintegral_empLaw a (f := fun _ => 1) measurable_const
  rw [lintegral_const, one_mul] at h
  rw [h, Finset.sum_const, Finset.card_univ, Fintype.card_fin, one_mul, nsmul_eq_mul]
  exact ENNReal.mul_inv_cancel (by simp) (ENNReal.natCast_ne_top _)

/-! ### Sums and positivity of the row update -/

variable {w : Setoid (Fin n) → ℝ} {like : Θ → ℕ → ℝ}

theorem measurable_updateAt (x : Fin n → Θ) (i : Fin n) :
    Measurable fun t : Θ => Function.update x i t := by
  refine measurable_pi_iff.mpr fun j => ?_
  by_cases hj : j = i
  · subst hj
    simpa using measurable_id'
  · simp only [Function.update_of_ne hj]
    exact measurable_const

theorem rowKernel_add (hlike : ∀ i, Measurable fun θ => like θ i) (ν : Measure Θ) (i : Fin n)
    {Φ Ψ : Setoid (Fin n) → (Fin n → Θ) → ℝ≥0∞} (hΦ : MeasP Φ) (σ : Setoid (Fin n)) (x : Fin n → Θ) :
    rowKernel w like ν i (fun τ y => Φ τ y + Ψ τ y) σ x =
      rowKernel w like ν i Φ σ x + rowKernel w like ν i Ψ σ x := by
  classical
  unfold rowKernel
  rw [← ENNReal.add_div]
  congr 1
  unfold rowFlow
  have hm1 : Measurable fun t : Θ => ENNReal.ofReal (Real.exp (like t i)) *
      Φ (alone i σ) (Function.update x i t) :=
    (measurable_expLike hlike i).mul ((hΦ _).comp (measurable_updateAt x i))
  simp only [mul_add]
  rw [lintegral_add_left hm1, mul_add, Finset.sum_add_distrib]
  ring

theorem rowKernel_smul (hlike : ∀ i, Measurable fun θ => like θ i) (ν : Measure Θ) (i : Fin n)
    {Φ : Setoid (Fin n) → (Fin n → Θ) → ℝ≥0∞} (hΦ : MeasP Φ) (c : ℝ≥0∞) (σ : Setoid (Fin n))
    (x : Fin n → Θ) :
    rowKernel w like ν i (fun τ y => c * Φ τ y) σ x = c * rowKernel w like ν i Φ σ x := by
  classical
  unfold rowKernel
  rw [← mul_div_assoc]
  congr 1
  unfold rowFlow
  have hm1 : Measurable fun t : Θ => ENNReal.ofReal (Real.exp (like t i)) *
      Φ (alone i σ) (Function.update x i t) :=
    (measurable_expLike hlike i).mul ((hΦ _).comp (measurable_updateAt x i))
  rw [mul_add, Finset.mul_sum]
  congr 1
  · exact Finset.sum_congr rfl fun τ _ => by ring
  · rw [← mul_assoc, mul_comm c, mul_assoc, ← lintegral_const_mul _ hm1]
    congr 1
    exact lintegral_congr fun t => by ring

theorem rowKernel_pos (hlike : ∀ i, Measurable fun θ => like θ i) (hw : ∀ σ, 0 < w σ) (ν : Measure Θ)
    [IsProbabilityMeasure ν] (hok : FlowOk w like ν) (i : Fin n)
    {Φ : Setoid (Fin n) → (Fin n → Θ) → ℝ≥0∞} (hΦ : MeasP Φ) (σ : Setoid (Fin n)) (x : Fin n → Θ)
    (hpos : ∀ y, 0 < Φ (alone i σ) y) : 0 < rowKernel w like ν i Φ σ x := by
  classical
  unfold rowKernel
  refine ENNReal.div_pos ?_ (hok i σ x).2
  unfold rowFlow
  have hm1 : Measurable fun t : Θ => ENNReal.ofReal (Real.exp (like t i)) *
      Φ (alone i σ) (Function.update x i t) :=
    (measurable_expLike hlike i).mul ((hΦ _).comp (measurable_updateAt x i))
  have hint : ∫⁻ t, ENNReal.ofReal (Real.exp (like t i)) *
      Φ (alone i σ) (Function.update x i t) ∂ν ≠ 0 := by
    rw [← pos_iff_ne_zero, lintegral_pos_iff_support hm1]
    have : Function.support (fun t : Θ => ENNReal.ofReal (Real.exp (like t i)) *
        Φ (alone i σ) (Function.update x i t)) = Set.univ := by
      ext t
      simp only [Function.mem_support, Set.mem_univ, iff_true]
      exact mul_ne_zero (ENNReal.ofReal_pos.mpr (Real.exp_pos _)).ne' (hpos _).ne'
    rw [this]
    simp
  intro e
  exact mul_ne_zero (ENNReal.ofReal_pos.mpr (hw _)).ne' hint (add_eq_zero.mp e).2

/-! ### With auxiliary values -/

theorem empLaw_flowOk (hlike : ∀ i, Measurable fun θ => like θ i) (hw : ∀ σ, 0 < w σ) {m : ℕ}
    (a : Fin (m + 1) → Θ) : FlowOk w like (empLaw a) := by
  refine flowOk_of hw fun i => ?_
  rw [lintegral_empLaw a (measurable_expLike hlike i)]
  constructor
  · intro e
    have h := (Finset.sum_eq_zero_iff.mp e) 0 (Finset.mem_univ _)
    exact mul_ne_zero (ENNReal.ofReal_pos.mpr (Real.exp_pos _)).ne' (inv_count_ne m).1 h
  · exact ENNReal.sum_ne_top.mpr fun j _ => ENNReal.mul_ne_top ENNReal.ofReal_ne_top (inv_count_ne m).2

theorem rowFlow_empLaw_measurable (hlike : ∀ i, Measurable fun θ => like θ i) (i : Fin n) {m : ℕ}
    {Φ : Setoid (Fin n) → (Fin n → Θ) → ℝ≥0∞} (hΦ : MeasP Φ) (σ : Setoid (Fin n)) :
    Measurable fun p : (Fin n → Θ) × (Fin (m + 1) → Θ) => rowFlow w like (empLaw p.2) i Φ σ p.1 := by
  classical
  have e : (fun p : (Fin n → Θ) × (Fin (m + 1) → Θ) => rowFlow w like (empLaw p.2) i Φ σ p.1) =
      fun p => ∑ τ ∈ Finset.univ.filter (fun τ => SameOff i.val σ τ ∧ τ ≠ alone i σ),
          ENNReal.ofReal (w τ) * (ENNReal.ofReal (Real.exp (like (valueIn τ i p.1) i)) *
            Φ τ (Function.update p.1 i (valueIn τ i p.1))) +
        ENNReal.ofReal (w (alone i σ)) * ∑ j, ENNReal.ofReal (Real.exp (like (p.2 j) i)) *
          Φ (alone i σ) (Function.update p.1 i (p.2 j)) * (((m + 1 : ℕ) : ℝ≥0∞))⁻¹ := by
    funext p
    unfold rowFlow
    rw [lintegral_empLaw p.2 (f := fun t => ENNReal.ofReal (Real.exp (like t i)) *
      Φ (alone i σ) (Function.update p.1 i t)) ((measurable_expLike hlike i).mul
      ((hΦ _).comp (measurable_updateAt p.1 i)))]
  rw [e]
  have hu : ∀ j : Fin (m + 1), Measurable fun p : (Fin n → Θ) × (Fin (m + 1) → Θ) =>
      Function.update p.1 i (p.2 j) := by
    intro j
    refine measurable_pi_iff.mpr fun k => ?_
    by_cases hk : k = i
    · subst hk
      simp only [Function.update_self]
      exact (measurable_pi_apply j).comp measurable_snd
    · simp only [Function.update_of_ne hk]
      exact (measurable_pi_apply k).comp measurable_fst
  refine Measurable.add (Finset.measurable_sum _ fun τ _ => ?_) ?_
  · exact ((((measurable_expLike hlike i).comp (measurable_valueIn τ i)).mul
      ((hΦ τ).comp (measurable_update_value (measurable_valueIn τ i)))).const_mul _).comp measurable_fst
  · refine (Finset.measurable_sum _ fun j _ => ?_).const_mul _
    exact (((measurable_expLike hlike i).comp ((measurable_pi_apply j).comp measurable_snd)).mul
      ((hΦ _).comp (hu j))).mul_const _

theorem rowKernel_empLaw_measurable (hlike : ∀ i, Measurable fun θ => like θ i) (i : Fin n) {m : ℕ}
    {Φ : Setoid (Fin n) → (Fin n → Θ) → ℝ≥0∞} (hΦ : MeasP Φ) (σ : Setoid (Fin n)) :
    Measurable fun p : (Fin n → Θ) × (Fin (m + 1) → Θ) => rowKernel w like (empLaw p.2) i Φ σ p.1 :=
  (rowFlow_empLaw_measurable hlike i hΦ σ).div
    (rowFlow_empLaw_measurable hlike i (fun _ => measurable_const) σ)

theorem measurable_consValue (i : Fin n) (m : ℕ) :
    Measurable fun p : (Fin n → Θ) × (Fin m → Θ) => (p.1, (Fin.cons (p.1 i) p.2 : Fin (m + 1) → Θ)) := by
  refine measurable_fst.prodMk (measurable_pi_iff.mpr fun j => ?_)
  refine Fin.cases ?_ (fun l => ?_) j
  · simp only [Fin.cons_zero]
    exact (measurable_pi_apply i).comp measurable_fst
  · simp only [Fin.cons_succ]
    exact (measurable_pi_apply l).comp measurable_snd

open Classical in
/-- The place of row `i` is drawn given everything else and `m + 1` auxiliary values: independent
draws from `ν`, the first one replaced by the row's own value if the row is alone. -/
noncomputable def row8 (w : Setoid (Fin n) → ℝ) (like : Θ → ℕ → ℝ) (ν : Measure Θ) (m : ℕ) (i : Fin n)
    (Φ : Setoid (Fin n) → (Fin n → Θ) → ℝ≥0∞) (σ : Setoid (Fin n)) (x : Fin n → Θ) : ℝ≥0∞ :=
  if alone i σ = σ then ∫⁻ a : Fin m → Θ,
    rowKernel w like (empLaw (Fin.cons (x i) a : Fin (m + 1) → Θ)) i Φ σ x ∂Measure.pi fun _ => ν
  else ∫⁻ a : Fin (m + 1) → Θ, rowKernel w like (empLaw a) i Φ σ x ∂Measure.pi fun _ => ν

/-- The update of row `i` in terms of partition, marks and values. -/
noncomputable def row8Op (w : Setoid (Fin n) → ℝ) (like : Θ → ℕ → ℝ) (ν : Measure Θ) (m : ℕ)
    (i : Fin n) (Ψ : Spot n → (Fin n → Θ) → ℝ≥0∞) : Spot n → (Fin n → Θ) → ℝ≥0∞ :=
  fun z => row8 w like ν m i (fun τ y => Ψ (τ, mark i τ z.2) y) z.1

variable {ν : Measure Θ}

theorem MeasP.row8 [IsProbabilityMeasure ν] (hlike : ∀ i, Measurable fun θ => like θ i) (m : ℕ)
    (i : Fin n) {Φ : Setoid (Fin n) → (Fin n → Θ) → ℝ≥0∞} (hΦ : MeasP Φ) :
    MeasP (row8 w like ν m i Φ) := by
  intro σ
  unfold Chain.row8
  obtain ⟨k, hk⟩ : ∃ k : (Fin n → Θ) → (Fin (m + 1) → Θ) → ℝ≥0∞,
    ∀ x a, rowKernel w like (empLaw a) i Φ σ x = k x a := ⟨_, fun _ _ => rfl⟩
  have h := rowKernel_empLaw_measurable (w := w) hlike i (m := m) hΦ σ
  simp only [hk] at h ⊢
  by_cases hσ : alone i σ = σ
  · simp only [hσ, if_true]
    exact Measurable.lintegral_prod_right' (f := fun p : (Fin n → Θ) × (Fin m → Θ) =>
      k p.1 (Fin.cons (p.1 i) p.2 : Fin (m + 1) → Θ))
      (h.comp (measurable_consValue i m))
  · simp only [hσ, if_false]
    exact Measurable.lintegral_prod_right' h

theorem measurable_kernel_first (hlike : ∀ i, Measurable fun θ => like θ i) (i : Fin n) {m : ℕ}
    {Φ : Setoid (Fin n) → (Fin n → Θ) → ℝ≥0∞} (hΦ : MeasP Φ) (σ : Setoid (Fin n)) (x : Fin n → Θ) :
    Measurable fun a : Fin m → Θ =>
      rowKernel w like (empLaw (Fin.cons (x i) a : Fin (m + 1) → Θ)) i Φ σ x := by
  obtain ⟨k, hk⟩ : ∃ k : (Fin n → Θ) → (Fin (m + 1) → Θ) → ℝ≥0∞,
    ∀ x a, rowKernel w like (empLaw a) i Φ σ x = k x a := ⟨_, fun _ _ => rfl⟩
  have h := rowKernel_empLaw_measurable (w := w) hlike i (m := m) hΦ σ
  simp only [hk] at h ⊢
  exact (h.comp (measurable_consValue i m)).comp (measurable_prodMk_left (x := x))

theorem measurable_kernel_all (hlike : ∀ i, Measurable fun θ => like θ i) (i : Fin n) {m : ℕ}
    {Φ : Setoid (Fin n) → (Fin n → Θ) → ℝ≥0∞} (hΦ : MeasP Φ) (σ : Setoid (Fin n)) (x : Fin n → Θ) :
    Measurable fun a : Fin (m + 1) → Θ => rowKernel w like (empLaw a) i Φ σ x := by
  obtain ⟨k, hk⟩ : ∃ k : (Fin n → Θ) → (Fin (m + 1) → Θ) → ℝ≥0∞,
    ∀ x a, rowKernel w like (empLaw a) i Φ σ x = k x a := ⟨_, fun _ _ => rfl⟩
  have h := rowKernel_empLaw_measurable (w := w) hlike i (m := m) hΦ σ
  simp only [hk] at h ⊢
  exact h.comp (measurable_prodMk_left (x := x))

/-- **The posterior weights of the places are invariant.** -/
theorem row8_flow [IsProbabilityMeasure ν] (hlike : ∀ i, Measurable fun θ => like θ i)
    (hw : ∀ σ, 0 < w σ) (m : ℕ) (i : Fin n) {Φ : Setoid (Fin n) → (Fin n → Θ) → ℝ≥0∞} (hΦ : MeasP Φ)
    (σ : Setoid (Fin n)) (x : Fin n → Θ) :
    rowFlow w like ν i (row8 w like ν m i Φ) σ x = rowFlow w like ν i Φ σ x := by
  classical
  obtain ⟨k, hk⟩ : ∃ k : (Fin (m + 1) → Θ) → ℝ≥0∞,
    k = fun a => rowKernel w like (empLaw a) i Φ σ x := ⟨_, rfl⟩
  have hkm : Measurable k := by rw [hk]; exact measurable_kernel_all hlike i hΦ σ x
  have hks : ∀ (e : Equiv.Perm (Fin (m + 1))) a, k (fun j => a (e j)) = k a := by
    intro e a
    rw [hk]
    simp only [empLaw_perm]
  have hal : alone i (alone i σ) = alone i σ := (alone_congr (alone_off i σ)).symm
  -- the kernel at the places
  have hold : ∀ τ, SameOff i.val σ τ → τ ≠ alone i σ → ∀ v,
      row8 w like ν m i Φ τ (Function.update x i v) = ∫⁻ a, k a ∂Measure.pi fun _ => ν := by
    intro τ h1 h2 v
    unfold row8
    rw [if_neg fun e => h2 (by rw [alone_congr h1, e]), hk]
    exact lintegral_congr fun a => rowKernel_congr h1.symm fun j hj => Function.update_of_ne hj _ _
  have hnew : ∀ t, row8 w like ν m i Φ (alone i σ) (Function.update x i t) =
      ∫⁻ a : Fin m → Θ, k (Fin.cons t a) ∂Measure.pi fun _ => ν := by
    intro t
    unfold row8
    rw [if_pos hal, Function.update_self, hk]
    exact lintegral_congr fun a => rowKernel_congr (alone_off i σ).symm fun j hj =>
      Function.update_of_ne hj _ _
  obtain ⟨f, hf⟩ : ∃ f : Θ → ℝ≥0∞, f = fun t => ENNReal.ofReal (Real.exp (like t i)) := ⟨_, rfl⟩
  have hfm : Measurable f := by rw [hf]; exact measurable_expLike hlike i
  have hfΦ : Measurable fun t => f t * Φ (alone i σ) (Function.update x i t) :=
    hfm.mul ((hΦ _).comp (measurable_updateAt x i))
  have hL : rowFlow w like ν i (row8 w like ν m i Φ) σ x =
      ∫⁻ a, rowFlow w like (empLaw a) i (fun _ _ => 1) σ x * k a ∂Measure.pi fun _ => ν := by
    unfold rowFlow
    have e1 : ∀ τ ∈ Finset.univ.filter (fun τ => SameOff i.val σ τ ∧ τ ≠ alone i σ),
        ENNReal.ofReal (w τ) * (ENNReal.ofReal (Real.exp (like (valueIn τ i x) i)) *
          row8 w like ν m i Φ τ (Function.update x i (valueIn τ i x))) =
        ENNReal.ofReal (w τ) * (ENNReal.ofReal (Real.exp (like (valueIn τ i x) i)) * 1) *
          ∫⁻ a, k a ∂Measure.pi fun _ => ν := by
      intro τ hτ
      obtain ⟨h1, h2⟩ := (Finset.mem_filter.mp hτ).2
      rw [hold τ h1 h2]
      ring
    have e2 : ∫⁻ t, ENNReal.ofReal (Real.exp (like t i)) *
          row8 w like ν m i Φ (alone i σ) (Function.update x i t) ∂ν =
        ∫⁻ a, (∑ j, f (a j) * (((m + 1 : ℕ) : ℝ≥0∞))⁻¹) * k a ∂Measure.pi fun _ => ν := by
      rw [← lintegral_first ν f hfm k hkm hks]
      exact lintegral_congr fun t => by rw [hnew, hf]
    have hmj : Measurable fun a : Fin (m + 1) → Θ =>
        (∑ j, f (a j) * (((m + 1 : ℕ) : ℝ≥0∞))⁻¹) * k a :=
      (Finset.measurable_sum _ fun j _ => (hfm.comp (measurable_pi_apply j)).mul_const _).mul hkm
    rw [Finset.sum_congr rfl e1, e2, ← Finset.sum_mul, ← lintegral_const_mul _ hkm,
      ← lintegral_const_mul _ hmj, ← lintegral_add_left (hkm.const_mul _)]
    refine lintegral_congr fun a => ?_
    simp only [mul_one]
    rw [lintegral_empLaw a (measurable_expLike hlike i), hf]
    ring
  have hR : rowFlow w like ν i Φ σ x =
      ∫⁻ a : Fin (m + 1) → Θ, rowFlow w like (empLaw a) i Φ σ x ∂Measure.pi fun _ => ν := by
    unfold rowFlow
    have e3 := lintegral_first ν _ hfΦ (fun _ : Fin (m + 1) → Θ => 1) measurable_const fun _ _ => rfl
    simp only [lintegral_const, measure_univ, mul_one] at e3
    have hmj : Measurable fun a : Fin (m + 1) → Θ =>
        ∑ j, f (a j) * Φ (alone i σ) (Function.update x i (a j)) * (((m + 1 : ℕ) : ℝ≥0∞))⁻¹ :=
      Finset.measurable_sum _ fun j _ => (hfΦ.comp (measurable_pi_apply j)).mul_const _
    have e4 : ∀ a : Fin (m + 1) → Θ, ∫⁻ t, ENNReal.ofReal (Real.exp (like t i)) *
        Φ (alone i σ) (Function.update x i t) ∂empLaw a =
        ∑ j, f (a j) * Φ (alone i σ) (Function.update x i (a j)) * (((m + 1 : ℕ) : ℝ≥0∞))⁻¹ := by
      intro a
      rw [hf] at hfΦ ⊢
      exact lintegral_empLaw a hfΦ
    simp only [e4]
    rw [lintegral_add_left measurable_const, lintegral_const, measure_univ, mul_one,
      lintegral_const_mul _ hmj, ← e3, hf]
  rw [hL, hR]
  refine lintegral_congr fun a => ?_
  obtain ⟨f0, f1⟩ := empLaw_flowOk hlike hw a i σ x
  rw [hk]
  dsimp only
  rw [rowKernel, ENNReal.mul_div_cancel f0 f1]

/-- The row update with auxiliary values is a mean, leaves the posterior invariant and can let the row
start a cluster. -/
theorem row8Op_rows [IsProbabilityMeasure ν] (hlike : ∀ i, Measurable fun θ => like θ i)
    (hw : ∀ σ, 0 < w σ) (m : ℕ) : RowsOk w like ν (row8Op w like ν m) := by
  classical
  have hsw : ∀ (A : Finset (Fin n)) (i : Fin n) (Ψ : Spot n → (Fin n → Θ) → ℝ≥0∞), MeasX Ψ →
      MeasP fun τ y => Ψ (τ, mark i τ A) y := fun _ _ _ hΨ τ => hΨ _
  have hlp : ∀ (k : ℕ) (F : (Fin k → Θ) → ℝ≥0∞), Measurable F → (∀ a, 0 < F a) →
      0 < ∫⁻ a, F a ∂Measure.pi fun _ => ν := by
    intro k F hF hp
    rw [lintegral_pos_iff_support hF]
    have : Function.support F = Set.univ := by
      ext a
      simpa using (hp a).ne'
    rw [this, measure_univ]
    exact one_pos
  refine ⟨fun i => ⟨?_, ?_, ?_, ?_⟩, ?_, ?_⟩
  · intro Φ hΦ z
    exact MeasP.row8 hlike m i (hsw z.2 i Φ hΦ) z.1
  · intro Φ Ψ hΦ hΨ z y
    unfold row8Op row8
    simp only [rowKernel_add hlike _ i (hsw z.2 i Φ hΦ)]
    split
    · exact lintegral_add_left (measurable_kernel_first hlike i (hsw z.2 i Φ hΦ) _ _) _
    · exact lintegral_add_left (measurable_kernel_all hlike i (hsw z.2 i Φ hΦ) _ _) _
  · intro c Φ hΦ z y
    unfold row8Op row8
    simp only [rowKernel_smul hlike _ i (hsw z.2 i Φ hΦ)]
    split
    · exact lintegral_const_mul _ (measurable_kernel_first hlike i (hsw z.2 i Φ hΦ) _ _)
    · exact lintegral_const_mul _ (measurable_kernel_all hlike i (hsw z.2 i Φ hΦ) _ _)
  · intro z y
    have h1 : ∀ a : Fin (m + 1) → Θ, rowKernel w like (empLaw a) i (fun _ _ => 1) z.1 y = 1 := by
      intro a
      obtain ⟨f0, f1⟩ := empLaw_flowOk hlike hw a i z.1 y
      exact ENNReal.div_self f0 f1
    unfold row8Op row8
    simp only [h1, lintegral_const, measure_univ, mul_one, ite_self]
  · intro i Ψ hΨ
    have hP : MeasP fun σ y => Ψ (σ, ∅) y := fun σ => hΨ _
    have e : (fun σ y => row8Op w like ν m i Ψ (σ, ∅) y) =
        row8 w like ν m i fun σ y => Ψ (σ, ∅) y := by
      funext σ y
      unfold row8Op
      simp only [mark_empty]
    rw [e, partPost_rows hlike i (hP.row8 hlike m i), partPost_rows hlike i hP]
    refine Finset.sum_congr rfl fun σ _ => lintegral_congr fun θ => ?_
    rw [row8_flow hlike hw m i hP]
  · intro i Ψ z hΨ hpos y
    have hk : ∀ a : Fin (m + 1) → Θ,
        0 < rowKernel w like (empLaw a) i (fun τ y => Ψ (τ, mark i τ z.2) y) z.1 y := fun a =>
      rowKernel_pos hlike hw _ (empLaw_flowOk hlike hw a) i (hsw z.2 i Ψ hΨ) z.1 y hpos
    unfold row8Op row8
    split
    · exact hlp _ _ (measurable_kernel_first hlike i (hsw z.2 i Ψ hΨ) _ _) fun a => hk _
    · exact hlp _ _ (measurable_kernel_all hlike i (hsw z.2 i Ψ hΨ) _ _) fun a => hk _

end Bayesmix.Chain
