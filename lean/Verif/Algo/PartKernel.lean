import Mathlib.MeasureTheory.Integral.Marginal
import Verif.Algo.Neal3Chain
import Verif.Algo.BlockedKernel

/-!
# Gibbs sampling on partitions with values

A state is a partition of the rows and a value for each block, given as a function of the rows that is
constant on blocks. A function `Φ` of the state stands for a distribution on states: the target gives
the integral of `Φ`, a kernel the mean of `Φ` after a step. General facts, not about the code.
-/

namespace Bayesmix.Chain
open Bayesmix Cond Gibbs MeasureTheory ENNReal

variable {n : ℕ} {Θ : Type} [MeasurableSpace Θ]

noncomputable instance (σ : Setoid (Fin n)) : Fintype (Quotient σ) := Fintype.ofFinite _

/-- Selecting coordinates of a product. -/
theorem pi_select {ι κ : Type} [Fintype ι] [Fintype κ] (μ : ι → Measure Θ)
    [∀ i, IsProbabilityMeasure (μ i)] {e : κ → ι} (he : Function.Injective e)
    {F : (κ → Θ) → ℝ≥0∞} (hF : Measurable F) :
    ∫⁻ x, F (fun k => x (e k)) ∂Measure.pi μ = ∫⁻ y, F y ∂Measure.pi fun k => μ (e k) := by
  classical
  have hm : Measurable fun (x : ι → Θ) (k : κ) => x (e k) :=
    measurable_pi_iff.mpr fun k => measurable_pi_apply (e k)
  have hmap : (Measure.pi μ).map (fun (x : ι → Θ) (k : κ) => x (e k)) =
      Measure.pi fun k => μ (e k) := by
    symm
    refine Measure.pi_eq fun s hs => ?_
    rw [Measure.map_apply hm (MeasurableSet.univ_pi hs)]
    obtain ⟨t, ht⟩ : ∃ t : ι → Set Θ, t = fun i => ⋂ k, ⋂ _ : e k = i, s k := ⟨_, rfl⟩
    have hte : ∀ k, t (e k) = s k := by
      intro k
      ext x
      simp only [ht, Set.mem_iInter]
      exact ⟨fun h => h k rfl, fun h j hj => by rw [he hj]; exact h⟩
    have htn : ∀ i, i ∉ Finset.univ.image e → t i = Set.univ := by
      intro i hi
      ext x
      simp only [ht, Set.mem_iInter, Set.mem_univ, iff_true]
      intro k hk
      exact absurd (Finset.mem_image.mpr ⟨k, Finset.mem_univ k, hk⟩) hi
    have hpre : (fun (x : ι → Θ) (k : κ) => x (e k)) ⁻¹' Set.univ.pi s = Set.univ.pi t := by
      ext x
      simp only [Set.mem_preimage, Set.mem_pi, Set.mem_univ, forall_const]
      constructor
      · intro h i
        by_cases hi : i ∈ Finset.univ.image e
        · obtain ⟨k, -, rfl⟩ := Finset.mem_image.mp hi
          rw [hte]
          exact h k
        · rw [htn i hi]
          trivial
      · intro h k
        rw [← hte]
        exact h (e k)
    rw [hpre, Measure.pi_pi]
    have : ∏ i, μ i (t i) = ∏ i ∈ Finset.univ.image e, μ i (t i) := by
      symm
      refine Finset.prod_subset (Finset.subset_univ _) fun i _ hi => ?_
      rw [htn i hi, measure_univ]
    rw [this, Finset.prod_image fun a _ b _ h => he h]
    exact Finset.prod_congr rfl fun k _ => by rw [hte]
  rw [← hmap, lintegral_map hF hm]

/-- Drawing one coordinate again. -/
theorem pi_redraw (ν : Measure Θ) [IsProbabilityMeasure ν] (i : Fin n) {F : (Fin n → Θ) → ℝ≥0∞}
    (hF : Measurable F) :
    ∫⁻ x : Fin n → Θ, F x ∂Measure.pi (fun _ => ν) =
      ∫⁻ x : Fin n → Θ, ∫⁻ t, F (Function.update x i t) ∂ν ∂Measure.pi (fun _ => ν) := by
  obtain ⟨t0⟩ := nonempty_of_isProbabilityMeasure ν
  have hmu : Measurable fun x : Fin n → Θ => ∫⁻ t, F (Function.update x i t) ∂ν := by
    have h := hF.lmarginal (fun _ : Fin n => ν) (s := {i})
    rwa [lmarginal_singleton] at h
  have h1 := lmarginal_erase' (μ := fun _ : Fin n => ν) F hF (Finset.mem_univ i)
  have h2 := lmarginal_erase' (μ := fun _ : Fin n => ν) _ hmu (Finset.mem_univ i)
  simp only [Function.update_idem, lintegral_const, measure_univ, mul_one] at h2
  rw [← h2, lmarginal_univ, lmarginal_univ] at h1
  exact congrFun h1 fun _ => t0

/-! ### Partitions -/

/-- Row `i` in a block of its own, the others as in `σ`. -/
def alone (i : Fin n) (σ : Setoid (Fin n)) : Setoid (Fin n) where
  r a b := a = b ∨ (a ≠ i ∧ b ≠ i ∧ σ a b)
  iseqv := by
    refine ⟨fun a => Or.inl rfl, ?_, ?_⟩
    · rintro a b (h | ⟨h1, h2, h⟩)
      · exact Or.inl h.symm
      · exact Or.inr ⟨h2, h1, σ.symm h⟩
    · rintro a b c (rfl | ⟨h1, h2, h⟩) (rfl | ⟨h3, h4, h'⟩)
      · exact Or.inl rfl
      · exact Or.inr ⟨h3, h4, h'⟩
      · exact Or.inr ⟨h1, h2, h⟩
      · exact Or.inr ⟨h1, h4, σ.trans h h'⟩

theorem alone_rel (i : Fin n) (σ : Setoid (Fin n)) (a b : Fin n) :
    alone i σ a b ↔ a = b ∨ (a ≠ i ∧ b ≠ i ∧ σ a b) := Iff.rfl

theorem alone_off (i : Fin n) (σ : Setoid (Fin n)) : SameOff i.val σ (alone i σ) := by
  intro a b ha hb
  have ha' : a ≠ i := fun h => ha (by rw [h])
  have hb' : b ≠ i := fun h => hb (by rw [h])
  rw [alone_rel]
  constructor
  · exact fun h => Or.inr ⟨ha', hb', h⟩
  · rintro (rfl | ⟨-, -, h⟩)
    · exact σ.refl a
    · exact h

theorem alone_congr {i : Fin n} {σ τ : Setoid (Fin n)} (h : SameOff i.val σ τ) :
    alone i σ = alone i τ := by
  refine Setoid.ext fun a b => ?_
  rw [alone_rel, alone_rel]
  refine or_congr_right ⟨?_, ?_⟩
  · rintro ⟨h1, h2, h3⟩
    exact ⟨h1, h2, (h a b (fun e => h1 (Fin.ext e)) fun e => h2 (Fin.ext e)).mp h3⟩
  · rintro ⟨h1, h2, h3⟩
    exact ⟨h1, h2, (h a b (fun e => h1 (Fin.ext e)) fun e => h2 (Fin.ext e)).mpr h3⟩

theorem alone_iff {i : Fin n} {σ τ : Setoid (Fin n)} (hσ : alone i σ = σ) :
    alone i τ = σ ↔ SameOff i.val σ τ := by
  constructor
  · rintro rfl
    exact (alone_off i τ).symm
  · intro h
    rw [← alone_congr h, hσ]

/-- A row other than `i` in the block of `i`. -/
theorem exists_mate {i : Fin n} {σ τ : Setoid (Fin n)} (h : SameOff i.val σ τ) (hne : τ ≠ alone i σ) :
    ∃ j, j ≠ i ∧ τ i j := by
  by_contra hcon
  push Not at hcon
  apply hne
  rw [alone_congr h]
  refine Setoid.ext fun a b => ?_
  rw [alone_rel]
  constructor
  · intro hab
    by_cases ha : a = i
    · subst ha
      by_cases hb : b = a
      · exact Or.inl hb.symm
      · exact absurd hab (hcon b hb)
    · by_cases hb : b = i
      · subst hb
        exact absurd (τ.symm hab) (hcon a ha)
      · exact Or.inr ⟨ha, hb, hab⟩
  · rintro (rfl | ⟨-, -, h⟩)
    · exact τ.refl a
    · exact h

open Classical in
/-- The value of the block of row `i`, read off another row of the block. -/
noncomputable def valueIn (τ : Setoid (Fin n)) (i : Fin n) (x : Fin n → Θ) : Θ :=
  if h : ∃ j, j ≠ i ∧ τ i j then x h.choose else x i

omit [MeasurableSpace Θ] in
theorem valueIn_congr {τ : Setoid (Fin n)} {i : Fin n} {x x' : Fin n → Θ} (h : ∃ j, j ≠ i ∧ τ i j)
    (hx : ∀ j, j ≠ i → x j = x' j) : valueIn τ i x = valueIn τ i x' := by
  rw [valueIn, valueIn, dif_pos h, dif_pos h]
  exact hx _ h.choose_spec.1

theorem measurable_valueIn (τ : Setoid (Fin n)) (i : Fin n) :
    Measurable fun x : Fin n → Θ => valueIn τ i x := by
  unfold valueIn
  split
  · exact measurable_pi_apply _
  · exact measurable_pi_apply _

/-- A row that stands for the block of `a`. -/
noncomputable def rep (σ : Setoid (Fin n)) (a : Fin n) : Fin n := (Quotient.mk σ a).out

theorem rep_rel (σ : Setoid (Fin n)) (a : Fin n) : σ (rep σ a) a :=
  Quotient.exact (Quotient.out_eq (Quotient.mk σ a))

theorem rep_eq (σ : Setoid (Fin n)) (a b : Fin n) : rep σ a = rep σ b ↔ σ a b := by
  constructor
  · intro h
    have h1 := rep_rel σ a
    rw [h] at h1
    exact σ.trans (σ.symm h1) (rep_rel σ b)
  · intro h
    rw [rep, rep, Quotient.sound h]

theorem rep_alone {i : Fin n} {σ : Setoid (Fin n)} (hσ : alone i σ = σ) :
    rep σ i = i ∧ ∀ j, j ≠ i → rep σ j ≠ i := by
  constructor
  · have h := rep_rel σ i
    rw [← hσ, alone_rel] at h
    rcases h with h | ⟨-, h, -⟩
    · nth_rw 1 [hσ] at h
      exact h
    · exact absurd rfl h
  · intro j hj h
    have h' := rep_rel σ j
    rw [h, ← hσ, alone_rel] at h'
    rcases h' with h' | ⟨h', -, -⟩
    · exact hj h'.symm
    · exact absurd rfl h'

/-- Independent values for the blocks, named by rows. -/
theorem lintegral_blocks (ν : Measure Θ) [IsProbabilityMeasure ν] {σ : Setoid (Fin n)}
    {r : Fin n → Fin n} (hr : ∀ a b, r a = r b ↔ σ a b) {F : (Fin n → Θ) → ℝ≥0∞} (hF : Measurable F) :
    ∫⁻ θ : Fin n → Θ, F (fun i => θ (r i)) ∂Measure.pi (fun _ => ν) =
      ∫⁻ θ : Quotient σ → Θ, F (fun i => θ (Quotient.mk σ i)) ∂Measure.pi fun _ => ν := by
  have hF' : Measurable fun θ : Quotient σ → Θ => F (fun i => θ (Quotient.mk σ i)) :=
    hF.comp (measurable_pi_iff.mpr fun i => measurable_pi_apply _)
  have he : Function.Injective (Quotient.lift r fun a b h => (hr a b).mpr h : Quotient σ → Fin n) := by
    intro p q
    refine Quotient.inductionOn₂ p q fun a b h => ?_
    exact Quotient.sound ((hr a b).mp h)
  exact pi_select (fun _ : Fin n => ν) he hF'

/-! ### Target and row update -/

/-- Measurable functions of the state. -/
def MeasP (Φ : Setoid (Fin n) → (Fin n → Θ) → ℝ≥0∞) : Prop := ∀ σ, Measurable (Φ σ)

/-- Likelihood of the rows in `D`, given their values. -/
noncomputable def likOn (like : Θ → ℕ → ℝ) (D : Finset (Fin n)) (x : Fin n → Θ) : ℝ≥0∞ :=
  ENNReal.ofReal (∏ i ∈ D, Real.exp (like (x i) i))

/-- The posterior, up to its normalizing constant: weight of the partition, independent values with
law `ν` for the blocks, likelihood of the rows. -/
noncomputable def partPost (w : Setoid (Fin n) → ℝ) (like : Θ → ℕ → ℝ) (ν : Measure Θ)
    (Φ : Setoid (Fin n) → (Fin n → Θ) → ℝ≥0∞) : ℝ≥0∞ :=
  ∑ σ, ENNReal.ofReal (w σ) * ∫⁻ θ : Quotient σ → Θ,
    likOn like Finset.univ (fun i => θ (Quotient.mk σ i)) * Φ σ (fun i => θ (Quotient.mk σ i))
      ∂Measure.pi fun _ => ν

open Classical in
/-- The places for row `i`, weighted with prior and likelihood, everything else as in `(σ, x)`. -/
noncomputable def rowFlow (w : Setoid (Fin n) → ℝ) (like : Θ → ℕ → ℝ) (ν : Measure Θ) (i : Fin n)
    (Φ : Setoid (Fin n) → (Fin n → Θ) → ℝ≥0∞) (σ : Setoid (Fin n)) (x : Fin n → Θ) : ℝ≥0∞ :=
  ∑ τ ∈ Finset.univ.filter (fun τ => SameOff i.val σ τ ∧ τ ≠ alone i σ),
      ENNReal.ofReal (w τ) * (ENNReal.ofReal (Real.exp (like (valueIn τ i x) i)) *
        Φ τ (Function.update x i (valueIn τ i x))) +
    ENNReal.ofReal (w (alone i σ)) * ∫⁻ t, ENNReal.ofReal (Real.exp (like t i)) *
      Φ (alone i σ) (Function.update x i t) ∂ν

/-- The place of row `i` is drawn given everything else. -/
noncomputable def rowKernel (w : Setoid (Fin n) → ℝ) (like : Θ → ℕ → ℝ) (ν : Measure Θ) (i : Fin n)
    (Φ : Setoid (Fin n) → (Fin n → Θ) → ℝ≥0∞) (σ : Setoid (Fin n)) (x : Fin n → Θ) : ℝ≥0∞ :=
  rowFlow w like ν i Φ σ x / rowFlow w like ν i (fun _ _ => 1) σ x

variable {w : Setoid (Fin n) → ℝ} {like : Θ → ℕ → ℝ} {ν : Measure Θ}

theorem rowFlow_on {i : Fin n} {σ : Setoid (Fin n)} {S : Finset (Setoid (Fin n))}
    (hS : ∀ τ, τ ∈ S ↔ SameOff i.val σ τ ∧ τ ≠ alone i σ)
    (Φ : Setoid (Fin n) → (Fin n → Θ) → ℝ≥0∞) (x : Fin n → Θ) :
    rowFlow w like ν i Φ σ x =
      ∑ τ ∈ S, ENNReal.ofReal (w τ) * (ENNReal.ofReal (Real.exp (like (valueIn τ i x) i)) *
        Φ τ (Function.update x i (valueIn τ i x))) +
      ENNReal.ofReal (w (alone i σ)) * ∫⁻ t, ENNReal.ofReal (Real.exp (like t i)) *
        Φ (alone i σ) (Function.update x i t) ∂ν := by
  classical
  unfold rowFlow
  congr 1
  refine Finset.sum_congr ?_ fun _ _ => rfl
  ext τ
  simp only [Finset.mem_filter, Finset.mem_univ, true_and, hS]

theorem rowFlow_congr {i : Fin n} {Φ : Setoid (Fin n) → (Fin n → Θ) → ℝ≥0∞} {σ σ' : Setoid (Fin n)}
    {x x' : Fin n → Θ} (hσ : SameOff i.val σ σ') (hx : ∀ j, j ≠ i → x j = x' j) :
    rowFlow w like ν i Φ σ x = rowFlow w like ν i Φ σ' x' := by
  classical
  have hup : ∀ t, Function.update x i t = Function.update x' i t := by
    intro t
    funext j
    by_cases hj : j = i
    · subst hj; simp
    · rw [Function.update_of_ne hj, Function.update_of_ne hj, hx j hj]
  unfold rowFlow
  rw [alone_congr hσ]
  have hf : Finset.univ.filter (fun τ => SameOff i.val σ τ ∧ τ ≠ alone i σ') =
      Finset.univ.filter (fun τ => SameOff i.val σ' τ ∧ τ ≠ alone i σ') := by
    ext τ
    simp only [Finset.mem_filter, Finset.mem_univ, true_and]
    exact and_congr_left fun _ => ⟨fun h => hσ.symm.trans h, fun h => hσ.trans h⟩
  rw [hf]
  congr 1
  · refine Finset.sum_congr rfl fun τ hτ => ?_
    obtain ⟨h1, h2⟩ := (Finset.mem_filter.mp hτ).2
    rw [valueIn_congr (exists_mate h1 h2) hx, hup]
  · simp only [hup]

theorem rowKernel_congr {i : Fin n} {Φ : Setoid (Fin n) → (Fin n → Θ) → ℝ≥0∞}
    {σ σ' : Setoid (Fin n)} {x x' : Fin n → Θ} (hσ : SameOff i.val σ σ')
    (hx : ∀ j, j ≠ i → x j = x' j) :
    rowKernel w like ν i Φ σ x = rowKernel w like ν i Φ σ' x' := by
  rw [rowKernel, rowKernel, rowFlow_congr hσ hx, rowFlow_congr hσ hx]

theorem measurable_expLike (hlike : ∀ i, Measurable fun θ => like θ i) (i : ℕ) :
    Measurable fun θ => ENNReal.ofReal (Real.exp (like θ i)) :=
  ENNReal.measurable_ofReal.comp (Real.measurable_exp.comp (hlike i))

theorem measurable_likOn (hlike : ∀ i, Measurable fun θ => like θ i) (D : Finset (Fin n)) :
    Measurable (likOn (Θ := Θ) like D) := by
  refine ENNReal.measurable_ofReal.comp (Finset.measurable_prod _ fun i _ => ?_)
  exact Real.measurable_exp.comp ((hlike i).comp (measurable_pi_apply i))

theorem measurable_update_value {i : Fin n} {v : (Fin n → Θ) → Θ} (hv : Measurable v) :
    Measurable fun x : Fin n → Θ => Function.update x i (v x) := by
  refine measurable_pi_iff.mpr fun j => ?_
  by_cases hj : j = i
  · subst hj
    simpa using hv
  · simp only [Function.update_of_ne hj]
    exact measurable_pi_apply j

theorem measurable_redraw [SigmaFinite ν] {i : Fin n} {F : Θ → ℝ≥0∞} (hF : Measurable F)
    {Ψ : (Fin n → Θ) → ℝ≥0∞} (hΨ : Measurable Ψ) :
    Measurable fun x : Fin n → Θ => ∫⁻ t, F t * Ψ (Function.update x i t) ∂ν := by
  have hu : Measurable fun p : (Fin n → Θ) × Θ => Function.update p.1 i p.2 := by
    refine measurable_pi_iff.mpr fun j => ?_
    by_cases hj : j = i
    · subst hj
      simpa using measurable_snd
    · simp only [Function.update_of_ne hj]
      exact (measurable_pi_apply j).comp measurable_fst
  have h : Measurable (Function.uncurry fun (x : Fin n → Θ) (t : Θ) =>
      F t * Ψ (Function.update x i t)) := (hF.comp measurable_snd).mul (hΨ.comp hu)
  exact h.lintegral_prod_right

theorem rowFlow_measurable [SigmaFinite ν] (hlike : ∀ i, Measurable fun θ => like θ i) (i : Fin n)
    {Φ : Setoid (Fin n) → (Fin n → Θ) → ℝ≥0∞} (hΦ : MeasP Φ) : MeasP (rowFlow w like ν i Φ) := by
  classical
  intro σ
  unfold rowFlow
  refine Measurable.add (Finset.measurable_sum _ fun τ _ => ?_) ?_
  · exact (((measurable_expLike hlike i).comp (measurable_valueIn τ i)).mul
      ((hΦ τ).comp (measurable_update_value (measurable_valueIn τ i)))).const_mul _
  · exact (measurable_redraw (measurable_expLike hlike i) (hΦ _)).const_mul _

theorem MeasP.row [SigmaFinite ν] (hlike : ∀ i, Measurable fun θ => like θ i) (i : Fin n)
    {Φ : Setoid (Fin n) → (Fin n → Θ) → ℝ≥0∞} (hΦ : MeasP Φ) : MeasP (rowKernel w like ν i Φ) :=
  fun σ => (rowFlow_measurable hlike i hΦ σ).div
    (rowFlow_measurable hlike i (fun _ => measurable_const) σ)

theorem likOn_split (like : Θ → ℕ → ℝ) (i : Fin n) (x : Fin n → Θ) :
    likOn like Finset.univ x =
      likOn like (Finset.univ.erase i) x * ENNReal.ofReal (Real.exp (like (x i) i)) := by
  rw [likOn, likOn, ← ENNReal.ofReal_mul (Finset.prod_nonneg fun _ _ => (Real.exp_pos _).le),
    Finset.prod_erase_mul _ _ (Finset.mem_univ i)]

theorem likOn_congr {like : Θ → ℕ → ℝ} {D : Finset (Fin n)} {x x' : Fin n → Θ}
    (h : ∀ j ∈ D, x j = x' j) : likOn like D x = likOn like D x' := by
  unfold likOn
  rw [Finset.prod_congr rfl fun j hj => by rw [h j hj]]

/-- The posterior, arranged by the place of row `i`. -/
theorem partPost_rows [IsProbabilityMeasure ν] (hlike : ∀ i, Measurable fun θ => like θ i) (i : Fin n)
    {Φ : Setoid (Fin n) → (Fin n → Θ) → ℝ≥0∞} (hΦ : MeasP Φ) [DecidableEq (Setoid (Fin n))] :
    partPost w like ν Φ = ∑ σ ∈ Finset.univ.filter (fun σ : Setoid (Fin n) => alone i σ = σ),
      ∫⁻ θ : Fin n → Θ, likOn like (Finset.univ.erase i) (fun j => θ (rep σ j)) *
        rowFlow w like ν i Φ σ (fun j => θ (rep σ j)) ∂Measure.pi fun _ => ν := by
  classical
  have hsel : ∀ σ : Setoid (Fin n), Measurable fun (θ : Fin n → Θ) (j : Fin n) => θ (rep σ j) :=
    fun σ => measurable_pi_iff.mpr fun j => measurable_pi_apply _
  have hterm : ∀ τ : Setoid (Fin n), Measurable fun x : Fin n → Θ =>
      likOn like Finset.univ x * Φ τ x := fun τ => (measurable_likOn hlike _).mul (hΦ τ)
  rw [partPost, ← Finset.sum_fiberwise_of_maps_to (s := Finset.univ)
    (t := Finset.univ.filter (fun σ : Setoid (Fin n) => alone i σ = σ)) (g := fun τ => alone i τ)
    (fun τ _ => Finset.mem_filter.mpr ⟨Finset.mem_univ _, (alone_congr (alone_off i τ)).symm⟩)]
  refine Finset.sum_congr rfl fun σ hσ => ?_
  have hσ' : alone i σ = σ := (Finset.mem_filter.mp hσ).2
  obtain ⟨r1, r2⟩ := rep_alone hσ'
  have hfil : Finset.univ.filter (fun τ => alone i τ = σ) =
      insert σ (Finset.univ.filter (fun τ => SameOff i.val σ τ ∧ τ ≠ alone i σ)) := by
    ext τ
    simp only [Finset.mem_filter, Finset.mem_univ, true_and, Finset.mem_insert, alone_iff hσ']
    rw [hσ']
    constructor
    · intro h
      by_cases e : τ = σ
      · exact Or.inl e
      · exact Or.inr ⟨h, e⟩
    · rintro (rfl | h)
      · exact fun _ _ _ _ => Iff.rfl
      · exact h.1
  rw [hfil, Finset.sum_insert (by simp [hσ'])]
  have hm1 : ∀ τ : Setoid (Fin n), Measurable fun θ : Fin n → Θ =>
      likOn like (Finset.univ.erase i) (fun j => θ (rep σ j)) *
        (ENNReal.ofReal (w τ) * (ENNReal.ofReal (Real.exp (like (valueIn τ i fun j => θ (rep σ j)) i)) *
        Φ τ (Function.update (fun j => θ (rep σ j)) i (valueIn τ i fun j => θ (rep σ j))))) := by
    intro τ
    exact ((measurable_likOn hlike _).comp (hsel σ)).mul
      (((((measurable_expLike hlike i).comp (measurable_valueIn τ i)).mul
      ((hΦ τ).comp (measurable_update_value (measurable_valueIn τ i)))).const_mul _).comp (hsel σ))
  have hm2 : Measurable fun θ : Fin n → Θ =>
      likOn like (Finset.univ.erase i) (fun j => θ (rep σ j)) *
        ∑ τ ∈ Finset.univ.filter (fun τ => SameOff i.val σ τ ∧ τ ≠ alone i σ),
        (ENNReal.ofReal (w τ) * (ENNReal.ofReal (Real.exp (like (valueIn τ i fun j => θ (rep σ j)) i)) *
        Φ τ (Function.update (fun j => θ (rep σ j)) i (valueIn τ i fun j => θ (rep σ j))))) := by
    simp only [Finset.mul_sum]
    exact Finset.measurable_sum _ fun τ _ => hm1 τ
  simp only [rowFlow_on (i := i) (σ := σ) (S := Finset.univ.filter
    (fun τ => SameOff i.val σ τ ∧ τ ≠ alone i σ)) (by simp), mul_add]
  rw [lintegral_add_left hm2, add_comm]
  congr 1
  · simp only [Finset.mul_sum]
    rw [lintegral_finsetSum _ fun τ _ => hm1 τ]
    refine Finset.sum_congr rfl fun τ hτ => ?_
    obtain ⟨h1, h2⟩ := (Finset.mem_filter.mp hτ).2
    have hmate := exists_mate h1 h2
    -- the rows standing for the blocks of `τ`
    obtain ⟨r, hr⟩ : ∃ r : Fin n → Fin n, r = Function.update (rep σ) i (rep σ hmate.choose) := ⟨_, rfl⟩
    obtain ⟨m1, m2⟩ := hmate.choose_spec
    have hrj : ∀ a, r a = rep σ (if a = i then hmate.choose else a) := by
      intro a
      rw [hr]
      by_cases h : a = i
      · subst h; simp
      · rw [Function.update_of_ne h, if_neg h]
    have hrt : ∀ a b, r a = r b ↔ τ a b := by
      intro a b
      rw [hrj, hrj, rep_eq]
      have key : ∀ a, (if a = i then hmate.choose else a) ≠ i ∧
          τ a (if a = i then hmate.choose else a) := by
        intro a
        by_cases h : a = i
        · subst h; rw [if_pos rfl]; exact ⟨m1, m2⟩
        · rw [if_neg h]; exact ⟨h, τ.refl a⟩
      obtain ⟨ka, ka'⟩ := key a
      obtain ⟨kb, kb'⟩ := key b
      rw [h1 _ _ (fun e => ka (Fin.ext e)) fun e => kb (Fin.ext e)]
      exact ⟨fun h => τ.trans ka' (τ.trans h (τ.symm kb')),
        fun h => τ.trans (τ.symm ka') (τ.trans h kb')⟩
    have hmr : Measurable fun θ : Fin n → Θ =>
        likOn like Finset.univ (fun j => θ (r j)) * Φ τ (fun j => θ (r j)) :=
      (hterm τ).comp (measurable_pi_iff.mpr fun j => measurable_pi_apply (r j))
    rw [← lintegral_blocks ν hrt (hterm τ), ← lintegral_const_mul _ hmr]
    refine lintegral_congr fun θ => ?_
    have hval : valueIn τ i (fun j => θ (rep σ j)) = θ (r i) := by
      rw [valueIn, dif_pos hmate, hrj, if_pos rfl]
    have hupd : Function.update (fun j => θ (rep σ j)) i (θ (r i)) = fun j => θ (r j) := by
      funext j
      by_cases h : j = i
      · subst h; simp
      · rw [Function.update_of_ne h, hrj, if_neg h]
    rw [hval, hupd, likOn_split like i]
    have hl : likOn like (Finset.univ.erase i) (fun j => θ (r j)) =
        likOn like (Finset.univ.erase i) (fun j => θ (rep σ j)) :=
      likOn_congr fun j hj => by rw [hrj, if_neg (Finset.ne_of_mem_erase hj)]
    rw [hl]
    ring
  · have hg : Measurable fun θ : Fin n → Θ => likOn like Finset.univ (fun j => θ (rep σ j)) *
        Φ σ (fun j => θ (rep σ j)) := (hterm σ).comp (hsel σ)
    rw [← lintegral_blocks ν (rep_eq σ) (hterm σ), pi_redraw ν i hg, ← lintegral_const_mul]
    swap
    · have hu : Measurable fun p : (Fin n → Θ) × Θ => Function.update p.1 i p.2 := by
        refine measurable_pi_iff.mpr fun j => ?_
        by_cases hj : j = i
        · subst hj
          simpa using measurable_snd
        · simp only [Function.update_of_ne hj]
          exact (measurable_pi_apply j).comp measurable_fst
      have h : Measurable (Function.uncurry fun (θ : Fin n → Θ) (t : Θ) =>
        likOn like Finset.univ (fun j => (Function.update θ i t) (rep σ j)) *
          Φ σ (fun j => (Function.update θ i t) (rep σ j))) := hg.comp hu
      exact h.lintegral_prod_right
    refine lintegral_congr fun θ => ?_
    have hx : ∀ t, (fun j => (Function.update θ i t) (rep σ j)) =
        Function.update (fun j => θ (rep σ j)) i t := by
      intro t
      funext j
      by_cases h : j = i
      · subst h; rw [r1]; simp
      · rw [Function.update_of_ne h, Function.update_of_ne (r2 j h)]
    have hm3 : Measurable fun t : Θ => ENNReal.ofReal (Real.exp (like t i)) *
        Φ σ (Function.update (fun j => θ (rep σ j)) i t) := by
      refine (measurable_expLike hlike i).mul ((hΦ σ).comp ?_)
      refine measurable_pi_iff.mpr fun j => ?_
      by_cases hj : j = i
      · subst hj
        simpa using measurable_id'
      · simp only [Function.update_of_ne hj]
        exact measurable_const
    rw [hσ', mul_left_comm, ← lintegral_const_mul _ hm3]
    congr 1
    refine lintegral_congr fun t => ?_
    rw [hx, likOn_split like i, likOn_congr (x' := fun j => θ (rep σ j)) fun j hj => by
      rw [Function.update_of_ne (Finset.ne_of_mem_erase hj)], Function.update_self, mul_assoc]

/-- The total weight of the places is positive and finite. -/
def FlowOk (w : Setoid (Fin n) → ℝ) (like : Θ → ℕ → ℝ) (ν : Measure Θ) : Prop :=
  ∀ i σ x, rowFlow w like ν i (fun _ _ => 1) σ x ≠ 0 ∧ rowFlow w like ν i (fun _ _ => 1) σ x ≠ ∞

/-- **The row update leaves the posterior invariant.** -/
theorem row_invariant [IsProbabilityMeasure ν] (hlike : ∀ i, Measurable fun θ => like θ i)
    (hok : FlowOk w like ν) (i : Fin n) {Φ : Setoid (Fin n) → (Fin n → Θ) → ℝ≥0∞} (hΦ : MeasP Φ) :
    partPost w like ν (rowKernel w like ν i Φ) = partPost w like ν Φ := by
  classical
  rw [partPost_rows hlike i (hΦ.row hlike i), partPost_rows hlike i hΦ]
  refine Finset.sum_congr rfl fun σ _ => lintegral_congr fun θ => ?_
  congr 1
  obtain ⟨x, hx⟩ : ∃ x : Fin n → Θ, x = fun j => θ (rep σ j) := ⟨_, rfl⟩
  rw [← hx]
  have h1 : rowFlow w like ν i (rowKernel w like ν i Φ) σ x =
      rowKernel w like ν i Φ σ x * rowFlow w like ν i (fun _ _ => 1) σ x := by
    have hcon : ∀ τ y, SameOff i.val σ τ → (∀ j, j ≠ i → y j = x j) →
        rowKernel w like ν i Φ τ y = rowKernel w like ν i Φ σ x := fun τ y h h' =>
      rowKernel_congr h.symm h'
    unfold rowFlow
    rw [mul_add, Finset.mul_sum]
    congr 1
    · refine Finset.sum_congr rfl fun τ hτ => ?_
      rw [hcon τ _ (Finset.mem_filter.mp hτ).2.1 fun j hj => Function.update_of_ne hj _ _]
      ring
    · have : ∀ t, ENNReal.ofReal (Real.exp (like t i)) *
          rowKernel w like ν i Φ (alone i σ) (Function.update x i t) =
          rowKernel w like ν i Φ σ x * (ENNReal.ofReal (Real.exp (like t i)) * 1) := by
        intro t
        rw [hcon _ _ (alone_off i σ) fun j hj => Function.update_of_ne hj _ _]
        ring
      rw [lintegral_congr this, lintegral_const_mul _ ((measurable_expLike hlike i).mul_const _)]
      ring
  rw [h1, rowKernel, ENNReal.div_mul_cancel (hok i σ x).1 (hok i σ x).2]

end Bayesmix.Chain
