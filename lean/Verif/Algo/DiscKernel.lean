import Mathlib.MeasureTheory.Integral.Lebesgue.Add
import Mathlib.MeasureTheory.Integral.Lebesgue.Countable
import Mathlib.MeasureTheory.Measure.Typeclasses.Probability
import Mathlib.Analysis.SpecificLimits.Basic
import Verif.Algo.FinChain

/-!
# Chains that remember finitely many things

A chain whose step first draws one of finitely many places, with probabilities that depend on the
present place and values, and then draws new values, with a law that depends on the new place only:
general facts, not about the code.
-/

namespace Bayesmix.Chain
open Bayesmix Cond MeasureTheory
open scoped ENNReal

variable {X : Type} [Fintype X] [DecidableEq X] {Y : Type} [MeasurableSpace Y]

/-- The mean after one step: a place is drawn from `r x y`, values from `V z`. -/
noncomputable def discKernel (r : X → Y → X → ℝ≥0∞) (V : X → Measure Y) (Φ : X → Y → ℝ≥0∞) :
    X → Y → ℝ≥0∞ :=
  fun x y => ∑ z, r x y z * ∫⁻ y', Φ z y' ∂V z

/-- The probability of moving from one place to another. -/
noncomputable def discMatrix (r : X → Y → X → ℝ≥0∞) (V : X → Measure Y) : Matrix X X ℝ :=
  fun x z => (∫⁻ y, r x y z ∂V x).toReal

/-- What is asked of the step. -/
structure DiscOk (r : X → Y → X → ℝ≥0∞) (V : X → Measure Y) : Prop where
  meas : ∀ x z, Measurable fun y => r x y z
  one : ∀ x y, ∑ z, r x y z = 1
  prob : ∀ x, IsProbabilityMeasure (V x)

variable {r : X → Y → X → ℝ≥0∞} {V : X → Measure Y}

theorem DiscOk.le_one (h : DiscOk r V) (x : X) (y : Y) (z : X) : r x y z ≤ 1 := by
  rw [← h.one x y]
  exact Finset.single_le_sum (f := fun z => r x y z) (fun z _ => zero_le) (Finset.mem_univ z)

theorem DiscOk.mean_le_one (h : DiscOk r V) (x z : X) : ∫⁻ y, r x y z ∂V x ≤ 1 := by
  have := h.prob x
  calc ∫⁻ y, r x y z ∂V x ≤ ∫⁻ _, 1 ∂V x := lintegral_mono fun y => h.le_one x y z
    _ = 1 := by simp

theorem DiscOk.ofReal (h : DiscOk r V) (x z : X) :
    ENNReal.ofReal (discMatrix r V x z) = ∫⁻ y, r x y z ∂V x :=
  ENNReal.ofReal_toReal (ne_top_of_le_ne_top ENNReal.one_ne_top (h.mean_le_one x z))

theorem DiscOk.stochastic (h : DiscOk r V) : Stochastic (discMatrix r V) := by
  refine ⟨fun x z => ENNReal.toReal_nonneg, fun x => ?_⟩
  have := h.prob x
  have e : ∑ z, ∫⁻ y, r x y z ∂V x = 1 := by
    rw [← lintegral_finsetSum _ fun z _ => h.meas x z, lintegral_congr fun y => h.one x y]
    simp
  have e2 : ENNReal.ofReal (∑ z, discMatrix r V x z) = ENNReal.ofReal 1 := by
    have hn : ∀ z ∈ Finset.univ, 0 ≤ discMatrix r V x z := fun z _ => ENNReal.toReal_nonneg
    rw [ENNReal.ofReal_sum_of_nonneg hn,
      Finset.sum_congr rfl fun z _ => h.ofReal x z, e, ENNReal.ofReal_one]
  exact (ENNReal.ofReal_eq_ofReal_iff (Finset.sum_nonneg fun z _ => ENNReal.toReal_nonneg)
    zero_le_one).mp e2

theorem DiscOk.values_le (h : DiscOk r V) {Φ : X → Y → ℝ≥0∞} (hΦ : ∀ x y, Φ x y ≤ 1) (x : X) :
    ∫⁻ y, Φ x y ∂V x ≤ 1 := by
  have := h.prob x
  calc ∫⁻ y, Φ x y ∂V x ≤ ∫⁻ _, 1 ∂V x := lintegral_mono fun y => hΦ x y
    _ = 1 := by simp

theorem DiscOk.values_kernel (h : DiscOk r V) (Φ : X → Y → ℝ≥0∞) (x : X) :
    ∫⁻ y, discKernel r V Φ x y ∂V x =
      ∑ z, ENNReal.ofReal (discMatrix r V x z) * ∫⁻ y, Φ z y ∂V z := by
  unfold discKernel
  have hm : ∀ z : X, Measurable fun y => r x y z * ∫⁻ y', Φ z y' ∂V z :=
    fun z => (h.meas x z).mul_const _
  rw [lintegral_finsetSum _ fun z _ => hm z]
  refine Finset.sum_congr rfl fun z _ => ?_
  rw [lintegral_mul_const _ (h.meas x z), h.ofReal]

/-- Iterates are powers of the matrix. -/
theorem DiscOk.iterate (h : DiscOk r V) {Φ : X → Y → ℝ≥0∞} (hΦ : ∀ x y, Φ x y ≤ 1) (k : ℕ) (x : X) :
    ∫⁻ y, (discKernel r V)^[k] Φ x y ∂V x =
      ENNReal.ofReal (∑ z, (discMatrix r V ^ k) x z * (∫⁻ y, Φ z y ∂V z).toReal) := by
  have hs := h.stochastic
  induction k generalizing x with
  | zero =>
    have hne : ∫⁻ y, Φ x y ∂V x ≠ ∞ := ne_top_of_le_ne_top ENNReal.one_ne_top (h.values_le hΦ x)
    simp [Matrix.one_apply, ENNReal.ofReal_toReal hne]
  | succ k ih =>
    rw [Function.iterate_succ_apply', h.values_kernel]
    have e2 : ∀ z, ENNReal.ofReal (discMatrix r V x z) *
        ∫⁻ y, (discKernel r V)^[k] Φ z y ∂V z =
        ENNReal.ofReal (discMatrix r V x z *
          ∑ u, (discMatrix r V ^ k) z u * (∫⁻ y, Φ u y ∂V u).toReal) := by
      intro z
      rw [ih, ENNReal.ofReal_mul (hs.nonneg x z)]
    rw [Finset.sum_congr rfl fun z _ => e2 z, ← ENNReal.ofReal_sum_of_nonneg fun z _ =>
      mul_nonneg (hs.nonneg x z) (Finset.sum_nonneg fun u _ =>
        mul_nonneg ((hs.pow k).nonneg z u) ENNReal.toReal_nonneg)]
    congr 1
    rw [pow_succ']
    simp only [Matrix.mul_apply, Finset.sum_mul, Finset.mul_sum]
    rw [Finset.sum_comm]
    exact Finset.sum_congr rfl fun z _ => Finset.sum_congr rfl fun y _ => by ring

/-- If one place is reached from everywhere, the law of the chain approaches the invariant law
geometrically, from every start and uniformly in the function. -/
theorem DiscOk.converges (h : DiscOk r V) {z0 : X} (hpos : ∀ x, 0 < discMatrix r V x z0)
    {w : X → ℝ} (hw : ∀ x, 0 ≤ w x) (hw1 : ∑ x, w x = 1) (hinv : Invariant w (discMatrix r V)) :
    ∃ δ : ℝ, 0 < δ ∧ δ ≤ 1 ∧ ∀ (Φ : X → Y → ℝ≥0∞), (∀ x y, Φ x y ≤ 1) → ∀ (k : ℕ) (x : X) (y : Y),
      |((discKernel r V)^[k + 1] Φ x y).toReal - ∑ z, w z * (∫⁻ y, Φ z y ∂V z).toReal| ≤
        (1 - δ) ^ k := by
  have hs := h.stochastic
  obtain ⟨x0, -, h0⟩ := Finset.exists_min_image Finset.univ (fun x => discMatrix r V x z0)
    ⟨z0, Finset.mem_univ z0⟩
  obtain ⟨q, hqd⟩ : ∃ q : X → ℝ, q = fun y => if y = z0 then discMatrix r V x0 z0 else 0 := ⟨_, rfl⟩
  have hq : ∀ x y, q y ≤ discMatrix r V x y := by
    intro x y
    rw [hqd]
    dsimp only
    split
    · rename_i hy
      rw [hy]
      exact h0 x (Finset.mem_univ x)
    · exact hs.nonneg x y
  have hqs : ∑ y, q y = discMatrix r V x0 z0 := by
    rw [hqd]; simp
  have hle : discMatrix r V x0 z0 ≤ 1 := by
    rw [← hs.sum_one x0]
    exact Finset.single_le_sum (f := fun z => discMatrix r V x0 z) (fun z _ => hs.nonneg x0 z)
      (Finset.mem_univ z0)
  refine ⟨discMatrix r V x0 z0, hpos x0, hle, fun Φ hΦ k x y => ?_⟩
  obtain ⟨f, hf⟩ : ∃ f : X → ℝ, f = fun z => (∫⁻ y, Φ z y ∂V z).toReal := ⟨_, rfl⟩
  have hf0 : ∀ z, 0 ≤ f z := fun z => by rw [hf]; exact ENNReal.toReal_nonneg
  have hf1 : ∀ z, f z ≤ 1 := fun z => by
    rw [hf]
    exact ENNReal.toReal_le_of_le_ofReal zero_le_one
      (by rw [ENNReal.ofReal_one]; exact h.values_le hΦ z)
  have hC : ∀ a b, f a - f b ≤ 1 := fun a b => by linarith [hf0 b, hf1 a]
  have hconv : ∀ z, |∑ u, (discMatrix r V ^ k) z u * f u - ∑ u, w u * f u| ≤
      (1 - discMatrix r V x0 z0) ^ k := by
    intro z
    have := Chain.converges hs hq hw hw1 hinv f hC k z
    rwa [hqs, mul_one] at this
  have e : ((discKernel r V)^[k + 1] Φ x y).toReal =
      ∑ z, (r x y z).toReal * ∑ u, (discMatrix r V ^ k) z u * f u := by
    rw [Function.iterate_succ_apply']
    have e1 : discKernel r V ((discKernel r V)^[k] Φ) x y =
        ∑ z, r x y z * ENNReal.ofReal (∑ u, (discMatrix r V ^ k) z u * f u) := by
      unfold discKernel
      refine Finset.sum_congr rfl fun z _ => ?_
      rw [hf, ← h.iterate hΦ k z]
      rfl
    rw [e1, ENNReal.toReal_sum]
    · refine Finset.sum_congr rfl fun z _ => ?_
      rw [ENNReal.toReal_mul, ENNReal.toReal_ofReal]
      exact Finset.sum_nonneg fun u _ => mul_nonneg ((hs.pow k).nonneg z u) (hf0 u)
    · intro z _
      exact ENNReal.mul_ne_top (ne_top_of_le_ne_top ENNReal.one_ne_top (h.le_one x y z))
        ENNReal.ofReal_ne_top
  have hr1 : ∑ z, (r x y z).toReal = 1 := by
    rw [← ENNReal.toReal_sum fun z _ => ne_top_of_le_ne_top ENNReal.one_ne_top (h.le_one x y z),
      h.one x y, ENNReal.toReal_one]
  have e2 : ∑ z, (r x y z).toReal * ∑ u, (discMatrix r V ^ k) z u * f u - ∑ u, w u * f u =
      ∑ z, (r x y z).toReal * (∑ u, (discMatrix r V ^ k) z u * f u - ∑ u, w u * f u) := by
    rw [Finset.sum_congr rfl fun z _ => mul_sub _ _ _, Finset.sum_sub_distrib, ← Finset.sum_mul,
      hr1, one_mul]
  have e3 : ∑ z, w z * (∫⁻ y, Φ z y ∂V z).toReal = ∑ u, w u * f u := by rw [hf]
  rw [e, e3, e2]
  calc _ ≤ ∑ z, |(r x y z).toReal * (∑ u, (discMatrix r V ^ k) z u * f u - ∑ u, w u * f u)| :=
        Finset.abs_sum_le_sum_abs _ _
    _ ≤ ∑ z, (r x y z).toReal * (1 - discMatrix r V x0 z0) ^ k := by
        refine Finset.sum_le_sum fun z _ => ?_
        rw [abs_mul, abs_of_nonneg ENNReal.toReal_nonneg]
        exact mul_le_mul_of_nonneg_left (hconv z) ENNReal.toReal_nonneg
    _ = _ := by rw [← Finset.sum_mul, hr1, one_mul]

/-! ### Steps given by means -/

/-- Functions that are measurable in the values. -/
def MeasX (Φ : X → Y → ℝ≥0∞) : Prop := ∀ z, Measurable (Φ z)

/-- `R Φ` is the mean of `Φ` after a random step. -/
structure Step (R : (X → Y → ℝ≥0∞) → X → Y → ℝ≥0∞) : Prop where
  meas : ∀ Φ, MeasX Φ → MeasX (R Φ)
  add : ∀ Φ Ψ, MeasX Φ → MeasX Ψ → ∀ x y, R (fun x y => Φ x y + Ψ x y) x y = R Φ x y + R Ψ x y
  mul : ∀ (c : ℝ≥0∞) Φ, MeasX Φ → ∀ x y, R (fun x y => c * Φ x y) x y = c * R Φ x y
  one : ∀ x y, R (fun _ _ => 1) x y = 1

theorem Step.id : Step (X := X) (Y := Y) fun Φ => Φ :=
  ⟨fun _ h => h, fun _ _ _ _ _ _ => rfl, fun _ _ _ _ _ => rfl, fun _ _ => rfl⟩

theorem Step.comp {R S : (X → Y → ℝ≥0∞) → X → Y → ℝ≥0∞} (hR : Step R) (hS : Step S) :
    Step fun Φ => R (S Φ) := by
  refine ⟨fun Φ h => hR.meas _ (hS.meas Φ h), fun Φ Ψ h1 h2 x y => ?_, fun c Φ h x y => ?_,
    fun x y => ?_⟩
  · rw [show S (fun x y => Φ x y + Ψ x y) = fun x y => S Φ x y + S Ψ x y from
      funext fun x => funext fun y => hS.add Φ Ψ h1 h2 x y]
    exact hR.add _ _ (hS.meas Φ h1) (hS.meas Ψ h2) x y
  · rw [show S (fun x y => c * Φ x y) = fun x y => c * S Φ x y from
      funext fun x => funext fun y => hS.mul c Φ h x y]
    exact hR.mul c _ (hS.meas Φ h) x y
  · rw [show S (fun _ _ => 1) = fun _ _ => 1 from funext fun x => funext fun y => hS.one x y]
    exact hR.one x y

/-- The indicator of a place. -/
def ind (z : X) : X → Y → ℝ≥0∞ := fun x _ => if x = z then 1 else 0

omit [Fintype X] in
theorem measX_ind (z : X) : MeasX (Y := Y) (ind z) := fun _ => measurable_const

omit [Fintype X] [DecidableEq X] in
theorem Step.zero {R : (X → Y → ℝ≥0∞) → X → Y → ℝ≥0∞} (hR : Step R) (x : X) (y : Y) :
    R (fun _ _ => 0) x y = 0 := by
  have := hR.mul 0 (fun _ _ => 0) (fun _ => measurable_const) x y
  simpa using this

omit [Fintype X] [DecidableEq X] in
theorem Step.sum {R : (X → Y → ℝ≥0∞) → X → Y → ℝ≥0∞} (hR : Step R) {ι : Type} (D : Finset ι)
    (Φ : ι → X → Y → ℝ≥0∞) (hΦ : ∀ k, MeasX (Φ k)) (x : X) (y : Y) :
    R (fun x y => ∑ k ∈ D, Φ k x y) x y = ∑ k ∈ D, R (Φ k) x y := by
  classical
  induction D using Finset.induction_on generalizing x y with
  | empty => simpa using hR.zero x y
  | insert k D hk ih =>
    simp only [Finset.sum_insert hk]
    rw [hR.add _ _ (hΦ k) (fun z => Finset.measurable_sum D fun i _ => hΦ i z), ih]

omit [Fintype X] [DecidableEq X] in
theorem Step.le_one {R : (X → Y → ℝ≥0∞) → X → Y → ℝ≥0∞} (hR : Step R) {Φ : X → Y → ℝ≥0∞}
    (hΦ : MeasX Φ) (hle : ∀ x y, Φ x y ≤ 1) (x : X) (y : Y) : R Φ x y ≤ 1 := by
  have h := hR.add Φ (fun x y => 1 - Φ x y) hΦ (fun z => measurable_const.sub (hΦ z)) x y
  have e : (fun x y => Φ x y + (1 - Φ x y)) = fun _ _ => 1 :=
    funext fun x => funext fun y => add_tsub_cancel_of_le (hle x y)
  rw [e, hR.one] at h
  rw [h]
  exact le_self_add

/-- The mean of a function of the place. -/
theorem Step.place {R : (X → Y → ℝ≥0∞) → X → Y → ℝ≥0∞} (hR : Step R) (f : X → ℝ≥0∞) (x : X) (y : Y) :
    R (fun z _ => f z) x y = ∑ z, R (ind z) x y * f z := by
  have e : (fun (z : X) (_ : Y) => f z) = fun z y => ∑ u, f u * ind (Y := Y) u z y := by
    funext z y
    simp [ind]
  rw [e, hR.sum Finset.univ (fun u z y => f u * ind (Y := Y) u z y) fun u z =>
    (measX_ind u z).const_mul _]
  refine Finset.sum_congr rfl fun u _ => ?_
  rw [hR.mul _ _ (measX_ind u), mul_comm]

theorem Step.discOk {R : (X → Y → ℝ≥0∞) → X → Y → ℝ≥0∞} (hR : Step R)
    (hV : ∀ x, IsProbabilityMeasure (V x)) : DiscOk (fun x y z => R (ind z) x y) V := by
  refine ⟨fun x z => hR.meas _ (measX_ind z) x, fun x y => ?_, hV⟩
  rw [← hR.one x y, hR.place fun _ => 1]
  simp

theorem Step.kernel {R : (X → Y → ℝ≥0∞) → X → Y → ℝ≥0∞} (hR : Step R) (Φ : X → Y → ℝ≥0∞) :
    (R fun z _ => ∫⁻ y, Φ z y ∂V z) = discKernel (fun x y z => R (ind z) x y) V Φ :=
  funext fun x => funext fun y => hR.place _ x y

/-- If the step leaves the law with weights `m` for the places and laws `V` for the values invariant
and one place is reached from everywhere, step and new values together converge to that law. -/
theorem Step.converges {R : (X → Y → ℝ≥0∞) → X → Y → ℝ≥0∞} (hR : Step R)
    (hV : ∀ x, IsProbabilityMeasure (V x)) {m : X → ℝ≥0∞} (hm0 : ∑ z, m z ≠ 0) (hm1 : ∑ z, m z ≠ ∞)
    (hinv : ∀ Φ, MeasX Φ → ∑ z, m z * ∫⁻ y, R Φ z y ∂V z = ∑ z, m z * ∫⁻ y, Φ z y ∂V z) {z0 : X}
    (hpos : ∀ x y, 0 < R (ind z0) x y) :
    ∃ δ : ℝ, 0 < δ ∧ δ ≤ 1 ∧ ∀ (Φ : X → Y → ℝ≥0∞), (∀ x y, Φ x y ≤ 1) → ∀ (k : ℕ) (x : X) (y : Y),
      |(((fun Ψ => R fun z _ => ∫⁻ y, Ψ z y ∂V z)^[k + 1]) Φ x y).toReal -
        ((∑ z, m z * ∫⁻ y, Φ z y ∂V z) / ∑ z, m z).toReal| ≤ (1 - δ) ^ k := by
  have hok := hR.discOk hV
  obtain ⟨Z, hZ⟩ : ∃ Z, Z = ∑ z, m z := ⟨_, rfl⟩
  rw [← hZ] at hm0 hm1
  have hmz : ∀ z, m z ≠ ∞ := fun z => ne_top_of_le_ne_top hm1 (by
    rw [hZ]
    exact Finset.single_le_sum (f := m) (fun z _ => zero_le) (Finset.mem_univ z))
  have hwt : ∀ z, m z / Z ≠ ∞ := fun z => ENNReal.div_ne_top (hmz z) hm0
  have hw1 : ∑ z, (m z / Z).toReal = 1 := by
    rw [← ENNReal.toReal_sum fun z _ => hwt z]
    simp only [div_eq_mul_inv]
    rw [← Finset.sum_mul, ← hZ, ENNReal.mul_inv_cancel hm0 hm1, ENNReal.toReal_one]
  have hpos' : ∀ x, 0 < discMatrix (fun x y z => R (ind z) x y) V x z0 := by
    intro x
    have := hV x
    refine ENNReal.toReal_pos ?_ (ne_top_of_le_ne_top ENNReal.one_ne_top (hok.mean_le_one x z0))
    rw [← pos_iff_ne_zero, lintegral_pos_iff_support (hok.meas x z0)]
    have : Function.support (fun y => R (ind z0) x y) = Set.univ := by
      ext y
      simp [(hpos x y).ne']
    rw [this]
    simp
  have hI : Invariant (fun z => (m z / Z).toReal) (discMatrix (fun x y z => R (ind z) x y) V) := by
    intro z
    have e : ∀ x, (m x / Z).toReal * discMatrix (fun x y z => R (ind z) x y) V x z =
        (m x / Z * ∫⁻ y, R (ind z) x y ∂V x).toReal := by
      intro x
      rw [ENNReal.toReal_mul]
      rfl
    rw [Finset.sum_congr rfl fun x _ => e x, ← ENNReal.toReal_sum fun x _ =>
      ENNReal.mul_ne_top (hwt x) (ne_top_of_le_ne_top ENNReal.one_ne_top (hok.mean_le_one x z))]
    congr 1
    have e2 : ∀ x, m x / Z * ∫⁻ y, R (ind z) x y ∂V x = (m x * ∫⁻ y, R (ind z) x y ∂V x) * Z⁻¹ := by
      intro x
      rw [div_eq_mul_inv]
      ring
    rw [Finset.sum_congr rfl fun x _ => e2 x, ← Finset.sum_mul, hinv _ (measX_ind z),
      div_eq_mul_inv]
    congr 1
    rw [Finset.sum_eq_single z]
    · have := hV z
      simp [ind]
    · intro x _ hx
      simp [ind, hx]
    · exact fun h => absurd (Finset.mem_univ z) h
  obtain ⟨δ, h1, h2, h3⟩ := hok.converges hpos' (fun z => ENNReal.toReal_nonneg) hw1 hI
  refine ⟨δ, h1, h2, fun Φ hΦ k x y => ?_⟩
  have := h3 Φ hΦ k x y
  have e : (fun Ψ => R fun z _ => ∫⁻ y, Ψ z y ∂V z) =
      discKernel (fun x y z => R (ind z) x y) V := funext fun Ψ => hR.kernel Ψ
  rw [e]
  have e2 : ((∑ z, m z * ∫⁻ y, Φ z y ∂V z) / ∑ z, m z).toReal =
      ∑ z, (m z / Z).toReal * (∫⁻ y, Φ z y ∂V z).toReal := by
    rw [← hZ, div_eq_mul_inv, Finset.sum_mul, ENNReal.toReal_sum]
    · refine Finset.sum_congr rfl fun z _ => ?_
      rw [← ENNReal.toReal_mul, div_eq_mul_inv]
      congr 1
      ring
    · intro z _
      exact ENNReal.mul_ne_top (ENNReal.mul_ne_top (hmz z)
        (ne_top_of_le_ne_top ENNReal.one_ne_top (hok.values_le hΦ z))) (ENNReal.inv_ne_top.mpr hm0)
  rw [e2]
  exact this

end Bayesmix.Chain
