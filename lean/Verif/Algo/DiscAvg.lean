import Mathlib.MeasureTheory.Integral.Bochner.Basic
import Mathlib.MeasureTheory.Function.L1Space.Integrable
import Mathlib.Algebra.Order.Field.GeomSum
import Verif.Algo.DiscKernel

/-!
# Averages over chains that remember finitely many things

Second moments of sums of a function with two moments over the states of a chain of `DiscKernel`:
general facts, not about the code.
-/

namespace Bayesmix.Chain
open Bayesmix Cond MeasureTheory
open scoped ENNReal

variable {X : Type} [Fintype X] {Y : Type} [MeasurableSpace Y]

/-- The mean of `F` of the sum of `φ` over `N` steps, added to `acc`. -/
noncomputable def discSum (r : X → Y → X → ℝ≥0∞) (V : X → Measure Y) (F : ℝ → ℝ≥0∞) (φ : X → Y → ℝ) :
    ℕ → ℝ → X → Y → ℝ≥0∞
  | 0, acc => fun _ _ => F acc
  | N + 1, acc => discKernel r V fun z y => discSum r V F φ N (acc + φ z y) z y

/-- The mean of a real function after a step. -/
noncomputable def discReal (r : X → Y → X → ℝ≥0∞) (V : X → Measure Y) (f : X → Y → ℝ) (x : X) (y : Y) :
    ℝ := ∑ z, (r x y z).toReal * ∫ y', f z y' ∂V z

variable {r : X → Y → X → ℝ≥0∞} {V : X → Measure Y}

theorem DiscOk.ne_top (h : DiscOk r V) (x : X) (y : Y) (z : X) : r x y z ≠ ∞ := by
  refine ne_top_of_le_ne_top ENNReal.one_ne_top ?_
  rw [← h.one x y]
  exact Finset.single_le_sum (f := fun z => r x y z) (fun _ _ => zero_le) (Finset.mem_univ z)

theorem DiscOk.real_one (h : DiscOk r V) (x : X) (y : Y) : ∑ z, (r x y z).toReal = 1 := by
  rw [← ENNReal.toReal_sum fun z _ => h.ne_top x y z, h.one, ENNReal.toReal_one]

theorem discKernel_ofReal (h : DiscOk r V) {f : X → Y → ℝ} (h0 : ∀ z y, 0 ≤ f z y)
    (hi : ∀ z, Integrable (f z) (V z)) (x : X) (y : Y) :
    discKernel r V (fun z y => ENNReal.ofReal (f z y)) x y = ENNReal.ofReal (discReal r V f x y) := by
  unfold discKernel discReal
  rw [ENNReal.ofReal_sum_of_nonneg fun z _ => mul_nonneg ENNReal.toReal_nonneg
    (integral_nonneg fun y => h0 z y)]
  refine Finset.sum_congr rfl fun z _ => ?_
  rw [ENNReal.ofReal_mul ENNReal.toReal_nonneg, ENNReal.ofReal_toReal (h.ne_top x y z),
    ofReal_integral_eq_lintegral_ofReal (hi z) (Filter.Eventually.of_forall fun y => h0 z y)]

theorem discReal_add {f g : X → Y → ℝ} (hf : ∀ z, Integrable (f z) (V z))
    (hg : ∀ z, Integrable (g z) (V z)) (x : X) (y : Y) :
    discReal r V (fun z y => f z y + g z y) x y = discReal r V f x y + discReal r V g x y := by
  unfold discReal
  rw [← Finset.sum_add_distrib]
  refine Finset.sum_congr rfl fun z _ => ?_
  rw [integral_add (hf z) (hg z)]
  ring

theorem discReal_mul (c : ℝ) (f : X → Y → ℝ) (x : X) (y : Y) :
    discReal r V (fun z y => c * f z y) x y = c * discReal r V f x y := by
  unfold discReal
  rw [Finset.mul_sum]
  refine Finset.sum_congr rfl fun z _ => ?_
  rw [integral_const_mul]
  ring

theorem discReal_const (h : DiscOk r V) (c : ℝ) (x : X) (y : Y) :
    discReal r V (fun _ _ => c) x y = c := by
  unfold discReal
  have := h.prob
  simp only [integral_const, probReal_univ, one_smul]
  rw [← Finset.sum_mul, h.real_one, one_mul]

theorem discReal_sum {ι : Type} (D : Finset ι) {f : ι → X → Y → ℝ}
    (hf : ∀ i z, Integrable (f i z) (V z)) (x : X) (y : Y) :
    discReal r V (fun z y => ∑ i ∈ D, f i z y) x y = ∑ i ∈ D, discReal r V (f i) x y := by
  unfold discReal
  rw [Finset.sum_comm]
  refine Finset.sum_congr rfl fun z _ => ?_
  rw [integral_finsetSum D fun i _ => hf i z, Finset.mul_sum]

theorem discReal_le (h : DiscOk r V) {f : X → Y → ℝ} {Q : ℝ} (hQ : ∀ z, ∫ y, f z y ∂V z ≤ Q) (x : X)
    (y : Y) : discReal r V f x y ≤ Q := by
  unfold discReal
  calc _ ≤ ∑ z, (r x y z).toReal * Q :=
        Finset.sum_le_sum fun z _ => mul_le_mul_of_nonneg_left (hQ z) ENNReal.toReal_nonneg
    _ = Q := by rw [← Finset.sum_mul, h.real_one, one_mul]

theorem discKernel_mono {Φ Ψ : X → Y → ℝ≥0∞} (hle : ∀ x y, Φ x y ≤ Ψ x y) (x : X) (y : Y) :
    discKernel r V Φ x y ≤ discKernel r V Ψ x y :=
  Finset.sum_le_sum fun z _ => mul_le_mul_right (lintegral_mono fun y => hle z y) _

theorem measurable_discKernel (h : DiscOk r V) (Φ : X → Y → ℝ≥0∞) (x : X) :
    Measurable (discKernel r V Φ x) :=
  Finset.measurable_sum _ fun z _ => (h.meas x z).mul_const _

/-- What is asked of the function. -/
structure TwoMoments (r : X → Y → X → ℝ≥0∞) (V : X → Measure Y) (φ : X → Y → ℝ) (L b δ : ℝ) : Prop where
  meas : ∀ z, Measurable (φ z)
  nonneg : ∀ z y, 0 ≤ φ z y
  one : ∀ z, Integrable (φ z) (V z)
  two : ∀ z, Integrable (fun y => φ z y ^ 2) (V z)
  pos : 0 < δ
  le : δ ≤ 1
  fin : ∀ k x y, (discKernel r V)^[k + 1] (fun z y => ENNReal.ofReal (φ z y)) x y ≠ ∞
  conv : ∀ k x y, |((discKernel r V)^[k + 1] (fun z y => ENNReal.ofReal (φ z y)) x y).toReal - L| ≤
    b * (1 - δ) ^ k

section moments

variable {φ : X → Y → ℝ} {L b δ : ℝ}

/-- Mean of the sum over `N` steps, centered. -/
noncomputable def meanSum (r : X → Y → X → ℝ≥0∞) (V : X → Measure Y) (φ : X → Y → ℝ) (L : ℝ) (N : ℕ)
    (x : X) (y : Y) : ℝ :=
  ∑ j ∈ Finset.range N, (((discKernel r V)^[j + 1] (fun z y => ENNReal.ofReal (φ z y)) x y).toReal - L)

theorem TwoMoments.meanSum_le (h : TwoMoments r V φ L b δ) (N : ℕ) (x : X) (y : Y) :
    |meanSum r V φ L N x y| ≤ b / δ := by
  have hb : 0 ≤ b := by
    have := (abs_nonneg _).trans (h.conv 0 x y)
    simpa using this
  have hpos := h.pos
  have hle := h.le
  unfold meanSum
  refine (Finset.abs_sum_le_sum_abs _ _).trans ((Finset.sum_le_sum fun j _ => h.conv j x y).trans ?_)
  rw [← Finset.mul_sum, div_eq_mul_inv]
  refine mul_le_mul_of_nonneg_left ?_ hb
  rw [← one_div, le_div_iff₀ hpos]
  have := mul_neg_geom_sum (1 - δ) N
  have hp : 0 ≤ (1 - δ) ^ N := pow_nonneg (by linarith) N
  nlinarith

theorem TwoMoments.iterate_int (hok : DiscOk r V) (h : TwoMoments r V φ L b δ) (k : ℕ) (z : X) :
    Integrable (fun y => ((discKernel r V)^[k + 1] (fun z y => ENNReal.ofReal (φ z y)) z y).toReal)
      (V z) := by
  have := hok.prob z
  refine Integrable.of_bound (C := b * (1 - δ) ^ k + |L|) ?_ (Filter.Eventually.of_forall fun y => ?_)
  · rw [Function.iterate_succ_apply']
    exact (measurable_discKernel hok _ z).ennreal_toReal.aestronglyMeasurable
  · rw [Real.norm_eq_abs]
    have h1 := h.conv k z y
    have h2 := abs_add_le ((((discKernel r V)^[k + 1] (fun z y => ENNReal.ofReal (φ z y)) z y).toReal -
      L)) L
    rw [sub_add_cancel] at h2
    linarith

theorem TwoMoments.iterate_succ (hok : DiscOk r V) (h : TwoMoments r V φ L b δ) (k : ℕ) (x : X) (y : Y) :
    discReal r V (fun z y => ((discKernel r V)^[k + 1] (fun z y => ENNReal.ofReal (φ z y)) z y).toReal)
      x y = ((discKernel r V)^[k + 2] (fun z y => ENNReal.ofReal (φ z y)) x y).toReal := by
  have h1 := discKernel_ofReal hok (f := fun z y =>
    ((discKernel r V)^[k + 1] (fun z y => ENNReal.ofReal (φ z y)) z y).toReal)
    (fun _ _ => ENNReal.toReal_nonneg) (h.iterate_int hok k) x y
  have e : (fun z y => ENNReal.ofReal
      ((discKernel r V)^[k + 1] (fun z y => ENNReal.ofReal (φ z y)) z y).toReal) =
      (discKernel r V)^[k + 1] (fun z y => ENNReal.ofReal (φ z y)) :=
    funext fun z => funext fun y => ENNReal.ofReal_toReal (h.fin k z y)
  rw [e, ← Function.iterate_succ_apply' (discKernel r V)] at h1
  rw [h1, ENNReal.toReal_ofReal]
  exact Finset.sum_nonneg fun z _ => mul_nonneg ENNReal.toReal_nonneg
    (integral_nonneg fun _ => ENNReal.toReal_nonneg)

theorem TwoMoments.meanSum_int (hok : DiscOk r V) (h : TwoMoments r V φ L b δ) (N : ℕ) (z : X) :
    Integrable (meanSum r V φ L N z) (V z) := by
  have := hok.prob z
  exact integrable_finsetSum _ fun j _ => (h.iterate_int hok j z).sub (integrable_const _)

theorem TwoMoments.meanSum_succ (hok : DiscOk r V) (h : TwoMoments r V φ L b δ) (N : ℕ) (x : X) (y : Y) :
    discReal r V (fun z y => (φ z y - L) + meanSum r V φ L N z y) x y = meanSum r V φ L (N + 1) x y := by
  have hp := hok.prob
  have hcL : ∀ z : X, Integrable (fun _ : Y => -L) (V z) := fun z => integrable_const _
  rw [discReal_add (f := fun z y => φ z y - L) (fun z => (h.one z).sub (integrable_const _))
    (h.meanSum_int hok N)]
  unfold meanSum
  rw [discReal_sum (f := fun j z y =>
      ((discKernel r V)^[j + 1] (fun z y => ENNReal.ofReal (φ z y)) z y).toReal - L) _
      fun j z => (h.iterate_int hok j z).sub (integrable_const _),
    Finset.sum_range_succ', add_comm]
  have hsub : ∀ {f : X → Y → ℝ}, (∀ z, Integrable (f z) (V z)) →
      discReal r V (fun z y => f z y - L) x y = discReal r V f x y - L := by
    intro f hf
    simp only [sub_eq_add_neg]
    rw [discReal_add hf hcL, discReal_const hok]
  congr 1
  · refine Finset.sum_congr rfl fun j _ => ?_
    rw [hsub (h.iterate_int hok j), h.iterate_succ hok]
  · rw [hsub h.one]
    congr 1
    rw [zero_add, Function.iterate_one, discKernel_ofReal hok h.nonneg h.one, ENNReal.toReal_ofReal]
    exact Finset.sum_nonneg fun z _ => mul_nonneg ENNReal.toReal_nonneg
      (integral_nonneg fun y => h.nonneg z y)

/-- Second moment of the sum. -/
theorem TwoMoments.second (hok : DiscOk r V) (h : TwoMoments r V φ L b δ) : ∃ Q : ℝ, 0 ≤ Q ∧
    ∀ (s : ℝ) (N : ℕ) (acc : ℝ) (x : X) (y : Y),
      discSum r V (fun t => ENNReal.ofReal ((t - s) ^ 2)) φ N acc x y ≤
        ENNReal.ofReal ((acc + N * L - s) ^ 2 + 2 * (acc + N * L - s) * meanSum r V φ L N x y +
          (b / δ) ^ 2 + N * Q) := by
  have hp := hok.prob
  obtain ⟨W, hW⟩ : ∃ W, W = b / δ := ⟨_, rfl⟩
  have hu := h.meanSum_le
  rw [← hW] at hu ⊢
  obtain ⟨g, hg⟩ : ∃ g : X → Y → ℝ, g = fun z y => φ z y - L := ⟨_, rfl⟩
  have hgm : ∀ z, Measurable (g z) := fun z => by
    rw [hg]
    exact (h.meas z).sub_const L
  have hg1 : ∀ z, Integrable (g z) (V z) := fun z => by
    rw [hg]
    exact (h.one z).sub (integrable_const _)
  have hg2 : ∀ z, Integrable (fun y => g z y ^ 2) (V z) := fun z => by
    have e : (fun y => g z y ^ 2) = fun y => φ z y ^ 2 + (-2 * L * φ z y + L ^ 2) := by
      funext y
      rw [hg]
      ring
    rw [e]
    exact (h.two z).add (((h.one z).const_mul _).add (integrable_const _))
  have hum : ∀ N z, AEStronglyMeasurable (meanSum r V φ L N z) (V z) := fun N z =>
    (h.meanSum_int hok N z).aestronglyMeasurable
  have hgu : ∀ N z, Integrable (fun y => g z y * meanSum r V φ L N z y) (V z) := fun N z => by
    refine ((hg1 z).bdd_mul (hum N z) (c := W) (Filter.Eventually.of_forall fun y => ?_)).congr
      (Filter.Eventually.of_forall fun y => mul_comm _ _)
    rw [Real.norm_eq_abs]
    exact hu N z y
  obtain ⟨q, hq⟩ : ∃ q : X → ℝ, q = fun z => ∫ y, g z y ^ 2 + 2 * W * |g z y| ∂V z := ⟨_, rfl⟩
  by_cases hXY : Nonempty X ∧ Nonempty Y
  swap
  · refine ⟨0, le_rfl, fun s N acc x y => absurd ⟨⟨x⟩, ⟨y⟩⟩ hXY⟩
  have hW0 : 0 ≤ W := by
    obtain ⟨⟨x⟩, ⟨y⟩⟩ := hXY
    exact (abs_nonneg _).trans (hu 0 x y)
  have hq0 : ∀ z, 0 ≤ q z := fun z => by
    rw [hq]
    exact integral_nonneg fun y => by positivity
  have hqz : ∀ N z, ∫ y, g z y ^ 2 + 2 * (g z y * meanSum r V φ L N z y) ∂V z ≤ ∑ z, q z := by
    intro N z
    refine le_trans ?_ (Finset.single_le_sum (f := q) (fun z _ => hq0 z) (Finset.mem_univ z))
    rw [hq]
    refine integral_mono ((hg2 z).add ((hgu N z).const_mul 2))
      ((hg2 z).add ((hg1 z).abs.const_mul (2 * W))) fun y => ?_
    have h1 : g z y * meanSum r V φ L N z y ≤ |g z y| * W := by
      refine (le_abs_self _).trans ?_
      rw [abs_mul]
      exact mul_le_mul_of_nonneg_left (hu N z y) (abs_nonneg _)
    dsimp only
    linarith
  refine ⟨∑ z, q z, Finset.sum_nonneg fun z _ => hq0 z, fun s N => ?_⟩
  obtain ⟨Q, hQ⟩ : ∃ Q, Q = ∑ z, q z := ⟨_, rfl⟩
  have hQ0 : 0 ≤ Q := hQ ▸ Finset.sum_nonneg fun z _ => hq0 z
  rw [← hQ] at hqz ⊢
  induction N with
  | zero =>
    intro acc x y
    refine ENNReal.ofReal_le_ofReal ?_
    simp only [Nat.cast_zero, zero_mul, add_zero, meanSum, Finset.range_zero, Finset.sum_empty,
      mul_zero]
    nlinarith [sq_nonneg W]
  | succ N ih =>
    intro acc x y
    obtain ⟨a, ha⟩ : ∃ a, a = acc + ((N + 1 : ℕ) : ℝ) * L - s := ⟨_, rfl⟩
    rw [← ha]
    obtain ⟨B, hB⟩ : ∃ B : X → Y → ℝ, B = fun z y =>
      (a ^ 2 + W ^ 2 + N * Q) + (2 * a * (g z y + meanSum r V φ L N z y) +
        (g z y ^ 2 + 2 * (g z y * meanSum r V φ L N z y))) := ⟨_, rfl⟩
    have hBi1 : ∀ z, Integrable (fun y => 2 * a * (g z y + meanSum r V φ L N z y)) (V z) := fun z =>
      ((hg1 z).add (h.meanSum_int hok N z)).const_mul _
    have hBi2 : ∀ z, Integrable (fun y => g z y ^ 2 + 2 * (g z y * meanSum r V φ L N z y)) (V z) :=
      fun z => (hg2 z).add ((hgu N z).const_mul 2)
    have hBi : ∀ z, Integrable (B z) (V z) := fun z => by
      rw [hB]
      exact (integrable_const _).add ((hBi1 z).add (hBi2 z))
    have hB0 : ∀ z y, 0 ≤ B z y := by
      intro z y
      have h1 := hu N z y
      have h2 : meanSum r V φ L N z y ^ 2 ≤ W ^ 2 := by
        rw [← sq_abs (meanSum r V φ L N z y)]
        exact pow_le_pow_left₀ (abs_nonneg _) h1 2
      have h3 : (0 : ℝ) ≤ N * Q := by positivity
      rw [hB]
      nlinarith [sq_nonneg (a + g z y + meanSum r V φ L N z y)]
    have hle : ∀ z y, discSum r V (fun t => ENNReal.ofReal ((t - s) ^ 2)) φ N (acc + φ z y) z y ≤
        ENNReal.ofReal (B z y) := by
      intro z y
      refine (ih _ z y).trans (ENNReal.ofReal_le_ofReal (le_of_eq ?_))
      have e : acc + φ z y + N * L - s = a + g z y := by
        rw [ha, hg]
        push_cast
        ring
      rw [e, hB]
      ring
    calc discSum r V (fun t => ENNReal.ofReal ((t - s) ^ 2)) φ (N + 1) acc x y
        ≤ discKernel r V (fun z y => ENNReal.ofReal (B z y)) x y := discKernel_mono hle x y
      _ = ENNReal.ofReal (discReal r V B x y) := discKernel_ofReal hok hB0 hBi x y
      _ ≤ _ := ENNReal.ofReal_le_ofReal ?_
    have hBi3 : ∀ z, Integrable (fun y => 2 * a * (g z y + meanSum r V φ L N z y) +
        (g z y ^ 2 + 2 * (g z y * meanSum r V φ L N z y))) (V z) := fun z => (hBi1 z).add (hBi2 z)
    rw [hB, discReal_add (f := fun _ _ => a ^ 2 + W ^ 2 + N * Q) (fun z => integrable_const _) hBi3,
      discReal_const hok, discReal_add hBi1 hBi2, discReal_mul]
    have e := h.meanSum_succ hok N x y
    rw [hg] at hqz ⊢
    rw [e]
    have h5 := discReal_le hok (hqz N) x y
    push_cast
    linarith

/-- Chebyshev's inequality for averages. -/
theorem TwoMoments.average (hok : DiscOk r V) (h : TwoMoments r V φ L b δ) : ∃ C : ℝ, 0 < C ∧
    ∀ (N : ℕ), 0 < N → ∀ ε : ℝ, 0 < ε → ∀ (x : X) (y : Y),
      discSum r V (Set.indicator {t : ℝ | ε ≤ |t / N - L|} 1) φ N 0 x y ≤
        ENNReal.ofReal (C / (N * ε ^ 2)) := by
  obtain ⟨Q, Q0, hQ⟩ := h.second hok
  refine ⟨(b / δ) ^ 2 + Q + 1, by positivity, fun N hN ε hε x y => ?_⟩
  have hN' : (0 : ℝ) < N := by exact_mod_cast hN
  have hN1 : (1 : ℝ) ≤ N := by exact_mod_cast hN
  have hmono : ∀ {F F' : ℝ → ℝ≥0∞}, (∀ t, F t ≤ F' t) → ∀ N acc x y,
      discSum r V F φ N acc x y ≤ discSum r V F' φ N acc x y := by
    intro F F' hF N
    induction N with
    | zero => exact fun acc _ _ => hF acc
    | succ N ih => exact fun acc x y => discKernel_mono (fun z y => ih _ z y) x y
  have hmul : ∀ (c : ℝ≥0∞), c ≠ ∞ → ∀ (F : ℝ → ℝ≥0∞) N acc x y,
      discSum r V (fun t => c * F t) φ N acc x y = c * discSum r V F φ N acc x y := by
    intro c hc F N
    induction N with
    | zero => exact fun acc _ _ => rfl
    | succ N ih =>
      intro acc x y
      unfold discSum discKernel
      rw [Finset.mul_sum]
      refine Finset.sum_congr rfl fun z _ => ?_
      rw [lintegral_congr fun y => ih (acc + φ z y) z y, lintegral_const_mul' _ _ hc]
      ring
  have hle : ∀ t : ℝ, Set.indicator {t : ℝ | ε ≤ |t / N - L|} (1 : ℝ → ℝ≥0∞) t ≤
      ENNReal.ofReal ((ε * N) ^ 2)⁻¹ * ENNReal.ofReal ((t - N * L) ^ 2) := by
    intro t
    by_cases ht : ε ≤ |t / N - L|
    · rw [Set.indicator_of_mem (show t ∈ {t : ℝ | ε ≤ |t / N - L|} from ht), Pi.one_apply,
        ← ENNReal.ofReal_mul (by positivity), ← ENNReal.ofReal_one]
      refine ENNReal.ofReal_le_ofReal ?_
      rw [← div_eq_inv_mul, le_div_iff₀ (by positivity), one_mul]
      have e : t - N * L = (t / N - L) * N := by field_simp
      rw [e, mul_pow, mul_pow, ← sq_abs (t / N - L)]
      exact mul_le_mul_of_nonneg_right (pow_le_pow_left₀ hε.le ht 2) (by positivity)
    · rw [Set.indicator_of_notMem (show t ∉ {t : ℝ | ε ≤ |t / N - L|} from ht)]
      exact zero_le
  refine (hmono hle N 0 x y).trans ?_
  rw [hmul _ ENNReal.ofReal_ne_top]
  refine (mul_le_mul_right (hQ (N * L) N 0 x y) _).trans ?_
  rw [← ENNReal.ofReal_mul (by positivity)]
  refine ENNReal.ofReal_le_ofReal ?_
  rw [← div_eq_inv_mul, div_le_div_iff₀ (by positivity) (by positivity)]
  have e1 : (0 : ℝ) + N * L - N * L = 0 := by ring
  rw [e1]
  have h3 : (b / δ) ^ 2 ≤ N * (b / δ) ^ 2 := le_mul_of_one_le_left (sq_nonneg _) hN1
  have h4 : (0 : ℝ) ≤ N * ε ^ 2 := by positivity
  have h5 : (0 : ℝ) ^ 2 + 2 * 0 * meanSum r V φ L N x y + (b / δ) ^ 2 + N * Q ≤
      N * ((b / δ) ^ 2 + Q + 1) := by nlinarith
  calc _ ≤ N * ((b / δ) ^ 2 + Q + 1) * (N * ε ^ 2) := mul_le_mul_of_nonneg_right h5 h4
    _ = ((b / δ) ^ 2 + Q + 1) * (ε * N) ^ 2 := by ring

end moments

end Bayesmix.Chain
