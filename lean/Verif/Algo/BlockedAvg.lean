import Mathlib.Algebra.Order.Field.GeomSum
import Verif.Algo.BlockedRun

/-!
# Averages over runs of blocked Gibbs

A bound on the second moment of sums over the states of a run.
-/

namespace Bayesmix.Cond
open Bayesmix Mixing Slice Gibbs MeasureTheory ENNReal Hierarchies

variable {G H Θ : Type} [AddCommGroup G] [MeasurableSpace Θ]
  {E : Env G H Θ} {like : Θ → ℕ → ℝ} {ν : H → Measure Θ} {Q : ℕ → Option H} {h : H} {prior : SBPrior} {n K : ℕ}
  {a b : Fin K → ℝ}

/-- The mean of `F` of the sum of `φ` over `N` steps of the kernel, added to `acc`. -/
noncomputable def kernelSum (like : Θ → ℕ → ℝ) {n K : ℕ} (μ : (Fin n → Fin K) → Fin K → Measure Θ)
    (a b : Fin K → ℝ) (F : ℝ → ℝ≥0∞) (φ : (Fin n → Fin K) → (Fin K → Θ) → (Fin K → ℝ) → ℝ) :
    ℕ → ℝ → (Fin n → Fin K) → (Fin K → Θ) → (Fin K → ℝ) → ℝ≥0∞
  | 0, acc => fun _ _ _ => F acc
  | N + 1, acc => lawKernel like μ a b fun c θ v =>
      kernelSum like μ a b F φ N (acc + φ c θ v) c θ v

/-! ### The kernel as a mean -/

theorem condMean_mono (ha : ∀ k, 0 < a k) (hb : ∀ k, 0 < b k)
    {Φ Ψ : (Fin n → Fin K) → (Fin K → Θ) → (Fin K → ℝ) → ℝ≥0∞}
    (hle : ∀ c θ v, (∀ k, 0 < v k ∧ v k ≤ 1) → Φ c θ v ≤ Ψ c θ v) (c : Fin n → Fin K) :
    condMean (drawLaws E ν Q h) a b Φ c ≤ condMean (drawLaws E ν Q h) a b Ψ c := by
  refine lintegral_mono fun θ => lintegral_mono_ae ?_
  filter_upwards [stickLaw_ae (shape_pos ha (cnt c)) (shape_pos hb (later c))] with v hv
  exact hle c θ v hv

theorem kernel_mono (S : RunSetup E like ν Q h prior a b)
    {Φ Ψ : (Fin n → Fin K) → (Fin K → Θ) → (Fin K → ℝ) → ℝ≥0∞}
    (hle : ∀ c θ v, (∀ k, 0 < v k ∧ v k ≤ 1) → Φ c θ v ≤ Ψ c θ v)
    (c : Fin n → Fin K) (θ : Fin K → Θ) (v : Fin K → ℝ) :
    lawKernel like (drawLaws E ν Q h) a b Φ c θ v ≤ lawKernel like (drawLaws E ν Q h) a b Ψ c θ v := by
  simp only [lawKernel_apply]
  exact Finset.sum_le_sum fun c' _ => mul_le_mul_right (condMean_mono S.apos S.bpos hle c') _

theorem kernel_congr (S : RunSetup E like ν Q h prior a b)
    {Φ Ψ : (Fin n → Fin K) → (Fin K → Θ) → (Fin K → ℝ) → ℝ≥0∞}
    (he : ∀ c θ v, (∀ k, 0 < v k ∧ v k ≤ 1) → Φ c θ v = Ψ c θ v)
    (c : Fin n → Fin K) (θ : Fin K → Θ) (v : Fin K → ℝ) :
    lawKernel like (drawLaws E ν Q h) a b Φ c θ v = lawKernel like (drawLaws E ν Q h) a b Ψ c θ v :=
  le_antisymm (kernel_mono S (fun c θ v hv => (he c θ v hv).le) c θ v)
    (kernel_mono S (fun c θ v hv => (he c θ v hv).ge) c θ v)

theorem kernel_const (S : RunSetup E like ν Q h prior a b) (x : ℝ≥0∞) (c : Fin n → Fin K)
    (θ : Fin K → Θ) {v : Fin K → ℝ} (hv : ∀ k, 0 < v k ∧ v k ≤ 1) :
    lawKernel like (drawLaws E ν Q h) a b (fun _ _ _ => x) c θ v = x := by
  simp only [lawKernel_apply]
  simp only [condMean_const (drawLaws_prob S.bayes S.saved) S.apos S.bpos]
  rw [← Finset.sum_mul, ← ENNReal.ofReal_sum_of_nonneg fun c' _ => labelProb_nonneg θ hv c',
    labelProb_sum S.some θ hv, ENNReal.ofReal_one, one_mul]

theorem condMean_add (S : RunSetup E like ν Q h prior a b)
    {Φ : (Fin n → Fin K) → (Fin K → Θ) → (Fin K → ℝ) → ℝ≥0∞} (hΦ : Meas Φ)
    (Ψ : (Fin n → Fin K) → (Fin K → Θ) → (Fin K → ℝ) → ℝ≥0∞) (c : Fin n → Fin K) :
    condMean (drawLaws E ν Q h) a b (fun c θ v => Φ c θ v + Ψ c θ v) c =
      condMean (drawLaws E ν Q h) a b Φ c + condMean (drawLaws E ν Q h) a b Ψ c := by
  have h2 := stickLaw_isProb (shape_pos S.apos (cnt c)) (shape_pos S.bpos (later c))
  unfold condMean
  rw [lintegral_congr fun θ => lintegral_add_left (hΦ.right c θ) _,
    lintegral_add_left (hΦ c).lintegral_prod_right']

theorem kernel_add (S : RunSetup E like ν Q h prior a b)
    {Φ : (Fin n → Fin K) → (Fin K → Θ) → (Fin K → ℝ) → ℝ≥0∞} (hΦ : Meas Φ)
    (Ψ : (Fin n → Fin K) → (Fin K → Θ) → (Fin K → ℝ) → ℝ≥0∞)
    (c : Fin n → Fin K) (θ : Fin K → Θ) (v : Fin K → ℝ) :
    lawKernel like (drawLaws E ν Q h) a b (fun c θ v => Φ c θ v + Ψ c θ v) c θ v =
      lawKernel like (drawLaws E ν Q h) a b Φ c θ v + lawKernel like (drawLaws E ν Q h) a b Ψ c θ v := by
  simp only [lawKernel_apply, condMean_add S hΦ, mul_add, Finset.sum_add_distrib]

theorem condMean_mul (S : RunSetup E like ν Q h prior a b) (x : ℝ≥0∞)
    {Φ : (Fin n → Fin K) → (Fin K → Θ) → (Fin K → ℝ) → ℝ≥0∞} (hΦ : Meas Φ) (c : Fin n → Fin K) :
    condMean (drawLaws E ν Q h) a b (fun c θ v => x * Φ c θ v) c = x * condMean (drawLaws E ν Q h) a b Φ c := by
  have h2 := stickLaw_isProb (shape_pos S.apos (cnt c)) (shape_pos S.bpos (later c))
  unfold condMean
  rw [lintegral_congr fun θ => lintegral_const_mul x (hΦ.right c θ),
    lintegral_const_mul x (hΦ c).lintegral_prod_right']

theorem kernel_mul (S : RunSetup E like ν Q h prior a b) (x : ℝ≥0∞)
    {Φ : (Fin n → Fin K) → (Fin K → Θ) → (Fin K → ℝ) → ℝ≥0∞} (hΦ : Meas Φ)
    (c : Fin n → Fin K) (θ : Fin K → Θ) (v : Fin K → ℝ) :
    lawKernel like (drawLaws E ν Q h) a b (fun c θ v => x * Φ c θ v) c θ v =
      x * lawKernel like (drawLaws E ν Q h) a b Φ c θ v := by
  simp only [lawKernel_apply, condMean_mul S x hΦ, Finset.mul_sum]
  exact Finset.sum_congr rfl fun c' _ => by ring

theorem kernel_sum (S : RunSetup E like ν Q h prior a b)
    {Φ : ℕ → (Fin n → Fin K) → (Fin K → Θ) → (Fin K → ℝ) → ℝ≥0∞} (hΦ : ∀ i, Meas (Φ i)) (k : ℕ)
    (c : Fin n → Fin K) (θ : Fin K → Θ) {v : Fin K → ℝ} (hv : ∀ k, 0 < v k ∧ v k ≤ 1) :
    lawKernel like (drawLaws E ν Q h) a b (fun c θ v => ∑ i ∈ Finset.range k, Φ i c θ v) c θ v =
      ∑ i ∈ Finset.range k, lawKernel like (drawLaws E ν Q h) a b (Φ i) c θ v := by
  induction k with
  | zero =>
    simp only [Finset.range_zero, Finset.sum_empty]
    exact kernel_const S 0 c θ hv
  | succ k ih =>
    rw [Finset.sum_range_succ, ← ih, ← kernel_add S
      (fun c => Finset.measurable_sum _ fun i _ => hΦ i c) (Φ k)]
    simp only [Finset.sum_range_succ]

/-- The mean of an affine function. -/
theorem kernel_affine (S : RunSetup E like ν Q h prior a b) (α β : ℝ) {R : ℝ≥0∞} (hR : R ≠ ∞)
    {Ψ : (Fin n → Fin K) → (Fin K → Θ) → (Fin K → ℝ) → ℝ≥0∞} (hΨ : Meas Ψ)
    (hb : ∀ c θ v, (∀ k, 0 < v k ∧ v k ≤ 1) → Ψ c θ v ≤ R)
    (h0 : ∀ c θ v, (∀ k, 0 < v k ∧ v k ≤ 1) → 0 ≤ α + β * (Ψ c θ v).toReal)
    (c : Fin n → Fin K) (θ : Fin K → Θ) {v : Fin K → ℝ} (hv : ∀ k, 0 < v k ∧ v k ≤ 1) :
    lawKernel like (drawLaws E ν Q h) a b (fun c θ v => ENNReal.ofReal (α + β * (Ψ c θ v).toReal)) c θ v =
      ENNReal.ofReal (α + β * (lawKernel like (drawLaws E ν Q h) a b Ψ c θ v).toReal) := by
  obtain ⟨A, hA⟩ : ∃ A : (Fin n → Fin K) → (Fin K → Θ) → (Fin K → ℝ) → ℝ≥0∞,
    A = fun c θ v => ENNReal.ofReal (α + β * (Ψ c θ v).toReal) := ⟨_, rfl⟩
  have hAm : Meas A := fun c => by
    rw [hA]
    exact ENNReal.measurable_ofReal.comp (((hΨ c).ennreal_toReal.const_mul β).const_add α)
  have hTR : lawKernel like (drawLaws E ν Q h) a b Ψ c θ v ≤ R := by
    rw [← kernel_const S R c θ hv]
    exact kernel_mono S hb c θ v
  have hT : lawKernel like (drawLaws E ν Q h) a b Ψ c θ v ≠ ∞ := ne_top_of_le_ne_top hR hTR
  have hpt : ∀ c θ v, (∀ k, 0 < v k ∧ v k ≤ 1) →
      A c θ v + (ENNReal.ofReal (max (-β) 0) * Ψ c θ v + ENNReal.ofReal (max (-α) 0)) =
      ENNReal.ofReal (max β 0) * Ψ c θ v + ENNReal.ofReal (max α 0) := by
    intro c θ v hv
    have hf : Ψ c θ v ≠ ∞ := ne_top_of_le_ne_top hR (hb c θ v hv)
    have hp := h0 c θ v hv
    rw [hA]
    dsimp only
    rw [← ENNReal.ofReal_toReal hf]
    obtain ⟨y, hy⟩ : ∃ y, y = (Ψ c θ v).toReal := ⟨_, rfl⟩
    have hy0 : 0 ≤ y := by rw [hy]; exact ENNReal.toReal_nonneg
    rw [ENNReal.toReal_ofReal ENNReal.toReal_nonneg]
    rw [← hy] at hp ⊢
    rw [← ENNReal.ofReal_mul (le_max_right _ _), ← ENNReal.ofReal_mul (le_max_right _ _),
      ← ENNReal.ofReal_add (mul_nonneg (le_max_right _ _) hy0) (le_max_right _ _),
      ← ENNReal.ofReal_add hp (add_nonneg (mul_nonneg (le_max_right _ _) hy0) (le_max_right _ _)),
      ← ENNReal.ofReal_add (mul_nonneg (le_max_right _ _) hy0) (le_max_right _ _)]
    congr 1
    have e1 : max β 0 - max (-β) 0 = β := by
      rcases le_total 0 β with hβ | hβ
      · rw [max_eq_left hβ, max_eq_right (by linarith), sub_zero]
      · rw [max_eq_right hβ, max_eq_left (by linarith)]; ring
    have e2 : max α 0 - max (-α) 0 = α := by
      rcases le_total 0 α with hα | hα
      · rw [max_eq_left hα, max_eq_right (by linarith), sub_zero]
      · rw [max_eq_right hα, max_eq_left (by linarith)]; ring
    linear_combination -e2 - y * e1
  have hk := kernel_congr S hpt c θ v
  have hmul : ∀ x : ℝ≥0∞, Meas fun c θ v => x * Ψ c θ v := fun x c => (hΨ c).const_mul x
  rw [kernel_add S hAm, kernel_add S (hmul _), kernel_add S (hmul _), kernel_mul S _ hΨ,
    kernel_mul S _ hΨ, kernel_const S _ c θ hv, kernel_const S _ c θ hv] at hk
  rw [← hA]
  obtain ⟨t, ht⟩ : ∃ t, t = lawKernel like (drawLaws E ν Q h) a b Ψ c θ v := ⟨_, rfl⟩
  obtain ⟨u, hu⟩ : ∃ u, u = lawKernel like (drawLaws E ν Q h) a b A c θ v := ⟨_, rfl⟩
  rw [← ht] at hk hT ⊢
  rw [← hu] at hk ⊢
  have hfin : u ≠ ∞ := by
    intro htop
    rw [htop, top_add] at hk
    exact (ENNReal.add_ne_top.mpr ⟨ENNReal.mul_ne_top ENNReal.ofReal_ne_top hT,
      ENNReal.ofReal_ne_top⟩) hk.symm
  have hr := congrArg ENNReal.toReal hk
  have hm : ∀ x : ℝ, ENNReal.ofReal x * t ≠ ∞ := fun x =>
    ENNReal.mul_ne_top ENNReal.ofReal_ne_top hT
  rw [ENNReal.toReal_add hfin (ENNReal.add_ne_top.mpr ⟨hm _, ENNReal.ofReal_ne_top⟩),
    ENNReal.toReal_add (hm _) ENNReal.ofReal_ne_top, ENNReal.toReal_add (hm _) ENNReal.ofReal_ne_top,
    ENNReal.toReal_mul, ENNReal.toReal_mul, ENNReal.toReal_ofReal (le_max_right _ _),
    ENNReal.toReal_ofReal (le_max_right _ _), ENNReal.toReal_ofReal (le_max_right _ _),
    ENNReal.toReal_ofReal (le_max_right _ _)] at hr
  have e1 : max β 0 - max (-β) 0 = β := by
    rcases le_total 0 β with hβ | hβ
    · rw [max_eq_left hβ, max_eq_right (by linarith), sub_zero]
    · rw [max_eq_right hβ, max_eq_left (by linarith)]; ring
  have e2 : max α 0 - max (-α) 0 = α := by
    rcases le_total 0 α with hα | hα
    · rw [max_eq_left hα, max_eq_right (by linarith), sub_zero]
    · rw [max_eq_right hα, max_eq_left (by linarith)]; ring
  have hval : α + β * t.toReal = u.toReal := by linear_combination -hr - e2 - t.toReal * e1
  rw [hval, ENNReal.ofReal_toReal hfin]

/-! ### Measurability -/

theorem kernelSum_measurable (S : RunSetup E like ν Q h prior a b) {F : ℝ → ℝ≥0∞} (hF : Measurable F)
    {φ : (Fin n → Fin K) → (Fin K → Θ) → (Fin K → ℝ) → ℝ}
    (hφ : ∀ c, Measurable fun x : (Fin K → Θ) × (Fin K → ℝ) => φ c x.1 x.2) (N : ℕ) :
    ∀ c, Measurable fun x : ℝ × (Fin K → Θ) × (Fin K → ℝ) =>
      kernelSum like (drawLaws E ν Q h) a b F φ N x.1 c x.2.1 x.2.2 := by
  induction N with
  | zero => exact fun c => hF.comp measurable_fst
  | succ N ih =>
    intro c
    have hc : ∀ c', Measurable fun acc : ℝ => condMean (drawLaws E ν Q h) a b (fun c θ v =>
        kernelSum like (drawLaws E ν Q h) a b F φ N (acc + φ c θ v) c θ v) c' := by
      intro c'
      have h2 := stickLaw_isProb (shape_pos S.apos (cnt c')) (shape_pos S.bpos (later c'))
      have h1 := drawLaws_prob S.bayes S.saved c'
      have hm : Measurable fun x : (ℝ × (Fin K → Θ)) × (Fin K → ℝ) =>
          kernelSum like (drawLaws E ν Q h) a b F φ N (x.1.1 + φ c' x.1.2 x.2) c' x.1.2 x.2 := by
        have hin : Measurable fun x : (ℝ × (Fin K → Θ)) × (Fin K → ℝ) =>
            (x.1.1 + φ c' x.1.2 x.2, x.1.2, x.2) := by
          refine Measurable.prodMk ?_ (measurable_fst.snd.prodMk measurable_snd)
          exact measurable_fst.fst.add ((hφ c').comp (measurable_fst.snd.prodMk measurable_snd))
        exact (ih c').comp hin
      have hm2 : Measurable fun x : ℝ × (Fin K → Θ) => ∫⁻ v,
          kernelSum like (drawLaws E ν Q h) a b F φ N (x.1 + φ c' x.2 v) c' x.2 v
            ∂stickLaw (fun k => a k + cnt c' k) (fun k => b k + later c' k) :=
        hm.lintegral_prod_right'
      exact hm2.lintegral_prod_right'
    have e : (fun x : ℝ × (Fin K → Θ) × (Fin K → ℝ) =>
        kernelSum like (drawLaws E ν Q h) a b F φ (N + 1) x.1 c x.2.1 x.2.2) = fun x =>
        ∑ c', ENNReal.ofReal (labelProb like x.2.1 x.2.2 c') * condMean (drawLaws E ν Q h) a b (fun c θ v =>
          kernelSum like (drawLaws E ν Q h) a b F φ N (x.1 + φ c θ v) c θ v) c' := rfl
    rw [e]
    refine Finset.measurable_sum _ fun c' _ => ?_
    exact (ENNReal.measurable_ofReal.comp ((measurable_labelProb S.like_meas c').comp
      measurable_snd)).mul ((hc c').comp measurable_fst)

theorem kernelSum_meas (S : RunSetup E like ν Q h prior a b) {F : ℝ → ℝ≥0∞} (hF : Measurable F)
    {φ : (Fin n → Fin K) → (Fin K → Θ) → (Fin K → ℝ) → ℝ}
    (hφ : ∀ c, Measurable fun x : (Fin K → Θ) × (Fin K → ℝ) => φ c x.1 x.2) (N : ℕ) (acc : ℝ) :
    Meas fun c θ v => kernelSum like (drawLaws E ν Q h) a b F φ N (acc + φ c θ v) c θ v := fun c => by
  have hin : Measurable fun x : (Fin K → Θ) × (Fin K → ℝ) => (acc + φ c x.1 x.2, x.1, x.2) :=
    ((hφ c).const_add acc).prodMk measurable_id
  exact (kernelSum_measurable S hF hφ N c).comp hin

/-- The sums over the states of a run of the code are those of the kernel. -/
theorem sumMean_eq [Nonempty Θ] (S : RunSetup E like ν Q h prior a b) {F : ℝ → ℝ≥0∞}
    (hF : Measurable F) {φ : (Fin n → Fin K) → (Fin K → Θ) → (Fin K → ℝ) → ℝ}
    (hφ : ∀ c, Measurable fun x : (Fin K → Θ) × (Fin K → ℝ) => φ c x.1 x.2)
    {g : Alg G H Θ → SBState → ℝ}
    (hg : ∀ c θ v s mix, BlockedState E prior Q c θ v h s mix → (∀ k, 0 < v k ∧ v k ≤ 1) →
      g s mix = φ c θ v) (N : ℕ) :
    ∀ acc c θ v s mix, BlockedState E prior Q c θ v h s mix → (∀ k, 0 < v k ∧ v k ≤ 1) →
      sumMean E like ν prior K n F g N acc s mix = kernelSum like (drawLaws E ν Q h) a b F φ N acc c θ v := by
  induction N with
  | zero => exact fun acc c θ v s mix _ _ => rfl
  | succ N ih =>
    intro acc c θ v s mix hs hv
    rw [sumMean, kernelSum]
    refine iterMean_eq S (kernelSum_meas S hF hφ N acc) (fun c θ v s mix hs hv => ?_) hs hv
    rw [hg c θ v s mix hs hv]
    exact ih _ c θ v s mix hs hv

/-! ### Second moments -/

theorem kernelSum_mono (S : RunSetup E like ν Q h prior a b) {F F' : ℝ → ℝ≥0∞} (hF : ∀ x, F x ≤ F' x)
    (φ : (Fin n → Fin K) → (Fin K → Θ) → (Fin K → ℝ) → ℝ) (N : ℕ) :
    ∀ acc c θ v, kernelSum like (drawLaws E ν Q h) a b F φ N acc c θ v ≤ kernelSum like (drawLaws E ν Q h) a b F' φ N acc c θ v := by
  induction N with
  | zero => exact fun acc _ _ _ => hF acc
  | succ N ih => exact fun acc c θ v => kernel_mono S (fun c θ v _ => ih _ c θ v) c θ v

theorem iterate_le_one (S : RunSetup E like ν Q h prior a b)
    {Φ : (Fin n → Fin K) → (Fin K → Θ) → (Fin K → ℝ) → ℝ≥0∞} (hΦ : ∀ c θ v, Φ c θ v ≤ 1) (k : ℕ) :
    ∀ c θ v, (∀ k, 0 < v k ∧ v k ≤ 1) → (lawKernel like (drawLaws E ν Q h) a b)^[k] Φ c θ v ≤ 1 := by
  induction k with
  | zero => exact fun c θ v _ => hΦ c θ v
  | succ k ih =>
    intro c θ v hv
    rw [Function.iterate_succ_apply', ← kernel_const S 1 c θ hv]
    exact kernel_mono S ih c θ v

theorem geom_le {δ : ℝ} (h0 : 0 < δ) (h1 : δ ≤ 1) (k : ℕ) :
    ∑ i ∈ Finset.range k, (1 - δ) ^ i ≤ 1 / δ := by
  rw [le_div_iff₀ h0]
  have := mul_neg_geom_sum (1 - δ) k
  have hp : 0 ≤ (1 - δ) ^ k := pow_nonneg (by linarith) k
  nlinarith

theorem kernelSum_sq (S : RunSetup E like ν Q h prior a b) {δ m : ℝ} (h0 : 0 < δ) (h1 : δ ≤ 1)
    {φ : (Fin n → Fin K) → (Fin K → Θ) → (Fin K → ℝ) → ℝ}
    (hφ : ∀ c, Measurable fun x : (Fin K → Θ) × (Fin K → ℝ) => φ c x.1 x.2)
    (hφ0 : ∀ c θ v, 0 ≤ φ c θ v) (hφ1 : ∀ c θ v, φ c θ v ≤ 1) (hm0 : 0 ≤ m) (hm1 : m ≤ 1)
    (hconv : ∀ c θ v, (∀ k, 0 < v k ∧ v k ≤ 1) → ∀ k : ℕ,
      |((lawKernel like (drawLaws E ν Q h) a b)^[k + 1] (fun c θ v => ENNReal.ofReal (φ c θ v)) c θ v).toReal -
        m| ≤ (1 - δ) ^ k) {κ : ℝ} (hκ : 0 ≤ κ) (s : ℝ) (N : ℕ) :
    ∀ acc c θ v, (∀ k, 0 < v k ∧ v k ≤ 1) →
      kernelSum like (drawLaws E ν Q h) a b (fun x => ENNReal.ofReal (κ * (x - s) ^ 2)) φ N acc c θ v ≤
        ENNReal.ofReal (κ * ((acc - s + ∑ i ∈ Finset.range N,
          ((lawKernel like (drawLaws E ν Q h) a b)^[i + 1]
            (fun c θ v => ENNReal.ofReal (φ c θ v)) c θ v).toReal) ^ 2 + N * (1 + 1 / δ) ^ 2)) := by
  obtain ⟨Φ, hΦ⟩ : ∃ Φ : (Fin n → Fin K) → (Fin K → Θ) → (Fin K → ℝ) → ℝ≥0∞,
    Φ = fun c θ v => ENNReal.ofReal (φ c θ v) := ⟨_, rfl⟩
  rw [← hΦ] at hconv ⊢
  have hΦm : Meas Φ := fun c => by
    rw [hΦ]
    exact ENNReal.measurable_ofReal.comp (hφ c)
  have hΦ1 : ∀ c θ v, Φ c θ v ≤ 1 := fun c θ v => by
    rw [hΦ, ← ENNReal.ofReal_one]
    exact ENNReal.ofReal_le_ofReal (hφ1 c θ v)
  have hΦr : ∀ c θ v, (Φ c θ v).toReal = φ c θ v := fun c θ v => by
    rw [hΦ]
    exact ENNReal.toReal_ofReal (hφ0 c θ v)
  induction N with
  | zero =>
    intro acc c θ v _
    simp [kernelSum]
  | succ N ih =>
    intro acc c θ v hv
    obtain ⟨Ψ, hΨ⟩ : ∃ Ψ : (Fin n → Fin K) → (Fin K → Θ) → (Fin K → ℝ) → ℝ≥0∞,
      Ψ = fun c θ v => ∑ i ∈ Finset.range (N + 1), (lawKernel like (drawLaws E ν Q h) a b)^[i] Φ c θ v :=
      ⟨_, rfl⟩
    have hΨm : Meas Ψ := fun c => by
      rw [hΨ]
      exact Finset.measurable_sum _ fun i _ => (hΦm.kernel_iterate S i) c
    have hit : ∀ i c θ v, (∀ k, 0 < v k ∧ v k ≤ 1) →
        (lawKernel like (drawLaws E ν Q h) a b)^[i] Φ c θ v ≤ 1 := iterate_le_one S hΦ1
    have hΨb : ∀ c θ v, (∀ k, 0 < v k ∧ v k ≤ 1) → Ψ c θ v ≤ ((N + 1 : ℕ) : ℝ≥0∞) := by
      intro c θ v hv
      rw [hΨ]
      refine (Finset.sum_le_card_nsmul _ _ 1 fun i _ => hit i c θ v hv).trans ?_
      rw [Finset.card_range, nsmul_eq_mul, mul_one]
    have hΨr : ∀ c θ v, (∀ k, 0 < v k ∧ v k ≤ 1) → (Ψ c θ v).toReal = φ c θ v +
        ∑ i ∈ Finset.range N, ((lawKernel like (drawLaws E ν Q h) a b)^[i + 1] Φ c θ v).toReal := by
      intro c θ v hv
      rw [hΨ]
      dsimp only
      rw [ENNReal.toReal_sum fun i _ => ne_top_of_le_ne_top one_ne_top (hit i c θ v hv),
        Finset.sum_range_succ', add_comm]
      congr 1
      exact hΦr c θ v
    have hdev : ∀ c θ v, (∀ k, 0 < v k ∧ v k ≤ 1) →
        |(Ψ c θ v).toReal - (N + 1) * m| ≤ 1 + 1 / δ := by
      intro c θ v hv
      rw [hΨr c θ v hv]
      have e : φ c θ v + ∑ i ∈ Finset.range N,
          ((lawKernel like (drawLaws E ν Q h) a b)^[i + 1] Φ c θ v).toReal - (N + 1) * m =
          (φ c θ v - m) + ∑ i ∈ Finset.range N,
            (((lawKernel like (drawLaws E ν Q h) a b)^[i + 1] Φ c θ v).toReal - m) := by
        rw [Finset.sum_sub_distrib, Finset.sum_const, Finset.card_range, nsmul_eq_mul]
        ring
      rw [e]
      refine (abs_add_le _ _).trans (add_le_add ?_ ?_)
      · rw [abs_le]
        exact ⟨by linarith [hφ0 c θ v], by linarith [hφ1 c θ v]⟩
      · exact ((Finset.abs_sum_le_sum_abs _ _).trans
          (Finset.sum_le_sum fun i _ => hconv c θ v hv i)).trans (geom_le h0 h1 N)
    obtain ⟨A, hA⟩ : ∃ A : ℝ, A = acc - s + (N + 1) * m := ⟨_, rfl⟩
    have hR : 0 ≤ (N : ℝ) * (1 + 1 / δ) ^ 2 := by positivity
    have hstep : ∀ c θ v, (∀ k, 0 < v k ∧ v k ≤ 1) →
        kernelSum like (drawLaws E ν Q h) a b (fun x => ENNReal.ofReal (κ * (x - s) ^ 2)) φ N
          (acc + φ c θ v) c θ v ≤
        ENNReal.ofReal (κ * (A ^ 2 - 2 * A * ((N + 1) * m) + (1 + 1 / δ) ^ 2 +
          N * (1 + 1 / δ) ^ 2) + κ * (2 * A) * (Ψ c θ v).toReal) := by
      intro c θ v hv
      refine (ih (acc + φ c θ v) c θ v hv).trans (ENNReal.ofReal_le_ofReal ?_)
      have hd := hdev c θ v hv
      have hr := hΨr c θ v hv
      obtain ⟨y, hy⟩ : ∃ y, y = (Ψ c θ v).toReal := ⟨_, rfl⟩
      rw [← hy] at hd hr ⊢
      have e : acc + φ c θ v - s + ∑ i ∈ Finset.range N,
          ((lawKernel like (drawLaws E ν Q h) a b)^[i + 1] Φ c θ v).toReal = A + (y - (N + 1) * m) := by
        rw [hr, hA]; ring
      rw [e]
      have hsq : (y - (N + 1) * m) ^ 2 ≤ (1 + 1 / δ) ^ 2 := sq_le_sq' (by linarith [(abs_le.mp hd).1])
        (abs_le.mp hd).2
      have : κ * ((A + (y - (N + 1) * m)) ^ 2 + N * (1 + 1 / δ) ^ 2) ≤
          κ * (A ^ 2 + 2 * A * (y - (N + 1) * m) + (1 + 1 / δ) ^ 2 + N * (1 + 1 / δ) ^ 2) :=
        mul_le_mul_of_nonneg_left (by nlinarith) hκ
      refine this.trans (le_of_eq ?_)
      ring
    have hnn : ∀ c θ v, (∀ k, 0 < v k ∧ v k ≤ 1) → 0 ≤ κ * (A ^ 2 - 2 * A * ((N + 1) * m) +
        (1 + 1 / δ) ^ 2 + N * (1 + 1 / δ) ^ 2) + κ * (2 * A) * (Ψ c θ v).toReal := by
      intro c θ v hv
      have hd := hdev c θ v hv
      obtain ⟨y, hy⟩ : ∃ y, y = (Ψ c θ v).toReal := ⟨_, rfl⟩
      rw [← hy] at hd ⊢
      have hsq : (y - (N + 1) * m) ^ 2 ≤ (1 + 1 / δ) ^ 2 := sq_le_sq' (by linarith [(abs_le.mp hd).1])
        (abs_le.mp hd).2
      have e : κ * (A ^ 2 - 2 * A * ((N + 1) * m) + (1 + 1 / δ) ^ 2 + N * (1 + 1 / δ) ^ 2) +
          κ * (2 * A) * y = κ * ((A + (y - (N + 1) * m)) ^ 2 +
            ((1 + 1 / δ) ^ 2 - (y - (N + 1) * m) ^ 2) + N * (1 + 1 / δ) ^ 2) := by ring
      rw [e]
      refine mul_nonneg hκ (add_nonneg (add_nonneg (sq_nonneg _) (by linarith)) hR)
    have hle := kernel_mono S hstep c θ v
    rw [kernel_affine S _ _ (ENNReal.natCast_ne_top (N + 1)) hΨm hΨb hnn c θ hv] at hle
    refine (show kernelSum like (drawLaws E ν Q h) a b (fun x => ENNReal.ofReal (κ * (x - s) ^ 2)) φ (N + 1) acc
      c θ v ≤ _ from hle).trans (ENNReal.ofReal_le_ofReal ?_)
    have hT : (lawKernel like (drawLaws E ν Q h) a b Ψ c θ v).toReal = ∑ i ∈ Finset.range (N + 1),
        ((lawKernel like (drawLaws E ν Q h) a b)^[i + 1] Φ c θ v).toReal := by
      rw [hΨ, kernel_sum S (fun i => hΦm.kernel_iterate S i) (N + 1) c θ hv]
      have e : ∀ i, lawKernel like (drawLaws E ν Q h) a b ((lawKernel like (drawLaws E ν Q h) a b)^[i] Φ) c θ v =
          (lawKernel like (drawLaws E ν Q h) a b)^[i + 1] Φ c θ v := fun i => by
        rw [Function.iterate_succ_apply']
      rw [Finset.sum_congr rfl fun i _ => e i, ENNReal.toReal_sum fun i _ =>
        ne_top_of_le_ne_top one_ne_top (hit (i + 1) c θ v hv)]
    rw [hT]
    obtain ⟨L, hL⟩ : ∃ L : ℝ, L = ∑ i ∈ Finset.range (N + 1),
        ((lawKernel like (drawLaws E ν Q h) a b)^[i + 1] Φ c θ v).toReal := ⟨_, rfl⟩
    rw [← hL, hA]
    push_cast
    have : 0 ≤ κ * (L - (N + 1) * m) ^ 2 := mul_nonneg hκ (sq_nonneg _)
    nlinarith

/-- The probability that the average over a run of `N` iterations is off by `ε` or more. -/
theorem kernelSum_average (S : RunSetup E like ν Q h prior a b) {δ m : ℝ} (h0 : 0 < δ) (h1 : δ ≤ 1)
    {φ : (Fin n → Fin K) → (Fin K → Θ) → (Fin K → ℝ) → ℝ}
    (hφ : ∀ c, Measurable fun x : (Fin K → Θ) × (Fin K → ℝ) => φ c x.1 x.2)
    (hφ0 : ∀ c θ v, 0 ≤ φ c θ v) (hφ1 : ∀ c θ v, φ c θ v ≤ 1) (hm0 : 0 ≤ m) (hm1 : m ≤ 1)
    (hconv : ∀ c θ v, (∀ k, 0 < v k ∧ v k ≤ 1) → ∀ k : ℕ,
      |((lawKernel like (drawLaws E ν Q h) a b)^[k + 1] (fun c θ v => ENNReal.ofReal (φ c θ v)) c θ v).toReal -
        m| ≤ (1 - δ) ^ k) {N : ℕ} (hN : 0 < N) {ε : ℝ} (hε : 0 < ε)
    (c : Fin n → Fin K) (θ : Fin K → Θ) {v : Fin K → ℝ} (hv : ∀ k, 0 < v k ∧ v k ≤ 1) :
    kernelSum like (drawLaws E ν Q h) a b (Set.indicator {x : ℝ | ε ≤ |x / N - m|} 1) φ N 0 c θ v ≤
      ENNReal.ofReal (2 * (1 + 1 / δ) ^ 2 / (N * ε ^ 2)) := by
  have hN' : (0 : ℝ) < N := Nat.cast_pos.mpr hN
  have hF : ∀ x : ℝ, Set.indicator {x : ℝ | ε ≤ |x / N - m|} (1 : ℝ → ℝ≥0∞) x ≤
      ENNReal.ofReal ((1 / (N * ε) ^ 2) * (x - N * m) ^ 2) := by
    intro x
    by_cases hx : ε ≤ |x / N - m|
    · rw [Set.indicator_of_mem (show x ∈ {x : ℝ | ε ≤ |x / N - m|} from hx), Pi.one_apply,
        ← ENNReal.ofReal_one]
      refine ENNReal.ofReal_le_ofReal ?_
      have e : x / N - m = (x - N * m) / N := by field_simp
      rw [e, abs_div, abs_of_pos hN', le_div_iff₀ hN'] at hx
      have hsq : (N * ε) ^ 2 ≤ (x - N * m) ^ 2 := by
        rw [← sq_abs (x - N * m)]
        exact pow_le_pow_left₀ (by positivity) (by linarith) 2
      rw [one_div, inv_mul_eq_div, le_div_iff₀ (by positivity), one_mul]
      exact hsq
    · rw [Set.indicator_of_notMem (show x ∉ {x : ℝ | ε ≤ |x / N - m|} from hx)]
      exact zero_le
  refine (kernelSum_mono S hF φ N 0 c θ v).trans ((kernelSum_sq S h0 h1 hφ hφ0 hφ1 hm0 hm1 hconv
    (by positivity) _ N 0 c θ v hv).trans (ENNReal.ofReal_le_ofReal ?_))
  obtain ⟨L, hL⟩ : ∃ L : ℝ, L = ∑ i ∈ Finset.range N, ((lawKernel like (drawLaws E ν Q h) a b)^[i + 1]
      (fun c θ v => ENNReal.ofReal (φ c θ v)) c θ v).toReal := ⟨_, rfl⟩
  have hd : |L - N * m| ≤ 1 / δ := by
    have e : L - N * m = ∑ i ∈ Finset.range N, (((lawKernel like (drawLaws E ν Q h) a b)^[i + 1]
      (fun c θ v => ENNReal.ofReal (φ c θ v)) c θ v).toReal - m) := by
      rw [Finset.sum_sub_distrib, Finset.sum_const, Finset.card_range, nsmul_eq_mul, hL]
    rw [e]
    exact ((Finset.abs_sum_le_sum_abs _ _).trans
      (Finset.sum_le_sum fun i _ => hconv c θ v hv i)).trans (geom_le h0 h1 N)
  rw [← hL]
  have hδ : 0 < 1 / δ := by positivity
  have hsq : (L - N * m) ^ 2 ≤ (1 + 1 / δ) ^ 2 :=
    sq_le_sq' (by linarith [(abs_le.mp hd).1]) (by linarith [(abs_le.mp hd).2])
  have hN1 : (1 : ℝ) ≤ N := by exact_mod_cast hN
  have e : (0 - N * m + L) ^ 2 + N * (1 + 1 / δ) ^ 2 ≤ 2 * N * (1 + 1 / δ) ^ 2 := by
    have : (0 - N * m + L) ^ 2 = (L - N * m) ^ 2 := by ring
    rw [this]
    nlinarith [sq_nonneg (1 + 1 / δ)]
  calc 1 / (N * ε) ^ 2 * ((0 - N * m + L) ^ 2 + N * (1 + 1 / δ) ^ 2)
      ≤ 1 / (N * ε) ^ 2 * (2 * N * (1 + 1 / δ) ^ 2) :=
        mul_le_mul_of_nonneg_left e (by positivity)
    _ = 2 * (1 + 1 / δ) ^ 2 / (N * ε ^ 2) := by field_simp

end Bayesmix.Cond
