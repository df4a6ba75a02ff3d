import Verif.Algo.BlockedDensTail
import Verif.Algo.AvgRun

/-!
# Averages of functions with a mean over runs of blocked Gibbs

`kernelSum_average` is about bounded functions. A function with a finite mean is the sum of a bounded one
and one with a small mean.
-/

namespace Bayesmix.Cond
open Bayesmix Mixing Slice Gibbs MeasureTheory ENNReal Hierarchies Filter Topology

variable {G H Θ : Type} [AddCommGroup G] [MeasurableSpace Θ]
  {E : Env G H Θ} {like : Θ → ℕ → ℝ} {ν : H → Measure Θ} {Q : ℕ → Option H} {h : H} {prior : SBPrior} {n K : ℕ}
  {a b : Fin K → ℝ}

/-! ### The sum of two functions -/

theorem kernelSum_split (S : RunSetup E like ν Q h prior a b) {F F' : ℝ → ℝ≥0∞} {M : ℝ} {κ : ℝ≥0∞}
    (hF' : Measurable F') (hF : ∀ x r : ℝ, 0 ≤ r → F (M * x + r) ≤ F' x + κ * ENNReal.ofReal r)
    {φ φ' : (Fin n → Fin K) → (Fin K → Θ) → (Fin K → ℝ) → ℝ}
    {ρ : (Fin n → Fin K) → (Fin K → Θ) → (Fin K → ℝ) → ℝ≥0∞} (hρm : Meas ρ)
    (hφ' : ∀ c, Measurable fun x : (Fin K → Θ) × (Fin K → ℝ) => φ' c x.1 x.2)
    (hρ : ∀ c θ v, ρ c θ v ≠ ∞) (he : ∀ c θ v, φ c θ v = M * φ' c θ v + (ρ c θ v).toReal) (N : ℕ) :
    ∀ acc r, 0 ≤ r → ∀ c θ v, (∀ k, 0 < v k ∧ v k ≤ 1) →
      kernelSum like (drawLaws E ν Q h) a b F φ N (M * acc + r) c θ v ≤
        kernelSum like (drawLaws E ν Q h) a b F' φ' N acc c θ v +
          κ * (ENNReal.ofReal r + ∑ i ∈ Finset.range N,
            (lawKernel like (drawLaws E ν Q h) a b)^[i + 1] ρ c θ v) := by
  induction N with
  | zero =>
    intro acc r hr c θ v _
    simpa [kernelSum] using hF acc r hr
  | succ N ih =>
    intro acc r hr c θ v hv
    have hit : ∀ i, Meas ((lawKernel like (drawLaws E ν Q h) a b)^[i] ρ) := fun i =>
      hρm.kernel_iterate S i
    have hsum : Meas fun c θ v => ∑ i ∈ Finset.range N,
        (lawKernel like (drawLaws E ν Q h) a b)^[i + 1] ρ c θ v := fun c =>
      Finset.measurable_sum _ fun i _ => hit (i + 1) c
    have hpt : ∀ c θ v, (∀ k, 0 < v k ∧ v k ≤ 1) →
        kernelSum like (drawLaws E ν Q h) a b F φ N (M * acc + r + φ c θ v) c θ v ≤
          kernelSum like (drawLaws E ν Q h) a b F' φ' N (acc + φ' c θ v) c θ v +
            κ * (ENNReal.ofReal r + (ρ c θ v + ∑ i ∈ Finset.range N,
              (lawKernel like (drawLaws E ν Q h) a b)^[i + 1] ρ c θ v)) := by
      intro c θ v hv
      have h1 := ih (acc + φ' c θ v) (r + (ρ c θ v).toReal) (by positivity) c θ v hv
      rw [ENNReal.ofReal_add hr ENNReal.toReal_nonneg, ENNReal.ofReal_toReal (hρ c θ v),
        add_assoc (ENNReal.ofReal r)] at h1
      have e : M * acc + r + φ c θ v = M * (acc + φ' c θ v) + (r + (ρ c θ v).toReal) := by
        rw [he]; ring
      rw [e]
      exact h1
    calc kernelSum like (drawLaws E ν Q h) a b F φ (N + 1) (M * acc + r) c θ v
        ≤ lawKernel like (drawLaws E ν Q h) a b (fun c θ v =>
            kernelSum like (drawLaws E ν Q h) a b F' φ' N (acc + φ' c θ v) c θ v +
            κ * (ENNReal.ofReal r + (ρ c θ v + ∑ i ∈ Finset.range N,
              (lawKernel like (drawLaws E ν Q h) a b)^[i + 1] ρ c θ v))) c θ v :=
          kernel_mono S hpt c θ v
      _ = _ := by
          rw [kernel_add S (kernelSum_meas S hF' hφ' N acc),
            kernel_mul S κ (fun c => measurable_const.add ((hρm c).add (hsum c))),
            kernel_add S (fun _ => measurable_const), kernel_const S _ c θ hv, kernel_add S hρm,
            kernel_sum S (fun i => hit (i + 1)) N c θ hv, Finset.sum_range_succ']
          simp only [Function.iterate_succ_apply' _ (_ + 1), Function.iterate_one, zero_add]
          rw [add_comm (lawKernel like (drawLaws E ν Q h) a b ρ c θ v)]
          rfl

theorem iterate_le_condMean (S : RunSetup E like ν Q h prior a b)
    {ρ : (Fin n → Fin K) → (Fin K → Θ) → (Fin K → ℝ) → ℝ≥0∞} {x : ℝ≥0∞}
    (hx : ∀ c, condMean (drawLaws E ν Q h) a b ρ c ≤ x) (i : ℕ) (c : Fin n → Fin K) (θ : Fin K → Θ)
    (v : Fin K → ℝ) (hv : ∀ k, 0 < v k ∧ v k ≤ 1) :
    (lawKernel like (drawLaws E ν Q h) a b)^[i + 1] ρ c θ v ≤ x := by
  rw [Function.iterate_succ_apply]
  refine kernel_iterate_le S (fun c θ v hv => ?_) i c θ v hv
  rw [lawKernel_apply]
  calc _ ≤ ∑ c', ENNReal.ofReal (labelProb like θ v c') * x :=
        Finset.sum_le_sum fun c' _ => mul_le_mul_right (hx c') _
    _ = x := by
        rw [← Finset.sum_mul, ← ENNReal.ofReal_sum_of_nonneg fun c' _ => labelProb_nonneg θ hv c',
          labelProb_sum S.some θ hv, ENNReal.ofReal_one, one_mul]

/-! ### Truncation -/

theorem condMean_tail (S : RunSetup E like ν Q h prior a b)
    {Φ : (Fin n → Fin K) → (Fin K → Θ) → (Fin K → ℝ) → ℝ≥0∞} (hΦ : Meas Φ)
    (hf : ∀ c θ v, Φ c θ v ≠ ∞) (hi : ∀ c, condMean (drawLaws E ν Q h) a b Φ c ≠ ∞) {x : ℝ≥0∞}
    (hx : 0 < x) : ∀ᶠ m : ℕ in atTop, ∀ c,
      condMean (drawLaws E ν Q h) a b (fun c θ v => Φ c θ v - m) c ≤ x := by
  refine eventually_all.mpr fun c => ?_
  have h2 := stickLaw_isProb (shape_pos S.apos (cnt c)) (shape_pos S.bpos (later c))
  have h1 := drawLaws_prob S.bayes S.saved c
  have hp : ∀ Ψ : (Fin n → Fin K) → (Fin K → Θ) → (Fin K → ℝ) → ℝ≥0∞, Meas Ψ →
      condMean (drawLaws E ν Q h) a b Ψ c = ∫⁻ p, Ψ c p.1 p.2 ∂(Measure.pi (drawLaws E ν Q h c)).prod
        (stickLaw (fun k => a k + cnt c k) fun k => b k + later c k) := by
    intro Ψ hΨ
    unfold condMean
    rw [lintegral_prod _ (hΨ c).aemeasurable]
  have hm : ∀ m : ℕ, Meas fun c θ v => Φ c θ v - (m : ℝ≥0∞) := fun m c => (hΦ c).sub_const _
  have ht : Tendsto (fun m : ℕ => condMean (drawLaws E ν Q h) a b (fun c θ v => Φ c θ v - m) c) atTop
      (𝓝 (∫⁻ _, 0 ∂(Measure.pi (drawLaws E ν Q h c)).prod
        (stickLaw (fun k => a k + cnt c k) fun k => b k + later c k))) := by
    simp only [hp _ (hm _)]
    refine tendsto_lintegral_of_dominated_convergence (fun p => Φ c p.1 p.2) (fun m => hm m c)
      (fun m => Eventually.of_forall fun p => tsub_le_self) ?_ (Eventually.of_forall fun p => ?_)
    · rw [← hp Φ hΦ]
      exact hi c
    · refine tendsto_const_nhds.congr' ?_
      obtain ⟨m0, hm0⟩ := ENNReal.exists_nat_gt (hf c p.1 p.2)
      filter_upwards [eventually_ge_atTop m0] with m hmm
      have : (m0 : ℝ≥0∞) ≤ m := by exact_mod_cast hmm
      exact (tsub_eq_zero_of_le (hm0.le.trans this)).symm
  rw [lintegral_zero] at ht
  exact (ht.eventually (gt_mem_nhds hx)).mono fun m hm => hm.le

/-- Averages of a function with a finite mean converge in probability, uniformly in the start. -/
theorem kernelSum_consistent (S : RunSetup E like ν Q h prior a b) (n : ℕ) :
    ∃ δ : ℝ, 0 < δ ∧ δ ≤ 1 ∧
      ∀ Φ : (Fin n → Fin K) → (Fin K → Θ) → (Fin K → ℝ) → ℝ≥0∞, Meas Φ → (∀ c θ v, Φ c θ v ≠ ∞) →
      (∀ c, condMean (drawLaws E ν Q h) a b Φ c ≠ ∞) →
      ∃ L B : ℝ, 0 ≤ L ∧ (Q = noneSaved → L = (posteriorMean like n a b (ν h) Φ).toReal) ∧
        (∀ (c : Fin n → Fin K) (θ : Fin K → Θ) (v : Fin K → ℝ), (∀ k, 0 < v k ∧ v k ≤ 1) → ∀ k : ℕ,
          (lawKernel like (drawLaws E ν Q h) a b)^[k + 1] Φ c θ v ≠ ∞ ∧
          |((lawKernel like (drawLaws E ν Q h) a b)^[k + 1] Φ c θ v).toReal - L| ≤ B * (1 - δ) ^ k) ∧
        ∀ ε : ℝ, 0 < ε → ∀ η : ℝ, 0 < η → ∃ N0 : ℕ, ∀ N : ℕ, N0 ≤ N → ∀ (c : Fin n → Fin K)
          (θ : Fin K → Θ) (v : Fin K → ℝ), (∀ k, 0 < v k ∧ v k ≤ 1) →
          kernelSum like (drawLaws E ν Q h) a b (Set.indicator {x : ℝ | ε ≤ |x / N - L|} 1)
            (fun c θ v => (Φ c θ v).toReal) N 0 c θ v ≤ ENNReal.ofReal η := by
  obtain ⟨δ, h0, h1, hδ⟩ := kernel_limit_int S n
  obtain ⟨δ', h0', h1', hδ'⟩ := kernel_limit S n
  refine ⟨δ, h0, h1, fun Φ hΦ hf hi => ?_⟩
  obtain ⟨L, B, L0, hL, hlim⟩ := hδ Φ hΦ hi
  refine ⟨L, B, L0, hL, hlim, fun ε hε η hη => ?_⟩
  obtain ⟨τ, hτ⟩ : ∃ τ : ℝ, τ = min (ε / 3) (η * ε / 6) := ⟨_, rfl⟩
  have τ0 : 0 < τ := by rw [hτ]; positivity
  have τ1 : τ ≤ ε / 3 := hτ ▸ min_le_left _ _
  have τ2 : τ ≤ η * ε / 6 := hτ ▸ min_le_right _ _
  obtain ⟨m, hm, m1⟩ := ((condMean_tail S hΦ hf hi (ENNReal.ofReal_pos.mpr τ0)).and
    (eventually_ge_atTop 1)).exists
  have M0 : (0 : ℝ) < m := by exact_mod_cast m1
  have M0' : (m : ℝ≥0∞) ≠ 0 := by exact_mod_cast (by omega : m ≠ 0)
  have Mt : (m : ℝ≥0∞) ≠ ∞ := ENNReal.natCast_ne_top m
  obtain ⟨ρ, hρ⟩ : ∃ ρ : (Fin n → Fin K) → (Fin K → Θ) → (Fin K → ℝ) → ℝ≥0∞,
    ρ = fun c θ v => Φ c θ v - m := ⟨_, rfl⟩
  obtain ⟨Ψ, hΨ⟩ : ∃ Ψ : (Fin n → Fin K) → (Fin K → Θ) → (Fin K → ℝ) → ℝ≥0∞,
    Ψ = fun c θ v => min (Φ c θ v) m / m := ⟨_, rfl⟩
  have hρm : Meas ρ := fun c => by rw [hρ]; exact (hΦ c).sub_const _
  have hΨm : Meas Ψ := fun c => by
    rw [hΨ]; exact ((hΦ c).min measurable_const).div_const _
  have hρf : ∀ c θ v, ρ c θ v ≠ ∞ := fun c θ v => by
    rw [hρ]; exact ne_top_of_le_ne_top (hf c θ v) tsub_le_self
  have hΨ1 : ∀ c θ v, Ψ c θ v ≤ 1 := fun c θ v => by
    rw [hΨ]; exact ENNReal.div_le_of_le_mul (by rw [one_mul]; exact min_le_right _ _)
  have hΨf : ∀ c θ v, Ψ c θ v ≠ ∞ := fun c θ v => ne_top_of_le_ne_top one_ne_top (hΨ1 c θ v)
  have hsplit : ∀ c θ v, Φ c θ v = m * Ψ c θ v + ρ c θ v := by
    intro c θ v
    rw [hΨ, hρ]
    dsimp only
    rw [ENNReal.mul_div_cancel M0' Mt]
    rcases le_total (Φ c θ v) m with hle | hle
    · rw [min_eq_left hle, tsub_eq_zero_of_le hle, add_zero]
    · rw [min_eq_right hle, add_tsub_cancel_of_le hle]
  have hsplit' : ∀ c θ v, (Φ c θ v).toReal = m * (Ψ c θ v).toReal + (ρ c θ v).toReal := by
    intro c θ v
    rw [hsplit, ENNReal.toReal_add (ENNReal.mul_ne_top Mt (hΨf c θ v)) (hρf c θ v),
      ENNReal.toReal_mul, ENNReal.toReal_natCast]
  have hmρ : ∀ c, condMean (drawLaws E ν Q h) a b ρ c ≤ ENNReal.ofReal τ := by rw [hρ]; exact hm
  obtain ⟨L1, L10, L11, -, hlim1⟩ := hδ' Ψ hΨm hΨ1
  -- the limits
  have hLL : |L - m * L1| ≤ τ := by
    obtain ⟨c⟩ : Nonempty (Fin n → Fin K) := ⟨fun _ => ⟨0, S.some⟩⟩
    have : Nonempty (Fin K → Θ) := by
      have hp := S.bayes.prior
      obtain ⟨t⟩ := nonempty_of_isProbabilityMeasure (ν h)
      exact ⟨fun _ => t⟩
    obtain ⟨θ⟩ := this
    have hv : ∀ k : Fin K, (0 : ℝ) < (fun _ : Fin K => (1 : ℝ)) k ∧ (fun _ : Fin K => (1 : ℝ)) k ≤ 1 :=
      fun k => ⟨one_pos, le_rfl⟩
    have hk : ∀ k : ℕ, |L - m * L1| ≤ τ + (B * (1 - δ) ^ k + m * (1 - δ') ^ k) := by
      intro k
      have hadd : ∀ i : ℕ, ∀ c θ v, (∀ k, 0 < v k ∧ v k ≤ 1) →
          (lawKernel like (drawLaws E ν Q h) a b)^[i] Φ c θ v =
          m * (lawKernel like (drawLaws E ν Q h) a b)^[i] Ψ c θ v +
            (lawKernel like (drawLaws E ν Q h) a b)^[i] ρ c θ v := by
        intro i
        induction i with
        | zero => exact fun c θ v _ => hsplit c θ v
        | succ i ih =>
          intro c θ v hv
          simp only [Function.iterate_succ_apply']
          rw [kernel_congr S ih c θ v, kernel_add S
            (fun c => (hΨm.kernel_iterate S i c).const_mul _), kernel_mul S _ (hΨm.kernel_iterate S i)]
      obtain ⟨hft, hf1⟩ := hlim c θ (fun _ => 1) hv k
      have hf2 := hlim1 c θ (fun _ => 1) hv k
      have hr := iterate_le_condMean S hmρ k c θ (fun _ => 1) hv
      have e := hadd (k + 1) c θ (fun _ => 1) hv
      rw [e] at hft
      obtain ⟨ht1, ht2⟩ := ENNReal.add_ne_top.mp hft
      rw [e, ENNReal.toReal_add ht1 ht2, ENNReal.toReal_mul, ENNReal.toReal_natCast] at hf1
      have hr' := ENNReal.toReal_le_of_le_ofReal τ0.le hr
      have hr0 := ENNReal.toReal_nonneg
        (a := (lawKernel like (drawLaws E ν Q h) a b)^[k + 1] ρ c θ (fun _ => 1))
      have hf2' := mul_le_mul_of_nonneg_left hf2 M0.le
      rw [← abs_of_pos M0, ← abs_mul, abs_of_pos M0] at hf2'
      rw [abs_le] at hf1 hf2' ⊢
      constructor <;> nlinarith
    have ht : Tendsto (fun k : ℕ => τ + (B * (1 - δ) ^ k + m * (1 - δ') ^ k)) atTop
        (𝓝 (τ + (B * 0 + m * 0))) :=
      tendsto_const_nhds.add (((_root_.tendsto_pow_atTop_nhds_zero_of_lt_one (by linarith)
        (by linarith)).const_mul _).add ((_root_.tendsto_pow_atTop_nhds_zero_of_lt_one (by linarith)
        (by linarith)).const_mul _))
    rw [mul_zero, mul_zero, add_zero, add_zero] at ht
    exact ge_of_tendsto' ht hk
  -- the sums
  obtain ⟨A, hA⟩ : ∃ A : ℝ, A = 2 * (1 + 1 / δ') ^ 2 * (9 * m ^ 2) / ε ^ 2 := ⟨_, rfl⟩
  have A0 : 0 ≤ A := by rw [hA]; positivity
  obtain ⟨N1, hN1⟩ := exists_nat_gt (2 * A / η)
  refine ⟨N1 + 1, fun N hN c θ v hv => ?_⟩
  have hNr : (N1 : ℝ) < N := by exact_mod_cast hN
  have hN0 : (0 : ℝ) < N := lt_of_le_of_lt (Nat.cast_nonneg _) hNr
  have hNpos : 0 < N := by omega
  have hFm : Measurable (Set.indicator {x : ℝ | ε / (3 * m) ≤ |x / N - L1|} (1 : ℝ → ℝ≥0∞)) :=
    measurable_one.indicator (measurableSet_le measurable_const
      (((measurable_id.div_const _).sub_const _).norm))
  have hFF : ∀ x r : ℝ, 0 ≤ r →
      Set.indicator {x : ℝ | ε ≤ |x / N - L|} (1 : ℝ → ℝ≥0∞) (m * x + r) ≤
      Set.indicator {x : ℝ | ε / (3 * m) ≤ |x / N - L1|} (1 : ℝ → ℝ≥0∞) x +
        ENNReal.ofReal (3 / (N * ε)) * ENNReal.ofReal r := by
    intro x r hr
    by_cases hx : m * x + r ∈ {x : ℝ | ε ≤ |x / N - L|}
    swap
    · rw [Set.indicator_of_notMem hx]
      exact zero_le
    rw [Set.indicator_of_mem hx]
    by_cases hy : x ∈ {x : ℝ | ε / (3 * m) ≤ |x / N - L1|}
    · rw [Set.indicator_of_mem hy]
      exact le_self_add
    rw [Set.indicator_of_notMem hy, zero_add, ← ENNReal.ofReal_mul (by positivity), Pi.one_apply,
      ENNReal.one_le_ofReal]
    simp only [Set.mem_setOf_eq, not_le] at hx hy
    have hb1 : |(m * x + r) / N - L| ≤ m * |x / N - L1| + r / N + τ := by
      have e : (m * x + r) / N - L = m * (x / N - L1) + r / N - (L - m * L1) := by ring
      rw [e]
      refine (abs_sub _ _).trans (add_le_add ((abs_add_le _ _).trans (le_of_eq ?_)) hLL)
      rw [abs_mul, abs_of_pos M0, abs_of_nonneg (by positivity : 0 ≤ r / N)]
    have hb2 : m * |x / N - L1| < ε / 3 := by
      have := mul_lt_mul_of_pos_left hy M0
      have e : (m : ℝ) * (ε / (3 * m)) = ε / 3 := by field_simp
      linarith
    have hb3 : ε / 3 < r / N := by linarith
    rw [lt_div_iff₀ hN0] at hb3
    rw [div_mul_eq_mul_div, le_div_iff₀ (by positivity)]
    linarith
  have hs := kernelSum_split S (N := N) hFm hFF hρm (φ := fun c θ v => (Φ c θ v).toReal)
    (φ' := fun c θ v => (Ψ c θ v).toReal) (fun c => (hΨm c).ennreal_toReal) hρf hsplit' 0 0 le_rfl c θ v
    hv
  rw [mul_zero, add_zero, ENNReal.ofReal_zero, zero_add] at hs
  refine hs.trans ?_
  have h2 := kernelSum_average S h0' h1' (φ := fun c θ v => (Ψ c θ v).toReal) (m := L1)
    (fun c => (hΨm c).ennreal_toReal) (fun _ _ _ => ENNReal.toReal_nonneg)
    (fun c θ v => ENNReal.toReal_le_of_le_ofReal zero_le_one (by rw [ENNReal.ofReal_one]; exact hΨ1 _ _ _))
    L10 L11 (fun c θ v hv k => by
      simp only [ENNReal.ofReal_toReal (hΨf _ _ _)]
      exact hlim1 c θ v hv k) hNpos (ε := ε / (3 * m)) (by positivity) c θ hv
  have h3 : ∑ i ∈ Finset.range N, (lawKernel like (drawLaws E ν Q h) a b)^[i + 1] ρ c θ v ≤
      ENNReal.ofReal (N * τ) := by
    refine (Finset.sum_le_sum fun i _ => iterate_le_condMean S hmρ i c θ v hv).trans (le_of_eq ?_)
    rw [Finset.sum_const, Finset.card_range, nsmul_eq_mul, ENNReal.ofReal_mul hN0.le,
      ENNReal.ofReal_natCast]
  calc _ ≤ ENNReal.ofReal (2 * (1 + 1 / δ') ^ 2 / (N * (ε / (3 * m)) ^ 2)) +
        ENNReal.ofReal (3 / (N * ε)) * ENNReal.ofReal (N * τ) :=
        add_le_add h2 (mul_le_mul_right h3 _)
    _ ≤ ENNReal.ofReal η := by
        rw [← ENNReal.ofReal_mul (by positivity), ← ENNReal.ofReal_add (by positivity) (by positivity)]
        refine ENNReal.ofReal_le_ofReal ?_
        have e1 : 2 * (1 + 1 / δ') ^ 2 / (N * (ε / (3 * m)) ^ 2) = A / N := by
          rw [hA]; field_simp; norm_num
        have e2 : 3 / (N * ε) * (N * τ) = 3 * τ / ε := by field_simp
        rw [e1, e2]
        have i1 : A / N ≤ η / 2 := by
          rw [div_le_iff₀ hN0]
          have := hN1.trans hNr
          rw [div_lt_iff₀ hη] at this
          linarith
        have i2 : 3 * τ / ε ≤ η / 2 := by
          rw [div_le_iff₀ hε]
          linarith
        linarith

/-! ### Runs -/

section run

variable [Nonempty Θ]

/-- Means after an iteration, as functions of the state of the algorithm and of the mixing. -/
noncomputable def blockedIter (E : Env G H Θ) (like : Θ → ℕ → ℝ) (ν : H → Measure Θ) (prior : SBPrior)
    (K n : ℕ) (g : Alg G H Θ × SBState → ℝ≥0∞) (p : Alg G H Θ × SBState) : ℝ≥0∞ :=
  iterMean E like ν prior K n (fun s mix => g (s, mix)) p.1 p.2

theorem blockedIter_iterate (k : ℕ) (g : Alg G H Θ × SBState → ℝ≥0∞) (s : Alg G H Θ) (mix : SBState) :
    (blockedIter E like ν prior K n)^[k] g (s, mix) =
      (iterMean E like ν prior K n)^[k] (fun s mix => g (s, mix)) s mix := by
  induction k generalizing s mix with
  | zero => rfl
  | succ k ih =>
    rw [Function.iterate_succ_apply', Function.iterate_succ_apply']
    unfold blockedIter at ih ⊢
    dsimp only
    congr 1
    funext s mix
    exact ih s mix

theorem runSum_eq (S : RunSetup E like ν Q h prior a b) {F : ℝ → ℝ≥0∞} (hF : Measurable F)
    {Φ : (Fin n → Fin K) → (Fin K → Θ) → (Fin K → ℝ) → ℝ≥0∞} (hΦ : Meas Φ) (hf : ∀ c θ v, Φ c θ v ≠ ∞)
    {g : Alg G H Θ → SBState → ℝ≥0∞}
    (hg : ∀ c θ v s mix, BlockedState E prior Q c θ v h s mix → (∀ k, 0 < v k ∧ v k ≤ 1) →
      g s mix = Φ c θ v) (N : ℕ) :
    ∀ acc c θ v s mix, BlockedState E prior Q c θ v h s mix → (∀ k, 0 < v k ∧ v k ≤ 1) →
      Chain.runSum (blockedIter E like ν prior K n) (Measure.dirac ()) F (fun p _ => g p.1 p.2) N acc
        (s, mix) =
      kernelSum like (drawLaws E ν Q h) a b F (fun c θ v => (Φ c θ v).toReal) N acc c θ v := by
  induction N with
  | zero => exact fun acc c θ v s mix _ _ => rfl
  | succ N ih =>
    intro acc c θ v s mix hs hv
    rw [Chain.runSum, kernelSum]
    unfold blockedIter
    refine iterMean_eq S (kernelSum_meas S hF (fun c => (hΦ c).ennreal_toReal) N acc)
      (fun c θ v s mix hs hv => ?_) hs hv
    dsimp only
    rw [lintegral_dirac, hg c θ v s mix hs hv, if_neg (hf c θ v)]
    exact ih _ c θ v s mix hs hv

end run

end Bayesmix.Cond
