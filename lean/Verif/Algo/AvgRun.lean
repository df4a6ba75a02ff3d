import Mathlib.MeasureTheory.Function.LpSeminorm.TriangleInequality
import Mathlib.MeasureTheory.Function.L2Space
import Verif.Algo.DiscDraw
import Verif.Algo.DensRun

/-!
# Averages over the stored states of a run

`BaseAlgorithm::run` stores the state after each iteration that is not burn-in, and estimates are
averages over what was stored.
-/

namespace Bayesmix.Chain
open Bayesmix Cond Gibbs SplitMerge Slice Mixing Density Hierarchies MeasureTheory ENNReal

variable {G H Θ : Type} [AddCommGroup G] {n : ℕ}

open Classical in
/-- The loop of `BaseAlgorithm::run` (`src/algorithms/base_algorithm.h` 61-71) with `left` iterations to
go, the next one with number `it`: the mean of `F` of the sum of `est` over the states stored from now
on, added to `acc`. `iter` gives means after a `step`. The estimate of every stored state
(`src/algorithms/base_algorithm.cc` 25-35) uses a draw from `P` of its own. Infinite if an estimate
fails. The code computes the estimates after the run; as their draws are independent of the run, means
are the same. -/
noncomputable def runLoop {T Ω : Type} [MeasurableSpace Ω] (iter : (T → ℝ≥0∞) → T → ℝ≥0∞)
    (P : Measure Ω) (F : ℝ → ℝ≥0∞) (est : T → Ω → ℝ≥0∞) (burnin : ℕ) : ℕ → ℕ → ℝ → T → ℝ≥0∞
  | 0, _, acc => fun _ => F acc
  | left + 1, it, acc => iter fun s =>
      if burnin ≤ it then
        ∫⁻ ω, if est s ω = ∞ then ∞ else
          runLoop iter P F est burnin left (it + 1) (acc + (est s ω).toReal) s ∂P
      else runLoop iter P F est burnin left (it + 1) acc s

/-- The probability that the average of `est` over the states stored by a run lies in `D`. -/
noncomputable def averageProb {T Ω : Type} [MeasurableSpace Ω] (iter : (T → ℝ≥0∞) → T → ℝ≥0∞)
    (P : Measure Ω) (est : T → Ω → ℝ≥0∞) (maxiter burnin : ℕ) (D : Set ℝ) : T → ℝ≥0∞ :=
  runLoop iter P (Set.indicator {t : ℝ | t / ((maxiter - burnin : ℕ) : ℝ) ∈ D} 1) est burnin maxiter 0 0

open Classical in
/-- The same after the burn-in. -/
noncomputable def runSum {T Ω : Type} [MeasurableSpace Ω] (iter : (T → ℝ≥0∞) → T → ℝ≥0∞) (P : Measure Ω)
    (F : ℝ → ℝ≥0∞) (est : T → Ω → ℝ≥0∞) : ℕ → ℝ → T → ℝ≥0∞
  | 0, acc => fun _ => F acc
  | N + 1, acc => iter fun s => ∫⁻ ω,
      if est s ω = ∞ then ∞ else runSum iter P F est N (acc + (est s ω).toReal) s ∂P

theorem runLoop_stored {T Ω : Type} [MeasurableSpace Ω] (iter : (T → ℝ≥0∞) → T → ℝ≥0∞)
    (P : Measure Ω) (F : ℝ → ℝ≥0∞) (est : T → Ω → ℝ≥0∞) {burnin : ℕ} (N it : ℕ) (h : burnin ≤ it)
    (acc : ℝ) : runLoop iter P F est burnin N it acc = runSum iter P F est N acc := by
  induction N generalizing it acc with
  | zero => rfl
  | succ N ih =>
    unfold runLoop runSum
    congr 1
    funext s
    rw [if_pos h]
    refine lintegral_congr fun ω => ?_
    rw [ih (it + 1) (by omega)]

theorem runLoop_burn {T Ω : Type} [MeasurableSpace Ω] (iter : (T → ℝ≥0∞) → T → ℝ≥0∞)
    (P : Measure Ω) (F : ℝ → ℝ≥0∞) (est : T → Ω → ℝ≥0∞) {burnin : ℕ} (N B it : ℕ) (h : burnin = it + B)
    (acc : ℝ) : runLoop iter P F est burnin (N + B) it acc =
      iter^[B] (runSum iter P F est N acc) := by
  induction B generalizing it with
  | zero => exact runLoop_stored iter P F est N it (by omega) acc
  | succ B ih =>
    rw [Function.iterate_succ_apply', ← ih (it + 1) (by omega)]
    have e : ∀ k, runLoop iter P F est burnin (k + 1) it acc =
        iter (runLoop iter P F est burnin k (it + 1) acc) := by
      intro k
      conv_lhs => unfold runLoop
      congr 1
      funext s
      rw [if_neg (by omega)]
    exact e (N + B)

theorem averageProb_eq {T Ω : Type} [MeasurableSpace Ω] (iter : (T → ℝ≥0∞) → T → ℝ≥0∞)
    (P : Measure Ω) (est : T → Ω → ℝ≥0∞) (B N : ℕ) (D : Set ℝ) :
    averageProb iter P est (B + N) B D =
      iter^[B] (runSum iter P (Set.indicator {t : ℝ | t / N ∈ D} 1) est N 0) := by
  unfold averageProb
  rw [Nat.add_sub_cancel_left, Nat.add_comm B N]
  exact runLoop_burn iter P _ est N B 0 (by omega) 0

section rows

variable [MeasurableSpace Θ] {w : Setoid (Fin n) → ℝ} {like : Θ → ℕ → ℝ}
  {R : Fin n → (Spot n → (Fin n → Θ) → ℝ≥0∞) → Spot n → (Fin n → Θ) → ℝ≥0∞}
  {E : Env G H Θ} {ν : H → Measure Θ} {h : H} {Ω : Type} [MeasurableSpace Ω] {P : Measure Ω}

open Classical in
/-- The probabilities of partitions and marks after a sweep. -/
noncomputable def sweepProb
    (R : Fin n → (Spot n → (Fin n → Θ) → ℝ≥0∞) → Spot n → (Fin n → Θ) → ℝ≥0∞) :
    Spot n → (Fin n → Θ) → Spot n → ℝ≥0∞ :=
  fun x y z => sweepOp R (List.finRange n) (ind z) x y

theorem RowsOk.discOk (hR : RowsOk w like (ν h) R) (hB : BayesClusters E like ν h) :
    DiscOk (sweepProb R) (valueLaw (n := n) E ν h) := by
  classical
  unfold sweepProb
  convert (hR.sweep_step (List.finRange n)).discOk (valueLaw_prob (n := n) hB)

theorem RowsOk.iterOp_eq (hR : RowsOk w like (ν h) R) (Φ : Spot n → (Fin n → Θ) → ℝ≥0∞) :
    iterOp E ν h R Φ = discKernel (sweepProb R) (valueLaw (n := n) E ν h) Φ := by
  classical
  unfold iterOp sweepProb
  convert (hR.sweep_step (List.finRange n)).kernel (V := valueLaw (n := n) E ν h) Φ

/-- What is asked of a function of the partition, the values and a draw. -/
structure Square (E : Env G H Θ) (ν : H → Measure Θ) (h : H) (P : Measure Ω)
    (φ : Setoid (Fin n) → (Fin n → Θ) → Ω → ℝ≥0∞) : Prop where
  meas : ∀ σ, Measurable fun p : (Fin n → Θ) × Ω => φ σ p.1 p.2
  fin : ∀ σ x ω, φ σ x ω ≠ ∞
  two : ∀ z : Spot n, MemLp (fun p : (Fin n → Θ) × Ω => (φ z.1 p.1 p.2).toReal) 2
    ((valueLaw E ν h z).prod P)

/-- The function as a function of spot, values and draw. -/
noncomputable def spotFun (φ : Setoid (Fin n) → (Fin n → Θ) → Ω → ℝ≥0∞) (z : Spot n)
    (p : (Fin n → Θ) × Ω) : ℝ := (φ z.1 p.1 p.2).toReal

/-- The mean over the draw. -/
noncomputable def overDraw (P : Measure Ω) (φ : Setoid (Fin n) → (Fin n → Θ) → Ω → ℝ≥0∞)
    (σ : Setoid (Fin n)) (x : Fin n → Θ) : ℝ≥0∞ := ∫⁻ ω, φ σ x ω ∂P

theorem RowsOk.moments [IsProbabilityMeasure P] (hR : RowsOk w like (ν h) R)
    (hB : BayesClusters E like ν h) (hlike : ∀ i, Measurable fun θ => like θ i) (hw : ∀ σ, 0 < w σ)
    {φ : Setoid (Fin n) → (Fin n → Θ) → Ω → ℝ≥0∞} (hφ : Square E ν h P φ) : ∃ b δ,
      TwoMoments (liftR Ω (sweepProb R)) (liftV (valueLaw (n := n) E ν h) P) (spotFun φ)
        (partPost w like (ν h) (overDraw P φ) / partPost w like (ν h) (fun _ _ => 1)).toReal b δ := by
  have hok := hR.discOk hB
  have hp := hok.prob
  obtain ⟨δ, d0, d1, hδ⟩ := hR.converges_int hB hlike hw
  have hmm : ∀ z : Spot n, Measurable fun y => overDraw P φ z.1 y := fun z =>
    (hφ.meas z.1).lintegral_prod_right'
  have hone : ∀ z : Spot n, Integrable (spotFun φ z) ((valueLaw E ν h z).prod P) := fun z =>
    (hφ.two z).integrable (by norm_num)
  have hint : ∀ z : Spot n, ∫⁻ y, overDraw P φ z.1 y ∂valueLaw E ν h z ≠ ∞ := by
    intro z
    unfold overDraw
    rw [← lintegral_prod (fun p => φ z.1 p.1 p.2) (hφ.meas z.1).aemeasurable]
    have := (hone z).lintegral_lt_top
    unfold spotFun at this
    simp only [ENNReal.ofReal_toReal (hφ.fin _ _ _)] at this
    exact this.ne
  obtain ⟨b, hb⟩ := hδ (fun z y => overDraw P φ z.1 y) hmm hint
  have hit : iterOp E ν h R = discKernel (sweepProb R) (valueLaw (n := n) E ν h) :=
    funext hR.iterOp_eq
  rw [hit] at hb
  have hΦ : (fun (z : Spot n) (p : (Fin n → Θ) × Ω) => ENNReal.ofReal (spotFun φ z p)) =
      fun z p => φ z.1 p.1 p.2 := by
    funext z p
    exact ENNReal.ofReal_toReal (hφ.fin _ _ _)
  refine ⟨b, δ, ⟨fun z => (hφ.meas z.1).ennreal_toReal, fun z p => ENNReal.toReal_nonneg, hone,
    fun z => (hφ.two z).integrable_sq, d0, d1, fun k x p => ?_, fun k x p => ?_⟩⟩
  · rw [hΦ, lift_iterate hok (fun z => hφ.meas z.1) k x p.1 p.2]
    exact (hb k x p.1).1
  · rw [hΦ, lift_iterate hok (fun z => hφ.meas z.1) k x p.1 p.2]
    exact (hb k x p.1).2

omit [MeasurableSpace Θ] [AddCommGroup G] in
theorem discSum_mono {X Y : Type} [Fintype X] [MeasurableSpace Y] {r : X → Y → X → ℝ≥0∞}
    {V : X → Measure Y} {F F' : ℝ → ℝ≥0∞} (hF : ∀ t, F t ≤ F' t) (φ : X → Y → ℝ) (N : ℕ) (acc : ℝ)
    (x : X) (y : Y) : discSum r V F φ N acc x y ≤ discSum r V F' φ N acc x y := by
  induction N generalizing acc x y with
  | zero => exact hF acc
  | succ N ih => exact discKernel_mono (fun z y => ih _ z y) x y

/-- What the sum over a run reads as. -/
noncomputable def spotSum (R : Fin n → (Spot n → (Fin n → Θ) → ℝ≥0∞) → Spot n → (Fin n → Θ) → ℝ≥0∞)
    (E : Env G H Θ) (ν : H → Measure Θ) (h : H) (P : Measure Ω) (F : ℝ → ℝ≥0∞)
    (φ : Setoid (Fin n) → (Fin n → Θ) → Ω → ℝ≥0∞) (ω0 : Ω) (N : ℕ) (acc : ℝ) (z : Spot n)
    (y : Fin n → Θ) : ℝ≥0∞ :=
  discSum (liftR Ω (sweepProb R)) (liftV (valueLaw (n := n) E ν h) P) F (spotFun φ) N acc z (y, ω0)

theorem RowsOk.spotSum_succ [IsProbabilityMeasure P] (hR : RowsOk w like (ν h) R)
    (hB : BayesClusters E like ν h) {F : ℝ → ℝ≥0∞} (hF : Measurable F)
    {φ : Setoid (Fin n) → (Fin n → Θ) → Ω → ℝ≥0∞} (hφ : Square E ν h P φ) (ω0 : Ω) (N : ℕ) (acc : ℝ) :
    spotSum R E ν h P F φ ω0 (N + 1) acc = iterOp E ν h R fun z y =>
      ∫⁻ ω, spotSum R E ν h P F φ ω0 N (acc + (φ z.1 y ω).toReal) z y ∂P := by
  rw [hR.iterOp_eq]
  funext z y
  exact discSum_lift (hR.discOk hB) hF (fun z => (hφ.meas z.1).ennreal_toReal) N acc z y ω0

theorem RowsOk.spotSum_meas [IsProbabilityMeasure P] (hR : RowsOk w like (ν h) R)
    (hB : BayesClusters E like ν h) {F : ℝ → ℝ≥0∞} (hF : Measurable F)
    {φ : Setoid (Fin n) → (Fin n → Θ) → Ω → ℝ≥0∞} (hφ : Square E ν h P φ) (ω0 : Ω) (N : ℕ) (acc : ℝ) :
    MeasX (spotSum R E ν h P F φ ω0 N acc) ∧ MeasX fun z y =>
      ∫⁻ ω, spotSum R E ν h P F φ ω0 N (acc + (φ z.1 y ω).toReal) z y ∂P := by
  have hm : ∀ z : Spot n, Measurable (spotFun φ z) := fun z => (hφ.meas z.1).ennreal_toReal
  refine ⟨fun z => ?_, fun z => measurable_lift_sum (hR.discOk hB) hF hm N acc z ω0⟩
  exact (measurable_discSum ((hR.discOk hB).lift (P := P)) hF hm N z).comp
    (measurable_const.prodMk (measurable_id.prodMk measurable_const))

theorem RowsOk.iterOp_le (hR : RowsOk w like (ν h) R) (hB : BayesClusters E like ν h)
    {Ψ : Spot n → (Fin n → Θ) → ℝ≥0∞} {c : ℝ≥0∞} (hle : ∀ z y, Ψ z y ≤ c) (k : ℕ) (z : Spot n)
    (y : Fin n → Θ) : (iterOp E ν h R)^[k] Ψ z y ≤ c := by
  have hok := hR.discOk hB
  have hp := hok.prob
  induction k generalizing z y with
  | zero => exact hle z y
  | succ k ih =>
    rw [Function.iterate_succ_apply', hR.iterOp_eq]
    refine (discKernel_mono ih z y).trans (le_of_eq ?_)
    unfold discKernel
    simp only [lintegral_const, measure_univ, mul_one]
    rw [← Finset.sum_mul, hok.one, one_mul]

/-- Chebyshev's inequality for the sum over a run. -/
theorem RowsOk.average [IsProbabilityMeasure P] (hR : RowsOk w like (ν h) R)
    (hB : BayesClusters E like ν h) (hlike : ∀ i, Measurable fun θ => like θ i) (hw : ∀ σ, 0 < w σ)
    {φ : Setoid (Fin n) → (Fin n → Θ) → Ω → ℝ≥0∞} (hφ : Square E ν h P φ) (ω0 : Ω) {L : ℝ}
    (hL : (partPost w like (ν h) (overDraw P φ) / partPost w like (ν h) (fun _ _ => 1)).toReal = L) :
    ∃ C : ℝ, 0 < C ∧ ∀ N : ℕ, 0 < N → ∀ ε : ℝ, 0 < ε → ∀ D : Set ℝ, (∀ t ∈ D, ε ≤ |t - L|) → ∀ z y,
      spotSum R E ν h P (Set.indicator {t : ℝ | t / N ∈ D} 1) φ ω0 N 0 z y ≤
        ENNReal.ofReal (C / (N * ε ^ 2)) := by
  obtain ⟨b, δ, hm⟩ := hR.moments hB hlike hw hφ
  rw [hL] at hm
  obtain ⟨C, hC, h⟩ := hm.average (hR.discOk hB).lift
  refine ⟨C, hC, fun N hN ε hε D hD z y => le_trans ?_ (h N hN ε hε z (y, ω0))⟩
  refine discSum_mono (fun t => ?_) _ N 0 z (y, ω0)
  exact Set.indicator_le_indicator_of_subset (s := {t : ℝ | t / N ∈ D})
    (t := {t : ℝ | ε ≤ |t / N - L|}) (f := (1 : ℝ → ℝ≥0∞)) (fun t ht => hD _ ht) (fun _ => zero_le) t

end rows

section run

variable [MeasurableSpace Θ] [Nonempty Θ] {E : Env G H Θ} {like : Θ → ℕ → ℝ} {S : Scores H}
  {ν : H → Measure Θ} {h : H} {π : List ℕ → ℝ} {Ω : Type} [MeasurableSpace Ω] {P : Measure Ω}

theorem Neal2Ok.sum_reads [IsProbabilityMeasure P] (hO : Neal2Ok E like S ν n h π) {F : ℝ → ℝ≥0∞}
    (hF : Measurable F) {φ : Setoid (Fin n) → (Fin n → Θ) → Ω → ℝ≥0∞} (hφ : Square E ν h P φ) (ω0 : Ω)
    {est : Alg G H Θ → Ω → ℝ≥0∞}
    (he : ∀ (σ : Setoid (Fin n)) A x s, Seen E h σ A x s → ∀ ω, est s ω = φ σ x ω) (N : ℕ) (acc : ℝ) :
    Reads E h (runSum (neal2IterMean E like S ν n) P F est N acc)
      (spotSum (rowOp (weight π) like (ν h)) E ν h P F φ ω0 N acc) := by
  induction N generalizing acc with
  | zero => exact fun _ _ _ _ _ => rfl
  | succ N ih =>
    rw [hO.rows.spotSum_succ hO.clusters hF hφ]
    refine hO.iter_reads (hO.rows.spotSum_meas hO.clusters hF hφ ω0 N acc).2 fun σ A x s hs => ?_
    refine lintegral_congr fun ω => ?_
    rw [he σ A x s hs ω, if_neg (hφ.fin σ x ω)]
    exact ih _ σ A x s hs

theorem Neal8Ok.sum_reads [IsProbabilityMeasure P] (hO : Neal8Ok E like S ν n h π) {m : ℕ}
    {F : ℝ → ℝ≥0∞} (hF : Measurable F) {φ : Setoid (Fin n) → (Fin n → Θ) → Ω → ℝ≥0∞}
    (hφ : Square E ν h P φ) (ω0 : Ω) {est : Alg G H Θ → Ω → ℝ≥0∞}
    (he : ∀ (σ : Setoid (Fin n)) A x s, Seen E h σ A x s → ∀ ω, est s ω = φ σ x ω) (N : ℕ) (acc : ℝ) :
    Reads8 E h m (runSum (neal8IterMean E like S ν n) P F (fun s => est s.base) N acc)
      (spotSum (row8Op (weight π) like (ν h) m) E ν h P F φ ω0 N acc) := by
  induction N generalizing acc with
  | zero => exact fun _ _ _ _ _ _ => rfl
  | succ N ih =>
    rw [(hO.rows m).spotSum_succ hO.clusters hF hφ]
    refine hO.iter_reads ((hO.rows m).spotSum_meas hO.clusters hF hφ ω0 N acc).2
      fun σ A x s hs haux => ?_
    refine lintegral_congr fun ω => ?_
    have e := he σ A x s.base hs ω
    have e' : est s.base ω ≠ ∞ := e ▸ hφ.fin σ x ω
    rw [if_neg (show (fun s : Alg8 G H Θ => est s.base) s ω ≠ ∞ from e'),
      show (fun s : Alg8 G H Θ => est s.base) s ω = φ σ x ω from e]
    exact ih _ σ A x s hs haux

end run

end Bayesmix.Chain
