import Verif.Algo.Neal8Run
import Verif.Algo.PropsNeal2Chain

/-!
# Repeated iterations of Neal8
-/

namespace Bayesmix.Chain
open Bayesmix Cond Gibbs SplitMerge Slice Mixing MeasureTheory ENNReal

variable {G H Θ : Type} [AddCommGroup G] {n : ℕ} [MeasurableSpace Θ]

/-- What the theorems on repeated iterations assume. -/
structure Neal8Ok (E : Env G H Θ) (like : Θ → ℕ → ℝ) (S : Scores H) (ν : H → Measure Θ) (n : ℕ) (h : H)
    (π : List ℕ → ℝ) : Prop where
  kind : E.kind ≠ .other
  two : 2 ≤ n
  meas : ∀ i, Measurable fun θ => like θ i
  same : ∀ al al' : List ℕ, al.length = n → al'.length = n → SamePart n al al' → π al = π al'
  pos : ∀ al : List ℕ, al.length = n → 0 < π al
  clusters : BayesClusters E like ν h
  fix : ∀ l r, E.hyperUpdate h l r = h
  cond : ∀ s, MarginalOk E.contrib n s → s.hyp = h → ∀ i < n, ∀ s1 y,
    detach E false s i = .ok (s1, y) → Fits like S n π s1 i

/-- Priors of product form fit. -/
theorem fits_of_prod {E : Env G H Θ} {like : Θ → ℕ → ℝ} {S : Scores H} {s : Alg G H Θ}
    (hs : MarginalOk E.contrib n s) {i : ℕ} (hi : i < n) {s1 : Alg G H Θ} {y : Hier G H Θ × Bool}
    (hdet : detach E false s i = .ok (s1, y)) (hn : 2 ≤ n) {π : List ℕ → ℝ} {κ : ℝ} {A B : ℕ → ℝ}
    (hκ : 0 < κ) (hAp : ∀ k, 1 ≤ k → 0 < A k) (hB0 : ∀ c, 0 < B c)
    (hπ : ∀ al : List ℕ, al.length = n → π al = κ * prodPost A (sizeW B) al)
    (hA : ∀ k : ℕ, 1 ≤ k → A (k + 1) * B 1 = A k * Real.exp (S.fresh (n - 1) k))
    (hB : ∀ k c : ℕ, 1 ≤ c → B (c + 1) = B c * Real.exp (S.exist (n - 1) k c)) :
    Fits like S n π s1 i := by
  obtain ⟨s1', o, hdet', hR, -, -, -, hcard, -, -⟩ := detach_place (canSave_false E) hs hi
  rw [hdet] at hdet'
  obtain ⟨rfl, -⟩ := Prod.mk.inj (Except.ok.inj hdet')
  have h1 := hR.pos hn
  exact joint_places (like := like) (S := S) hR hcard hκ (hAp _ h1) hB0 hπ (hA _ h1) (hB _)

section run

variable [Nonempty Θ] {E : Env G H Θ} {like : Θ → ℕ → ℝ} {S : Scores H} {ν : H → Measure Θ} {h : H}
  {π : List ℕ → ℝ}

theorem Neal8Ok.weight_pos (hO : Neal8Ok E like S ν n h π) (σ : Setoid (Fin n)) : 0 < weight π σ :=
  hO.pos _ (labelsOf_length σ)

theorem Neal8Ok.rows (hO : Neal8Ok E like S ν n h π) (m : ℕ) :
    RowsOk (n := n) (weight π) like (ν h) (row8Op (weight π) like (ν h) m) := by
  have := hO.clusters.prior
  exact row8Op_rows hO.meas hO.weight_pos m

theorem Neal8Ok.sweep_reads (hO : Neal8Ok E like S ν n h π) {m : ℕ} {g : Alg8 G H Θ → ℝ≥0∞}
    {Ψ : Spot n → (Fin n → Θ) → ℝ≥0∞} (hΨ : MeasX Ψ) (hg : Reads8 E h m g Ψ) (l : List (Fin n)) :
    Reads8 E h m (neal8SweepMean E like S ν n (l.map Fin.val) g)
      (sweepOp (row8Op (weight π) like (ν h) m) l Ψ) := by
  induction l with
  | nil => exact hg
  | cons i l ih =>
    exact neal8Row_reads hO.meas hO.same hO.pos hO.clusters.prior hO.cond
      (((hO.rows m).sweep_step l).meas Ψ hΨ) ih i

theorem Neal8Ok.iter_meas (hO : Neal8Ok E like S ν n h π) (m : ℕ)
    (Ψ : Spot n → (Fin n → Θ) → ℝ≥0∞) :
    MeasX (iterOp E ν h (row8Op (weight π) like (ν h) m) Ψ) :=
  ((hO.rows m).sweep_step _).meas _ fun _ => measurable_const

theorem Neal8Ok.iter_reads (hO : Neal8Ok E like S ν n h π) {m : ℕ} {g : Alg8 G H Θ → ℝ≥0∞}
    {Ψ : Spot n → (Fin n → Θ) → ℝ≥0∞} (hΨ : MeasX Ψ) (hg : Reads8 E h m g Ψ) :
    Reads8 E h m (neal8IterMean E like S ν n g)
      (iterOp E ν h (row8Op (weight π) like (ν h) m) Ψ) := by
  unfold neal8IterMean iterOp
  have hv : Reads8 E h m (fun s => valuesMean E ν (fun b => g { s with base := b }) s.base)
      fun z _ => ∫⁻ y, Ψ z y ∂valueLaw E ν h z := by
    intro σ A x s hs haux
    exact values_reads hO.kind (by have := hO.two; omega) hO.clusters hO.fix hΨ
      (g := fun b => g { s with base := b }) (fun σ A x b hb => hg σ A x _ hb haux) σ A x s.base hs
  have := hO.sweep_reads (Ψ := fun z _ => ∫⁻ y, Ψ z y ∂valueLaw E ν h z)
    (fun _ => measurable_const) hv (List.finRange n)
  rwa [List.map_coe_finRange_eq_range] at this

theorem Neal8Ok.iterates (hO : Neal8Ok E like S ν n h π) {m : ℕ} {g : Alg8 G H Θ → ℝ≥0∞}
    {Ψ : Spot n → (Fin n → Θ) → ℝ≥0∞} (hΨ : MeasX Ψ) (hg : Reads8 E h m g Ψ) (k : ℕ) :
    MeasX ((iterOp E ν h (row8Op (weight π) like (ν h) m))^[k] Ψ) ∧
      Reads8 E h m ((neal8IterMean E like S ν n)^[k] g)
        ((iterOp E ν h (row8Op (weight π) like (ν h) m))^[k] Ψ) := by
  induction k with
  | zero => exact ⟨hΨ, hg⟩
  | succ k ih =>
    rw [Function.iterate_succ_apply', Function.iterate_succ_apply']
    exact ⟨hO.iter_meas m _, hO.iter_reads ih.1 ih.2⟩

omit [MeasurableSpace Θ] [Nonempty Θ] in
theorem reads8_observable (m : ℕ) (d : Θ) (φ : Setoid (Fin n) → (Fin n → Θ) → ℝ≥0∞) :
    Reads8 E h m (fun s => observe d φ s.base) fun z x => φ z.1 x :=
  fun σ A x s hs _ => reads_observable d φ σ A x s.base hs

end run

/-! ### A limit excludes other invariant laws -/

section other

variable {E : Env G H Θ} {like : Θ → ℕ → ℝ} {ν : H → Measure Θ} {h0 : H} {w : Setoid (Fin n) → ℝ}
  {R : Fin n → (Spot n → (Fin n → Θ) → ℝ≥0∞) → Spot n → (Fin n → Θ) → ℝ≥0∞}

/-- Without marks only values without marks matter. -/
def CleanRows (R : Fin n → (Spot n → (Fin n → Θ) → ℝ≥0∞) → Spot n → (Fin n → Θ) → ℝ≥0∞) : Prop :=
  ∀ i Ψ Ψ', (∀ σ, Ψ (σ, ∅) = Ψ' (σ, ∅)) → ∀ σ, R i Ψ (σ, ∅) = R i Ψ' (σ, ∅)

theorem CleanRows.sweep (hc : CleanRows R) {Ψ Ψ' : Spot n → (Fin n → Θ) → ℝ≥0∞}
    (e : ∀ σ, Ψ (σ, ∅) = Ψ' (σ, ∅)) (l : List (Fin n)) :
    ∀ σ, sweepOp R l Ψ (σ, ∅) = sweepOp R l Ψ' (σ, ∅) := by
  induction l with
  | nil => exact e
  | cons i l ih => exact hc i _ _ ih

theorem CleanRows.iter (hc : CleanRows R) {Ψ Ψ' : Spot n → (Fin n → Θ) → ℝ≥0∞}
    (e : ∀ σ, Ψ (σ, ∅) = Ψ' (σ, ∅)) (σ : Setoid (Fin n)) :
    iterOp E ν h0 R Ψ (σ, ∅) = iterOp E ν h0 R Ψ' (σ, ∅) := by
  unfold iterOp
  refine hc.sweep (fun σ => ?_) _ σ
  simp only [e]

theorem row8Op_clean (w : Setoid (Fin n) → ℝ) (like : Θ → ℕ → ℝ) (ν : Measure Θ) (m : ℕ) :
    CleanRows (row8Op w like ν m) := by
  intro i Ψ Ψ' e σ
  simp only [row8Op, mark_empty, e]

/-- If the posteriors for two priors differ in the mean of `φ`, iterations that converge to one do
not keep the other. -/
theorem RowsOk.only (hR : RowsOk w like (ν h0) R) (hc : CleanRows R) (hB : BayesClusters E like ν h0)
    (hlike : ∀ i, Measurable fun θ => like θ i) (hw : ∀ σ, 0 < w σ) {prior : List ℕ → ℝ}
    (hpos : ∀ al : List ℕ, al.length = n → 0 < prior al)
    {φ : Setoid (Fin n) → (Fin n → Θ) → ℝ≥0∞} (hφ : MeasP φ) (hle : ∀ σ x, φ σ x ≤ 1)
    (hne : (partPost w like (ν h0) φ / partPost w like (ν h0) fun _ _ => 1).toReal ≠
      jointMean prior like (ν h0) φ)
    (hkeep : ∀ F : Setoid (Fin n) → (Fin n → Θ) → ℝ≥0∞, MeasP F →
      partPost (weight prior) like (ν h0)
        (fun σ y => iterOp E ν h0 R (fun z x => F z.1 x) (σ, ∅) y) =
      partPost (weight prior) like (ν h0) F) : False := by
  obtain ⟨δ, d0, d1, hδ⟩ := hR.converges hB hlike hw
  obtain ⟨T, hT⟩ : ∃ T : (Spot n → (Fin n → Θ) → ℝ≥0∞) → Spot n → (Fin n → Θ) → ℝ≥0∞,
    T = iterOp E ν h0 R := ⟨_, rfl⟩
  have hmeas : ∀ k, MeasX (T^[k] fun (z : Spot n) x => φ z.1 x) := by
    intro k
    cases k with
    | zero => exact fun z => hφ z.1
    | succ k =>
      rw [Function.iterate_succ_apply', hT]
      exact (hR.sweep_step _).meas _ fun _ => measurable_const
  have hkept : ∀ k, partPost (weight prior) like (ν h0)
      (fun σ y => T^[k] (fun (z : Spot n) x => φ z.1 x) (σ, ∅) y) =
      partPost (weight prior) like (ν h0) φ := by
    intro k
    induction k with
    | zero => rfl
    | succ k ih =>
      obtain ⟨F, hF⟩ : ∃ F : Spot n → (Fin n → Θ) → ℝ≥0∞,
        F = T^[k] fun (z : Spot n) x => φ z.1 x := ⟨_, rfl⟩
      rw [Function.iterate_succ_apply', ← hF]
      rw [← hF] at ih
      rw [← ih, ← hkeep (fun σ y => F (σ, ∅) y) fun σ => by rw [hF]; exact hmeas k _]
      congr 1
      funext σ y
      rw [hT]
      exact congrFun (hc.iter (Ψ := F) (Ψ' := fun z x => F (z.1, ∅) x) (fun _ => rfl) σ) y
  obtain ⟨c, hcd⟩ : ∃ c, c = (partPost w like (ν h0) φ / partPost w like (ν h0) fun _ _ => 1).toReal :=
    ⟨_, rfl⟩
  rw [← hcd] at hne
  obtain ⟨N, hN⟩ := exists_pow_lt_of_lt_one (abs_pos.mpr (sub_ne_zero.mpr hne))
    (show 1 - δ < 1 by linarith)
  have hnear := jointMean_near hB hlike (prior := prior) hpos
    (Φ := fun σ y => T^[N + 1] (fun (z : Spot n) x => φ z.1 x) (σ, ∅) y)
    (c := c) (ε := (1 - δ) ^ N) (fun σ y => ?_) (fun σ y => ?_)
  · rw [jointMean, hkept] at hnear
    change |jointMean prior like (ν h0) φ - _| ≤ _ at hnear
    rw [abs_sub_comm] at hnear
    linarith
  · rw [hT]
    exact ne_top_of_le_ne_top ENNReal.one_ne_top
      (iterOp_le_one hR hB (fun z x => hle z.1 x) _ _ _)
  · rw [hT, hcd]
    exact hδ (fun z x => φ z.1 x) (fun z => hφ z.1) (fun z x => hle _ _) N _ _

end other

end Bayesmix.Chain
