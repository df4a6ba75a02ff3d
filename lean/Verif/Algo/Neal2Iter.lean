import Verif.Algo.SpotConv
import Verif.Algo.BlockedStart

/-!
# Repeated iterations of Neal2
-/

namespace Bayesmix.Chain
open Bayesmix Cond Gibbs SplitMerge Slice MeasureTheory ENNReal

variable {G H Θ : Type} [AddCommGroup G] {n : ℕ}

section start

/-- The rows of the first cluster. -/
noncomputable def firstRows (n : ℕ) (al : List ℕ) : Finset (Fin n) :=
  Finset.univ.filter fun j => al[j.val]? = some 0

/-- The values of the rows. -/
def rowValues (n : ℕ) (d : Θ) (s : Alg G H Θ) (j : Fin n) : Θ := (valueOf s j).getD d

/-- After initialization without saving only the first object has saved hyperparameters. -/
theorem init_seen {E : Env G H Θ} (hk : E.kind = .conjugate) {K : ℕ} (hK : 0 < K) (hKn : K ≤ n)
    (h0 : H) (θ0 : Θ) (z : InitNoise) {o : Hier G H Θ} (hca : o.CacheOk) :
    ∃ s, initAlloc E false K n h0 θ0 z [o] = .ok s ∧
      Seen E h0 (partOf n s.alloc) (firstRows n s.alloc) (rowValues n θ0 s) s := by
  obtain ⟨s, e, hm, -, hh, -⟩ := initAlloc_ok (E := E) (upd := false) (h0 := h0) (θ0 := θ0) z
    (canSave_false E) hK hKn hca
  have hc := initAlloc_cache hk e
  refine ⟨s, e, hm, hh, rfl, fun j => ?_⟩
  obtain ⟨c, hl, hlt⟩ := hm.cons.on.labelled j (Finset.mem_range.mpr j.isLt)
  obtain ⟨p, hp⟩ : ∃ p, s.clus[c]? = some p := ⟨_, List.getElem?_eq_getElem hlt⟩
  obtain ⟨h1, h2⟩ := hc c p hp
  have hv : rowValues n θ0 s j = p.state := by
    unfold rowValues
    rw [valueOf_info]
    simp [infoOf, hl, hp]
  have hinf : infoOf s j = some (p.state, staleOf p) := by simp [infoOf, hl, hp]
  rw [hinf, hv]
  congr 2
  have hmem : j ∈ firstRows n s.alloc ↔ c = 0 := by simp [firstRows, hl]
  unfold staleOf
  unfold firstSaved at h1 h2
  by_cases hc0 : c = 0
  · rw [if_pos hc0] at h1 h2
    rw [h1, if_pos (hmem.mpr hc0), h2 h0 rfl]
    rfl
  · rw [if_neg hc0] at h1
    rw [h1, if_neg fun h => hc0 (hmem.mp h)]
    rfl

/-- No object has saved hyperparameters. -/
structure Clean (E : Env G H Θ) (n : ℕ) (h : H) (s : Alg G H Θ) : Prop where
  ok : MarginalOk E.contrib n s
  hyp : s.hyp = h
  saved : ∀ o ∈ s.clus, o.saved = false

theorem Clean.seen {E : Env G H Θ} {h : H} {s : Alg G H Θ} (hs : Clean E n h s) (d : Θ) :
    Seen E h (partOf n s.alloc) ∅ (rowValues n d s) s := by
  refine ⟨hs.ok, hs.hyp, rfl, fun j => ?_⟩
  obtain ⟨c, hl, hlt⟩ := hs.ok.cons.on.labelled j (Finset.mem_range.mpr j.isLt)
  obtain ⟨p, hp⟩ : ∃ p, s.clus[c]? = some p := ⟨_, List.getElem?_eq_getElem hlt⟩
  have hv : rowValues n d s j = p.state := by
    unfold rowValues
    rw [valueOf_info]
    simp [infoOf, hl, hp]
  have hinf : infoOf s j = some (p.state, staleOf p) := by simp [infoOf, hl, hp]
  rw [hinf, hv, staleOf, hs.saved p (List.mem_of_getElem? hp)]
  simp

/-- Every partition and all values for its blocks are those of a state. -/
theorem exists_clean (E : Env G H Θ) (h : H) (d : Θ) (σ : Setoid (Fin n)) (θ : Quotient σ → Θ) :
    ∃ s, Clean E n h s ∧ partOf n s.alloc = σ ∧
      rowValues n d s = fun j => θ (Quotient.mk σ j) := by
  classical
  obtain ⟨e⟩ : Nonempty (Quotient σ ≃ Fin (Fintype.card (Quotient σ))) := ⟨Fintype.equivFin _⟩
  obtain ⟨al, hal⟩ : ∃ al : List ℕ, al = List.ofFn fun j : Fin n => (e (Quotient.mk σ j)).val :=
    ⟨_, rfl⟩
  have hlab : ∀ j : Fin n, al[j.val]? = some (e (Quotient.mk σ j)).val := by
    intro j
    rw [hal, List.getElem?_ofFn, dif_pos j.isLt]
  obtain ⟨cl, hcl⟩ : ∃ cl : List (Hier G H Θ), cl = List.ofFn
      fun k : Fin (Fintype.card (Quotient σ)) => ({
        state := θ (e.symm k)
        card := ((membersIn (Finset.range n) al k.val).card : ℤ)
        idx := membersIn (Finset.range n) al k.val
        ss := ∑ i ∈ membersIn (Finset.range n) al k.val, E.contrib i
        saved := false
        ph := none } : Hier G H Θ) := ⟨_, rfl⟩
  have hget : ∀ k o, cl[k]? = some o → ∃ hk : k < Fintype.card (Quotient σ),
      o.state = θ (e.symm ⟨k, hk⟩) ∧ o.card = ((membersIn (Finset.range n) al k).card : ℤ) ∧
      o.idx = membersIn (Finset.range n) al k ∧
      o.ss = ∑ i ∈ membersIn (Finset.range n) al k, E.contrib i ∧ o.saved = false := by
    intro k o ho
    rw [hcl, List.getElem?_ofFn] at ho
    split at ho
    · rename_i hk
      obtain rfl := Option.some.inj ho
      exact ⟨hk, rfl, rfl, rfl, rfl, rfl⟩
    · cases ho
  have hlen : cl.length = Fintype.card (Quotient σ) := by rw [hcl]; simp
  have hsv : ∀ o ∈ cl, o.saved = false := by
    intro o ho
    obtain ⟨k, hk⟩ := List.getElem?_of_mem ho
    exact (hget k o hk).choose_spec.2.2.2.2
  refine ⟨{ alloc := al, clus := cl, hyp := h }, ⟨⟨⟨by simp [hal], ?_⟩, ?_, ?_⟩, rfl, hsv⟩, ?_, ?_⟩
  · refine ⟨fun i hi => ?_, fun k o ho => ?_, fun k o ho => ?_, fun k o ho => ?_⟩
    · have hi' := Finset.mem_range.mp hi
      exact ⟨_, hlab ⟨i, hi'⟩, by simp only [hlen]; exact Fin.isLt _⟩
    · exact (hget k o ho).choose_spec.2.2.1
    · exact (hget k o ho).choose_spec.2.1
    · exact (hget k o ho).choose_spec.2.2.2.1
  · intro k hk
    have hk' : k < Fintype.card (Quotient σ) := by simpa only [hlen] using hk
    refine ⟨(e.symm ⟨k, hk'⟩).out, Finset.mem_range.mpr (Fin.isLt _), ?_⟩
    rw [hlab]
    simp
  · intro o ho hs
    rw [hsv o ho] at hs
    cases hs
  · refine Setoid.ext fun a b => ?_
    rw [partOf_rel, together]
    simp only
    rw [hlab, hlab, Option.some.injEq, Fin.val_inj, e.injective.eq_iff, Quotient.eq]
  · funext j
    unfold rowValues
    rw [valueOf_info]
    have hlt : (e (Quotient.mk σ j)).val < cl.length := by rw [hlen]; exact Fin.isLt _
    obtain ⟨p, hp⟩ : ∃ p, cl[(e (Quotient.mk σ j)).val]? = some p := ⟨_, List.getElem?_eq_getElem hlt⟩
    obtain ⟨hk, h1, -⟩ := hget _ p hp
    simp [infoOf, hlab, hp, h1]

end start

variable [MeasurableSpace Θ]

/-- What the theorems on repeated iterations assume. -/
structure Neal2Ok (E : Env G H Θ) (like : Θ → ℕ → ℝ) (S : Scores H) (ν : H → Measure Θ) (n : ℕ) (h : H)
    (π : List ℕ → ℝ) : Prop where
  kind : E.kind ≠ .other
  two : 2 ≤ n
  meas : ∀ i, Measurable fun θ => like θ i
  same : ∀ al al' : List ℕ, al.length = n → al'.length = n → SamePart n al al' → π al = π al'
  pos : ∀ al : List ℕ, al.length = n → 0 < π al
  clusters : BayesClusters E like ν h
  fix : ∀ l r, E.hyperUpdate h l r = h
  cond : ∀ s, MarginalOk E.contrib n s → s.hyp = h → ∀ i < n, ∃ s1 pl p,
    Neal2Conditional E like S n s i ν π s1 pl p

theorem like_int {E : Env G H Θ} {like : Θ → ℕ → ℝ} {ν : H → Measure Θ} {h : H}
    (hB : BayesClusters E like ν h) (i : ℕ) :
    ∫⁻ t, ENNReal.ofReal (Real.exp (like t i)) ∂ν h ≠ 0 ∧
      ∫⁻ t, ENNReal.ofReal (Real.exp (like t i)) ∂ν h ≠ ∞ := by
  obtain ⟨Z, z0, z1, hZ⟩ := hB.rule {i} (Finset.singleton_nonempty i)
  have hp := hB.post {i} (Finset.singleton_nonempty i)
  have := hZ (fun _ => 1) measurable_const
  simp only [mul_one, Finset.prod_singleton, lintegral_const, measure_univ] at this
  rw [this]
  exact ⟨z0, z1⟩

theorem flowOk_of {w : Setoid (Fin n) → ℝ} {like : Θ → ℕ → ℝ} {ν : Measure Θ} (hw : ∀ σ, 0 < w σ)
    (hi : ∀ i : ℕ, ∫⁻ t, ENNReal.ofReal (Real.exp (like t i)) ∂ν ≠ 0 ∧
      ∫⁻ t, ENNReal.ofReal (Real.exp (like t i)) ∂ν ≠ ∞) : FlowOk w like ν := by
  classical
  intro i σ x
  unfold rowFlow
  simp only [mul_one]
  refine ⟨fun e => ?_, ENNReal.add_ne_top.mpr ⟨ENNReal.sum_ne_top.mpr fun τ _ =>
    ENNReal.mul_ne_top ENNReal.ofReal_ne_top ENNReal.ofReal_ne_top,
    ENNReal.mul_ne_top ENNReal.ofReal_ne_top (hi i).2⟩⟩
  exact mul_ne_zero (ENNReal.ofReal_pos.mpr (hw _)).ne' (hi i).1 (add_eq_zero.mp e).2

section run

variable [Nonempty Θ] {E : Env G H Θ} {like : Θ → ℕ → ℝ} {S : Scores H} {ν : H → Measure Θ} {h : H}
  {π : List ℕ → ℝ}

theorem Neal2Ok.weight_pos (hO : Neal2Ok E like S ν n h π) (σ : Setoid (Fin n)) : 0 < weight π σ :=
  hO.pos _ (labelsOf_length σ)

theorem Neal2Ok.rows (hO : Neal2Ok E like S ν n h π) :
    RowsOk (n := n) (weight π) like (ν h) (rowOp (weight π) like (ν h)) := by
  have := hO.clusters.prior
  exact rowOp_rows hO.meas hO.weight_pos (flowOk_of hO.weight_pos (like_int hO.clusters))

theorem Neal2Ok.sweep_reads (hO : Neal2Ok E like S ν n h π) {g : Alg G H Θ → ℝ≥0∞}
    {Ψ : Spot n → (Fin n → Θ) → ℝ≥0∞} (hΨ : MeasX Ψ) (hg : Reads E h g Ψ) (l : List (Fin n)) :
    Reads E h (neal2SweepMean E like S ν n (l.map Fin.val) g)
      (sweepOp (rowOp (weight π) like (ν h)) l Ψ) := by
  induction l with
  | nil => exact hg
  | cons i l ih =>
    refine neal2Row_reads hO.kind hO.two hO.meas hO.same hO.pos (fun i _ => ?_) hO.cond
      ((hO.rows.sweep_step l).meas Ψ hΨ) ih i
    have := hO.clusters.post {i} (Finset.singleton_nonempty i)
    simpa using this

/-- An iteration in terms of partition, marks and values. -/
noncomputable def iterOp (E : Env G H Θ) (ν : H → Measure Θ) (h : H)
    (R : Fin n → (Spot n → (Fin n → Θ) → ℝ≥0∞) → Spot n → (Fin n → Θ) → ℝ≥0∞)
    (Ψ : Spot n → (Fin n → Θ) → ℝ≥0∞) : Spot n → (Fin n → Θ) → ℝ≥0∞ :=
  sweepOp R (List.finRange n) fun z _ => ∫⁻ y, Ψ z y ∂valueLaw E ν h z

theorem Neal2Ok.iter_meas (hO : Neal2Ok E like S ν n h π) (Ψ : Spot n → (Fin n → Θ) → ℝ≥0∞) :
    MeasX (iterOp E ν h (rowOp (weight π) like (ν h)) Ψ) :=
  (hO.rows.sweep_step _).meas _ fun _ => measurable_const

theorem Neal2Ok.iter_reads (hO : Neal2Ok E like S ν n h π) {g : Alg G H Θ → ℝ≥0∞}
    {Ψ : Spot n → (Fin n → Θ) → ℝ≥0∞} (hΨ : MeasX Ψ) (hg : Reads E h g Ψ) :
    Reads E h (neal2IterMean E like S ν n g) (iterOp E ν h (rowOp (weight π) like (ν h)) Ψ) := by
  unfold neal2IterMean iterOp
  have hv := values_reads hO.kind (by have := hO.two; omega) hO.clusters hO.fix hΨ hg
  have := hO.sweep_reads (Ψ := fun z _ => ∫⁻ y, Ψ z y ∂valueLaw E ν h z)
    (fun _ => measurable_const) hv (List.finRange n)
  rwa [List.map_coe_finRange_eq_range] at this

theorem Neal2Ok.iterates (hO : Neal2Ok E like S ν n h π) {g : Alg G H Θ → ℝ≥0∞}
    {Ψ : Spot n → (Fin n → Θ) → ℝ≥0∞} (hΨ : MeasX Ψ) (hg : Reads E h g Ψ) (k : ℕ) :
    MeasX ((iterOp E ν h (rowOp (weight π) like (ν h)))^[k] Ψ) ∧
      Reads E h ((neal2IterMean E like S ν n)^[k] g)
        ((iterOp E ν h (rowOp (weight π) like (ν h)))^[k] Ψ) := by
  induction k with
  | zero => exact ⟨hΨ, hg⟩
  | succ k ih =>
    rw [Function.iterate_succ_apply', Function.iterate_succ_apply']
    exact ⟨hO.iter_meas _, hO.iter_reads ih.1 ih.2⟩

omit [MeasurableSpace Θ] [Nonempty Θ] in
theorem reads_observable (d : Θ) (φ : Setoid (Fin n) → (Fin n → Θ) → ℝ≥0∞) :
    Reads E h (fun s => φ (partOf n s.alloc) (rowValues n d s)) fun z x => φ z.1 x := by
  intro σ A x s hs
  dsimp only
  rw [hs.part]
  congr 1
  funext j
  unfold rowValues
  rw [valueOf_info, hs.info j]
  rfl

theorem iterOp_one {R : Fin n → (Spot n → (Fin n → Θ) → ℝ≥0∞) → Spot n → (Fin n → Θ) → ℝ≥0∞}
    {w : Setoid (Fin n) → ℝ} (hR : RowsOk w like (ν h) R) (hB : BayesClusters E like ν h) (k : ℕ) :
    (iterOp E ν h R)^[k] (fun _ _ => 1) = fun _ _ => 1 := by
  have hV := valueLaw_prob (n := n) hB
  have : iterOp E ν h R (fun _ _ => 1) = fun _ _ => 1 := by
    unfold iterOp
    have e : (fun (z : Spot n) (_ : Fin n → Θ) => ∫⁻ _, (1 : ℝ≥0∞) ∂valueLaw E ν h z) =
        fun _ _ => 1 := by
      funext z y
      simp
    rw [e]
    funext z y
    exact (hR.sweep_step _).one z y
  exact Function.iterate_fixed this k

omit [Nonempty Θ] in
theorem iterOp_le_one {R : Fin n → (Spot n → (Fin n → Θ) → ℝ≥0∞) → Spot n → (Fin n → Θ) → ℝ≥0∞}
    {w : Setoid (Fin n) → ℝ} (hR : RowsOk w like (ν h) R) (hB : BayesClusters E like ν h)
    {Ψ : Spot n → (Fin n → Θ) → ℝ≥0∞} (hle : ∀ z y, Ψ z y ≤ 1) (k : ℕ) (z : Spot n) (y : Fin n → Θ) :
    (iterOp E ν h R)^[k] Ψ z y ≤ 1 := by
  have hV := valueLaw_prob (n := n) hB
  induction k generalizing z y with
  | zero => exact hle z y
  | succ k ih =>
    rw [Function.iterate_succ_apply']
    refine (hR.sweep_step _).le_one (fun _ => measurable_const) (fun z y => ?_) z y
    exact (lintegral_mono fun y => ih z y).trans (by simp)

omit [Nonempty Θ] in
/-- Without marks only values without marks matter. -/
theorem sweepOp_clean {w : Setoid (Fin n) → ℝ} {μ : Measure Θ} {Ψ Ψ' : Spot n → (Fin n → Θ) → ℝ≥0∞}
    (e : ∀ σ, Ψ (σ, ∅) = Ψ' (σ, ∅)) (l : List (Fin n)) :
    ∀ σ, sweepOp (rowOp w like μ) l Ψ (σ, ∅) = sweepOp (rowOp w like μ) l Ψ' (σ, ∅) := by
  induction l with
  | nil => exact e
  | cons i l ih =>
    intro σ
    simp only [sweepOp, rowOp, mark_empty, ih]

omit [Nonempty Θ] in
theorem iterOp_clean {w : Setoid (Fin n) → ℝ} {μ : Measure Θ} {Ψ Ψ' : Spot n → (Fin n → Θ) → ℝ≥0∞}
    (e : ∀ σ, Ψ (σ, ∅) = Ψ' (σ, ∅)) (σ : Setoid (Fin n)) :
    iterOp E ν h (rowOp w like μ) Ψ (σ, ∅) = iterOp E ν h (rowOp w like μ) Ψ' (σ, ∅) := by
  unfold iterOp
  refine sweepOp_clean (fun σ => ?_) _ σ
  simp only [e]

end run

end Bayesmix.Chain
