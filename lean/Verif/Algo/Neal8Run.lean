import Verif.Algo.Neal8Op

/-!
# Iterations of Neal8

Means over all draws of `BaseAlgorithm::step` with Neal8 and fixed hyperparameters, and what they are
in terms of partition, values of the rows and stale clusters.
-/

namespace Bayesmix.Chain
open Bayesmix Cond Gibbs SplitMerge Slice MeasureTheory ENNReal

variable {G H Θ : Type} [AddCommGroup G] {n : ℕ}

/-- The state without row `i` and the auxiliary blocks for which the probabilities are computed
(`src/algorithms/neal8_algorithm.cc` 47-67); the first part of `neal8Datum`. -/
def auxFor (E : Env G H Θ) (s : Alg8 G H Θ) (i : ℕ) (ra : ℕ → ℕ) :
    Except Fault (Alg G H Θ × List (Hier G H Θ)) := do
  let (s1, old, singleton) ← detach E false s.base i
  let aux ← storeSingleton s.aux old singleton
  .ok (s1, resampleAux E s1.hyp ra (if singleton then 1 else 0) aux)

theorem auxFor_ok {E : Env G H Θ} {s : Alg8 G H Θ} {i : ℕ} (haux : 0 < s.aux.length)
    {s1 : Alg G H Θ} {o : Hier G H Θ}
    (hdet : detach E false s.base i = .ok (s1, o, decide (o.card ≤ 1))) (ra : ℕ → ℕ) :
    ∃ aux, auxFor E s i ra = .ok (s1, aux) ∧ aux.length = s.aux.length ∧
      ∀ (a : ℕ) (p : Hier G H Θ), aux[a]? = some p →
        p.state = offered E s1.hyp o (decide (o.card ≤ 1)) ra a := by
  unfold auxFor
  rw [hdet]
  by_cases h : o.card ≤ 1
  · refine ⟨resampleAux E s1.hyp ra 1 (s.aux.set 0 { s.aux[0] with state := o.state, card := o.card }),
      by simp only [ok_bind, storeSingleton, h, decide_true, if_true,
      vget_ok (List.getElem?_eq_getElem haux)], by simp [resampleAux], ?_⟩
    intro a p hp
    simp only [resampleAux, List.getElem?_mapIdx, Option.map_eq_some_iff] at hp
    obtain ⟨q, hq, rfl⟩ := hp
    by_cases ha : a = 0
    · subst ha
      simp [haux] at hq
      subst hq
      simp [offered, h]
    · rw [if_pos (by omega)]
      simp [offered, ha, Hier.samplePrior]
  · refine ⟨resampleAux E s1.hyp ra 0 s.aux,
      by simp only [ok_bind, storeSingleton, h, decide_false, Bool.false_eq_true, if_false],
      by simp [resampleAux], ?_⟩
    intro a p hp
    simp only [resampleAux, List.getElem?_mapIdx, Nat.zero_le, if_true,
      Option.map_eq_some_iff] at hp
    obtain ⟨q, hq, rfl⟩ := hp
    simp [offered, h, Hier.samplePrior]

/-- The moves of Neal8. -/
theorem Seen.neal8 {E : Env G H Θ} {h : H} {σ : Setoid (Fin n)} {A : Finset (Fin n)} {x : Fin n → Θ}
    {s : Alg8 G H Θ} (hs : Seen E h σ A x s.base) (haux : 0 < s.aux.length) {i : Fin n}
    {s1 : Alg G H Θ} {o : Hier G H Θ}
    (hdet : Bayesmix.detach E false s.base i = .ok (s1, o, decide (o.card ≤ 1))) (ra : ℕ → ℕ) :
    (∀ c < s1.clus.length, ∃ s', neal8Datum E s i c ra = .ok s' ∧ s'.aux.length = s.aux.length ∧
      Seen E h (partOf n (s1.alloc.set i c)) (mark i (partOf n (s1.alloc.set i c)) A)
        (Function.update x i (((valuesOf s1)[c]?).getD (x i))) s'.base) ∧
    ∀ j < s.aux.length, ∃ s', neal8Datum E s i (s1.clus.length + j) ra = .ok s' ∧
      s'.aux.length = s.aux.length ∧
      Seen E h (partOf n (s1.alloc.set i s1.clus.length))
        (mark i (partOf n (s1.alloc.set i s1.clus.length)) A)
        (Function.update x i (offered E h o (decide (o.card ≤ 1)) ra j)) s'.base := by
  obtain ⟨t1, o1, hdet', hR, hh, hca, hd, hoff, hinf, -⟩ := hs.detach i
  rw [hdet] at hdet'
  obtain ⟨rfl, hrest⟩ := Prod.mk.inj (Except.ok.inj hdet')
  have hcs := canSave_false E
  have hlen1 : i.val < s1.alloc.length := by rw [hR.len]; exact i.isLt
  obtain ⟨aux, haeq, halen, hast⟩ := auxFor_ok haux hdet ra
  have hok : ∀ c s', neal8Datum E s i c ra = .ok s' →
      MarginalOk E.contrib n s'.base ∧ s'.base.hyp = h ∧ s'.aux.length = s.aux.length := by
    intro c s' e
    obtain ⟨s'', e', hr, hne, hl⟩ := neal8Datum_ok c ra haux hs.ok i.isLt
    rw [e] at e'
    cases e'
    exact ⟨⟨hr.cons, hne, hr.caches⟩, hr.hyp.trans hs.hyp, hl⟩
  obtain ⟨aux0, hst⟩ : ∃ aux0, storeSingleton s.aux o (decide (o.card ≤ 1)) = .ok aux0 := by
    unfold auxFor at haeq
    rw [hdet] at haeq
    cases e : storeSingleton s.aux o (decide (o.card ≤ 1)) with
    | error f => simp only [ok_bind, e] at haeq; cases haeq
    | ok a => exact ⟨a, rfl⟩
  have hres : resampleAux E s1.hyp ra (if decide (o.card ≤ 1) = true then 1 else 0) aux0 = aux := by
    unfold auxFor at haeq
    rw [hdet] at haeq
    simp only [ok_bind, hst] at haeq
    exact (Prod.mk.inj (Except.ok.inj haeq)).2
  have hpos : 0 < s1.clus.length + s.aux.length := by omega
  constructor
  · intro c hc
    obtain ⟨s', p, hs', ha, -, hp, hcl⟩ := attach_ok hcs hd.cons (by simp) hlen1 hc hca
    have hmod : c % (s1.clus.length + s.aux.length) = c := Nat.mod_eq_of_lt (by omega)
    have hne : ¬ c ≥ s1.clus.length := by omega
    have e : neal8Datum E s i c ra = .ok ⟨s', aux⟩ := by
      simp only [neal8Datum, hdet, ok_bind, hst, hres, halen, categorical_ok c hpos, hmod, hne,
        if_false, hs']
    obtain ⟨h1, h2, h3⟩ := hok c _ e
    exact ⟨_, e, h3, seen_old hR hinf h1 h2 hp ha.alloc hcl⟩
  · intro j hj
    have hmod : (s1.clus.length + j) % (s1.clus.length + s.aux.length) = s1.clus.length + j :=
      Nat.mod_eq_of_lt (by omega)
    have hge : s1.clus.length + j ≥ s1.clus.length := by omega
    obtain ⟨p, hp⟩ : ∃ p, aux[j]? = some p := ⟨_, List.getElem?_eq_getElem (by omega)⟩
    have e : neal8Datum E s i (s1.clus.length + j) ra = .ok
        ⟨{ s1 with
            alloc := s1.alloc.set i s1.clus.length
            clus := s1.clus ++ [p.clone.added E s1.hyp false i] }, aux⟩ := by
      simp only [neal8Datum, hdet, ok_bind, hst, hres, halen, categorical_ok _ hpos, hmod, hge,
        if_true, Nat.add_sub_cancel_left, vget_ok hp]
      rw [Hier.addDatum_eq (by simp [Hier.clone]) hcs, ok_bind, vset_ok hlen1, ok_bind]
    obtain ⟨h1, h2, h3⟩ := hok _ _ e
    have := seen_new hR hinf h1 h2 (o := p.clone.added E s1.hyp false i)
      (by simp [Hier.added, Hier.clone]) rfl rfl
    refine ⟨_, e, h3, ?_⟩
    have hv : (p.clone.added E s1.hyp false i).state =
        offered E h o (decide (o.card ≤ 1)) ra j := by
      rw [← hh, ← hast j p hp]
      simp [Hier.added, Hier.clone]
    rwa [hv] at this

/-! ### Means over the draws -/

section means

variable [MeasurableSpace Θ] [Nonempty Θ]

/-- The mean of `g` after Neal8 updated row `i` (`src/algorithms/neal8_algorithm.cc` 47-89): the
auxiliary values are independent draws from the prior (lines 65-67), the label is drawn with the
probabilities computed in lines 69-73. Infinite if something fails. -/
noncomputable def neal8RowMean (E : Env G H Θ) (like : Θ → ℕ → ℝ) (S : Scores H) (ν : H → Measure Θ)
    (n i : ℕ) (g : Alg8 G H Θ → ℝ≥0∞) (s : Alg8 G H Θ) : ℝ≥0∞ :=
  ∫⁻ draw, (match auxFor (withDraw E draw) s i id with
    | .error _ => ∞
    | .ok (s1, aux) => ∑ c ∈ Finset.range
          (neal8Probas like S n (aux.map fun a => a.state) s1 i).length,
        ENNReal.ofReal ((neal8Probas like S n (aux.map fun a => a.state) s1 i).getD c 0) *
          (match neal8Datum (withDraw E draw) s i c id with
          | .error _ => ∞
          | .ok t => g t)) ∂valueDraws ν

/-- The mean of `g` after Neal8 updated the given rows one after the other
(`src/algorithms/neal8_algorithm.cc` 41-90). -/
noncomputable def neal8SweepMean (E : Env G H Θ) (like : Θ → ℕ → ℝ) (S : Scores H)
    (ν : H → Measure Θ) (n : ℕ) : List ℕ → (Alg8 G H Θ → ℝ≥0∞) → Alg8 G H Θ → ℝ≥0∞
  | [], g => g
  | i :: is, g => neal8RowMean E like S ν n i (neal8SweepMean E like S ν n is g)

/-- The mean of `g` after an iteration of Neal8 (`src/algorithms/base_algorithm.h` 179-184); the
mixing is not updated. Unique values and hyperparameters are updated as in Neal2, the auxiliary
blocks stay. -/
noncomputable def neal8IterMean (E : Env G H Θ) (like : Θ → ℕ → ℝ) (S : Scores H)
    (ν : H → Measure Θ) (n : ℕ) (g : Alg8 G H Θ → ℝ≥0∞) : Alg8 G H Θ → ℝ≥0∞ :=
  neal8SweepMean E like S ν n (List.range n) fun s =>
    valuesMean E ν (fun b => g { s with base := b }) s.base

/-- `g` is the function `Ψ` of partition, marks and values, for states with `m + 1` auxiliary
blocks. -/
def Reads8 (E : Env G H Θ) (h : H) (m : ℕ) (g : Alg8 G H Θ → ℝ≥0∞)
    (Ψ : Spot n → (Fin n → Θ) → ℝ≥0∞) : Prop :=
  ∀ σ A x s, Seen E h σ A x s.base → s.aux.length = m + 1 → g s = Ψ (σ, A) x

/-- The prior probability of the labels agrees with what the mixing computes. -/
def Fits (like : Θ → ℕ → ℝ) (S : Scores H) (n : ℕ) (π : List ℕ → ℝ) (s1 : Alg G H Θ) (i : ℕ) : Prop :=
  ∃ b, 0 < b ∧
    (∀ c o, s1.clus[c]? = some o → joint π like n (labelsAt s1 i (.inl c)) (valuesAt s1 (.inl c)) =
      b * Real.exp (S.exist (n - 1) s1.clus.length o.card + like o.state i)) ∧
    ∀ θ, joint π like n (labelsAt s1 i (.inr θ)) (valuesAt s1 (.inr θ)) =
      b * Real.exp (S.fresh (n - 1) s1.clus.length + like θ i)

/-- The choice of Neal8 given the auxiliary values. -/
theorem chosen_row {like : Θ → ℕ → ℝ} {S : Scores H} {π : List ℕ → ℝ} {s1 : Alg G H Θ} {i : Fin n}
    {σ : Setoid (Fin n)} {x : Fin n → Θ} (hlike : ∀ i, Measurable fun θ => like θ i)
    (hπ : ∀ al al' : List ℕ, al.length = n → al'.length = n → SamePart n al al' → π al = π al')
    (hpos : ∀ al : List ℕ, al.length = n → 0 < π al)
    (hR : Reduced n i s1.clus.length s1.alloc) (hoff : SameOff i.val σ (partOf n s1.alloc))
    (hval : ∀ j : Fin n, j ≠ i → ((s1.alloc[j.val]?).bind fun c => (valuesOf s1)[c]?) = some (x j))
    (hfit : Fits like S n π s1 i) {m : ℕ} (a : Fin (m + 1) → Θ)
    {Φ : Setoid (Fin n) → (Fin n → Θ) → ℝ≥0∞} (hΦ : MeasP Φ) :
    chosen like S n s1 i a (atPlace Φ x s1 i) = rowKernel (weight π) like (empLaw a) i Φ σ x := by
  obtain ⟨b, hb, h1, h2⟩ := hfit
  have hflow : ∀ Φ : Setoid (Fin n) → (Fin n → Θ) → ℝ≥0∞, MeasP Φ →
      ENNReal.ofReal b * offerSum (exWeight like S n s1 i) s1.clus.length (newWeight like S n s1 i)
        (atPlace Φ x s1 i) a =
      likOn like (Finset.univ.erase i) x * rowFlow (weight π) like (empLaw a) i Φ σ x := by
    intro Φ hΦ
    have hm : Measurable fun t => atPlace Φ x s1 i (.inr t) := (hΦ _).comp (measurable_updateAt x i)
    rw [← target_rowFlow hlike hπ hpos hR hoff hval hΦ,
      target_flow (r := 1) hb one_pos (hlike i) h1 (by simpa using h2) hm, ENNReal.ofReal_one, one_mul,
      lintegral_empLaw a (f := fun θ => newWeight like S n s1 i θ * atPlace Φ x s1 i (.inr θ))
        ((newWeight_measurable (hlike i)).mul hm), offerSum]
  have hone : (fun _ : Place Θ => (1 : ℝ≥0∞)) = atPlace (fun _ _ => 1) x s1 i := by
    funext q
    cases q <;> rfl
  obtain ⟨l0, l1⟩ := likOn_ne like (Finset.univ.erase i) x
  have hb0 : ENNReal.ofReal b ≠ 0 := (ENNReal.ofReal_pos.mpr hb).ne'
  rw [chosen_eq, rowKernel, hone, ← ENNReal.mul_div_mul_left _ _ hb0 ENNReal.ofReal_ne_top,
    hflow _ hΦ, hflow _ fun _ => measurable_const, ENNReal.mul_div_mul_left _ _ l0 l1]

omit [AddCommGroup G] [MeasurableSpace Θ] [Nonempty Θ] in
theorem neal8Probas_length (like : Θ → ℕ → ℝ) (S : Scores H) (n : ℕ) (aux : List Θ)
    (s : Alg G H Θ) (i : ℕ) :
    (neal8Probas like S n aux s i).length = s.clus.length + aux.length := by
  simp [neal8Probas, softmax, neal8PriorMass, neal8ClusterLpdf]

theorem neal8Row_reads {E : Env G H Θ} {like : Θ → ℕ → ℝ} {S : Scores H} {ν : H → Measure Θ} {h : H}
    {π : List ℕ → ℝ} (hlike : ∀ i, Measurable fun θ => like θ i)
    (hπ : ∀ al al' : List ℕ, al.length = n → al'.length = n → SamePart n al al' → π al = π al')
    (hpos : ∀ al : List ℕ, al.length = n → 0 < π al) (hprior : IsProbabilityMeasure (ν h))
    (hcond : ∀ s, MarginalOk E.contrib n s → s.hyp = h → ∀ i < n, ∀ s1 y,
      detach E false s i = .ok (s1, y) → Fits like S n π s1 i)
    {m : ℕ} {g : Alg8 G H Θ → ℝ≥0∞} {Ψ : Spot n → (Fin n → Θ) → ℝ≥0∞} (hΨ : MeasX Ψ)
    (hg : Reads8 E h m g Ψ) (i : Fin n) :
    Reads8 E h m (neal8RowMean E like S ν n i g) (row8Op (weight π) like (ν h) m i Ψ) := by
  intro σ A x s hs haux
  obtain ⟨s1, o, hdet, hR, hh, hca, hd, hoff, hinf, hval⟩ := hs.detach i
  have hfit := hcond s.base hs.ok hs.hyp i i.isLt s1 _ hdet
  obtain ⟨-, hvi, hsing⟩ := detach_values (canSave_false E) hs.ok.cons.on
    (Finset.mem_range.mpr i.isLt) hdet
  have hxi : o.state = x i := by
    rw [valueOf_info, hs.info i] at hvi
    exact (Option.some.inj hvi).symm
  have halone : o.card ≤ 1 ↔ alone i σ = σ := by
    rw [← decide_eq_true_iff (p := o.card ≤ 1), hsing]
    constructor
    · intro hno
      by_contra hne
      obtain ⟨j, hj, hij⟩ := exists_mate (σ := σ) (τ := σ) (fun _ _ _ _ => Iff.rfl) (Ne.symm hne)
      refine hno j (Finset.mem_erase.mpr ⟨fun e => hj (Fin.ext e), Finset.mem_range.mpr j.isLt⟩) ?_
      rw [← hs.part] at hij
      exact (partOf_rel _ _ _).mp hij
    · intro he j hj ht
      obtain ⟨hji, hjn⟩ := Finset.mem_erase.mp hj
      have hr : σ i ⟨j, Finset.mem_range.mp hjn⟩ := by
        rw [← hs.part]
        exact (partOf_rel _ _ _).mpr ht
      rw [← he, alone_rel] at hr
      rcases hr with hr | hr
      · exact hji (by rw [hr])
      · exact hr.1 rfl
  obtain ⟨Φ, hΦd⟩ : ∃ Φ : Setoid (Fin n) → (Fin n → Θ) → ℝ≥0∞,
    Φ = fun τ y => Ψ (τ, mark i τ A) y := ⟨_, rfl⟩
  have hΦ : MeasP Φ := fun τ => by rw [hΦd]; exact hΨ _
  -- the integrand
  have hint : ∀ draw : H × ℕ → Θ, (match auxFor (withDraw E draw) s i id with
    | .error _ => ∞
    | .ok (s1, aux) => ∑ c ∈ Finset.range
          (neal8Probas like S n (aux.map fun a => a.state) s1 i).length,
        ENNReal.ofReal ((neal8Probas like S n (aux.map fun a => a.state) s1 i).getD c 0) *
          (match neal8Datum (withDraw E draw) s i c id with
          | .error _ => ∞
          | .ok t => g t)) =
      rowKernel (weight π) like (empLaw fun j : Fin (m + 1) =>
        offered (withDraw E draw) h o (decide (o.card ≤ 1)) id j) i Φ σ x := by
    intro draw
    have hdet' : detach (withDraw E draw) false s.base i = .ok (s1, o, decide (o.card ≤ 1)) := hdet
    obtain ⟨aux, haeq, halen, hast⟩ := auxFor_ok (E := withDraw E draw) (by omega) hdet' id
    obtain ⟨hold, hnew⟩ := ((Seen.withDraw (E := E) draw).mpr hs).neal8 (by omega) hdet' id
    rw [haeq]
    dsimp only
    have hauxv : (aux.map fun a => a.state) = List.ofFn fun j : Fin (m + 1) =>
        offered (withDraw E draw) h o (decide (o.card ≤ 1)) id j := by
      apply List.ext_getElem (by simp [halen, haux])
      intro k h1 h2
      rw [List.getElem_map, List.getElem_ofFn]
      have hk : k < aux.length := by simpa using h1
      rw [hast k _ (List.getElem?_eq_getElem hk), hh]
    rw [hauxv, neal8Probas_length, List.length_ofFn, Finset.sum_range_add,
      ← chosen_row hlike hπ hpos hR hoff hval hfit _ hΦ, chosen]
    congr 1
    · refine Finset.sum_congr rfl fun c hc => ?_
      obtain ⟨s', e, hl, hs'⟩ := hold c (Finset.mem_range.mp hc)
      rw [e]
      dsimp only
      rw [hg _ _ _ _ ((Seen.withDraw draw).mp hs') (hl.trans haux), atPlace, hΦd]
    · rw [Finset.sum_range]
      refine Finset.sum_congr rfl fun j _ => ?_
      obtain ⟨s', e, hl, hs'⟩ := hnew j.val (by rw [haux]; exact j.isLt)
      rw [e]
      dsimp only
      rw [hg _ _ _ _ ((Seen.withDraw draw).mp hs') (hl.trans haux), atPlace, hΦd]
  have e0 : neal8RowMean E like S ν n i g s = ∫⁻ draw, rowKernel (weight π) like
      (empLaw fun j : Fin (m + 1) => offered (withDraw E draw) h o (decide (o.card ≤ 1)) id j)
        i Φ σ x ∂valueDraws ν := lintegral_congr hint
  have hsel := valueDraws_select (ν := ν) (K := m + 1) (fun _ => h) fun _ => hprior
  have hm2 : Measurable fun (d : H × ℕ → Θ) (k : Fin (m + 1)) => d (h, k.val) :=
    measurable_pi_iff.mpr fun k => measurable_pi_apply _
  rw [e0]
  change _ = row8 (weight π) like (ν h) m i (fun τ y => Ψ (τ, mark i τ A) y) σ x
  rw [← hΦd]
  unfold row8
  by_cases hc : o.card ≤ 1
  · rw [if_pos (halone.mp hc)]
    have hkm := measurable_kernel_first (w := weight π) hlike i (m := m) hΦ σ x
    rw [← pi_select (fun _ : Fin (m + 1) => ν h) (Fin.succ_injective m) hkm, ← hsel,
      lintegral_map (f := fun a : Fin (m + 1) → Θ => rowKernel (weight π) like
        (empLaw (Fin.cons (x i) (fun k : Fin m => a k.succ) : Fin (m + 1) → Θ)) i Φ σ x)
        (hkm.comp (measurable_pi_iff.mpr fun k => measurable_pi_apply _)) hm2]
    refine lintegral_congr fun d => ?_
    congr 2
    funext j
    refine Fin.cases ?_ (fun l => ?_) j
    · simp [offered, hc, hxi]
    · simp [offered, withDraw]
  · rw [if_neg fun e => hc (halone.mpr e)]
    have hkm := measurable_kernel_all (w := weight π) hlike i (m := m) hΦ σ x
    rw [← hsel, lintegral_map hkm hm2]
    refine lintegral_congr fun d => ?_
    congr 2
    funext j
    simp [offered, hc, withDraw]

end means

end Bayesmix.Chain
