import Verif.Algo.SMLawLemmas

/-! # The transition matrix of a Metropolis-Hastings update -/

namespace Bayesmix.Chain
open Bayesmix Cond Gibbs SplitMerge Slice

variable {G H Θ : Type} [AddCommGroup G] {n : ℕ}

/-! ### Splits of partitions -/

/-- `τ` is `σ` with the cluster of `i` and `j` divided. -/
structure SplitRel (i j : Fin n) (σ τ : Setoid (Fin n)) : Prop where
  united : σ i j
  divided : ¬ τ i j
  cover : ∀ x, σ x i ↔ τ x i ∨ τ x j
  others : ∀ x y, ¬ σ x i → (σ x y ↔ τ x y)

theorem SplitRel.ne {i j : Fin n} {σ τ : Setoid (Fin n)} (h : SplitRel i j σ τ) : σ ≠ τ := by
  rintro rfl
  exact h.divided h.united

theorem SplitRel.asymm {i j : Fin n} {σ τ : Setoid (Fin n)} (h : SplitRel i j σ τ) :
    ¬ SplitRel i j τ σ := fun h' => h.divided h'.united

theorem SplitRel.inside {i j : Fin n} {σ τ : Setoid (Fin n)} (h : SplitRel i j σ τ) {x y : Fin n}
    (hx : σ x i) : τ x y ↔ σ y i ∧ (τ x i ↔ τ y i) := by
  by_cases hy : σ y i
  · rw [and_iff_right hy]
    constructor
    · intro e
      exact ⟨fun e' => τ.trans (τ.symm e) e', fun e' => τ.trans e e'⟩
    · intro e
      by_cases hxi : τ x i
      · exact τ.trans hxi (τ.symm (e.mp hxi))
      · have h1 := ((h.cover x).mp hx).resolve_left hxi
        have h2 := ((h.cover y).mp hy).resolve_left fun h' => hxi (e.mpr h')
        exact τ.trans h1 (τ.symm h2)
  · refine iff_of_false (fun e => hy ?_) fun e => hy e.1
    have := (h.others y x hy).mpr (τ.symm e)
    exact σ.trans this hx

theorem SplitRel.ext {i j : Fin n} {σ τ τ' : Setoid (Fin n)} (h : SplitRel i j σ τ)
    (h' : SplitRel i j σ τ') (e : ∀ x, τ x i ↔ τ' x i) : τ = τ' := by
  refine Setoid.ext fun x y => ?_
  by_cases hx : σ x i
  · rw [h.inside hx, h'.inside hx, e x, e y]
  · rw [← h.others x y hx, ← h'.others x y hx]

theorem SplitRel.unite {i j : Fin n} {σ σ' τ : Setoid (Fin n)} (h : SplitRel i j σ τ)
    (h' : SplitRel i j σ' τ) : σ = σ' := by
  have e : ∀ x, σ x i ↔ σ' x i := fun x => by rw [h.cover, h'.cover]
  refine Setoid.ext fun x y => ?_
  by_cases hx : σ x i
  · have h1 : σ x y ↔ σ y i := ⟨fun a => σ.trans (σ.symm a) hx, fun a => σ.trans hx (σ.symm a)⟩
    have hx' := (e x).mp hx
    have h2 : σ' x y ↔ σ' y i :=
      ⟨fun a => σ'.trans (σ'.symm a) hx', fun a => σ'.trans hx' (σ'.symm a)⟩
    rw [h1, h2, e]
  · rw [h.others x y hx, h'.others x y fun a => hx ((e x).mpr a)]

theorem splitRel_of {i j : Fin n} {s s' : Alg G H Θ} (h : IsSplit n i j s s') :
    SplitRel i j (partOf n s.alloc) (partOf n s'.alloc) := by
  refine ⟨h.united, h.divided, fun x => h.cover x x.isLt, fun x y hx => ?_⟩
  rw [partOf_rel, partOf_rel]
  have hx : ¬ together s.alloc x i := hx
  by_cases hy : together s.alloc y i
  · refine iff_of_false (fun e => hx ?_) fun e => hx ?_
    · unfold together at *; rw [e, hy]
    · rw [h.cover x x.isLt]
      rcases (h.cover y y.isLt).mp hy with h1 | h1
      · left; unfold together at *; rw [e, h1]
      · right; unfold together at *; rw [e, h1]
  · unfold together
    rw [h.labels x x.isLt hx, h.labels y y.isLt hy]

theorem mergeRel_of {i j : Fin n} {s s' : Alg G H Θ} (h : IsMerge n i j s s') :
    SplitRel i j (partOf n s'.alloc) (partOf n s.alloc) := by
  refine ⟨h.united, h.divided, fun x => h.cover x x.isLt, fun x y hx => ?_⟩
  exact h.others x x.isLt y y.isLt fun e => hx ((h.cover x x.isLt).mpr e)

/-! ### Dependence on the partition only -/

theorem clusterOf_congr {al al' : List ℕ} (h : SamePart n al al') {i : ℕ} (hi : i < n) :
    clusterOf n al i = clusterOf n al' i := by
  ext x
  rw [mem_clusterOf, mem_clusterOf]
  exact and_congr_right fun hx => h x hx i hi

theorem scanRows_congr {al al' : List ℕ} (h : SamePart n al al') {i j : ℕ} (hi : i < n)
    (hj : j < n) : scanRows n al i j = scanRows n al' i j := by
  unfold scanRows
  rw [clusterOf_congr h hi, clusterOf_congr h hj]

theorem mem_scanRows_lt {al : List ℕ} {i j x : ℕ} (h : x ∈ scanRows n al i j) : x < n := by
  rcases (mem_scanRows.mp h).2.2 with h | h <;> exact (mem_clusterOf.mp h).1

theorem origLab_congr {al al' : List ℕ} (hl : al.length = n) (hl' : al'.length = n)
    (h : SamePart n al al') {i x : ℕ} (hi : i < n) (hx : x < n) : origLab al i x = origLab al' i x := by
  have h1 := origLab_iff hl hi hx
  have h2 := origLab_iff hl' hi hx
  have h3 : origLab al i x = false ↔ origLab al' i x = false := by
    rw [h1, h2]
    exact h x hx i hi
  cases e1 : origLab al i x <;> cases e2 : origLab al' i x <;> simp_all

/-- Rows that are scanned when `i` and `j` are selected. -/
noncomputable def rowsOf (σ : Setoid (Fin n)) (i j : Fin n) : List ℕ := scanRows n (labelsOf σ) i j

/-- Labels of the rows in `rows` that describe `τ`. -/
noncomputable def labOf (τ : Setoid (Fin n)) (i : Fin n) (rows : List ℕ) (k : ℕ) : Bool :=
  origLab (labelsOf τ) i (rows.getD k 0)

theorem samePart_labels {al : List ℕ} : SamePart n al (labelsOf (partOf n al)) := by
  rw [← partOf_eq, partOf_labelsOf]

theorem rowsOf_part (al : List ℕ) (i j : Fin n) : rowsOf (partOf n al) i j = scanRows n al i j :=
  (scanRows_congr samePart_labels i.isLt j.isLt).symm

theorem labOf_part {al : List ℕ} (hl : al.length = n) (i : Fin n) {rows : List ℕ}
    (hr : ∀ x ∈ rows, x < n) (k : ℕ) :
    labOf (partOf n al) i rows k = origLab al i (rows.getD k 0) := by
  refine (origLab_congr hl (labelsOf_length _) samePart_labels i.isLt ?_).symm
  by_cases hk : k < rows.length
  · exact hr _ (getD_mem hk)
  · rw [List.getD_eq_default _ _ (by omega)]
    exact i.pos

theorem labOf_iff (τ : Setoid (Fin n)) (i x : Fin n) {rows : List ℕ} {k : ℕ}
    (h : rows.getD k 0 = x) : labOf τ i rows k = false ↔ τ x i := by
  rw [labOf, h, origLab_iff (labelsOf_length τ) i.isLt x.isLt]
  conv_rhs => rw [← partOf_labelsOf τ]
  rfl

theorem rowsOf_split {i j : Fin n} {σ τ : Setoid (Fin n)} (h : SplitRel i j σ τ) :
    rowsOf σ i j = rowsOf τ i j := by
  have key : ∀ (ρ : Setoid (Fin n)) (a x : Fin n), x.val ∈ clusterOf n (labelsOf ρ) a ↔ ρ x a := by
    intro ρ a x
    rw [mem_clusterOf, and_iff_right x.isLt]
    conv_rhs => rw [← partOf_labelsOf ρ]
    rfl
  unfold rowsOf scanRows
  congr 2
  congr 1
  ext x
  rw [Finset.mem_union, Finset.mem_union]
  by_cases hx : x < n
  · have h1 := key σ i ⟨x, hx⟩
    have h2 := key σ j ⟨x, hx⟩
    have h3 := key τ i ⟨x, hx⟩
    have h4 := key τ j ⟨x, hx⟩
    simp only at h1 h2 h3 h4
    rw [h1, h2, h3, h4, ← h.cover]
    constructor
    · rintro (e | e)
      · exact e
      · exact σ.trans e (σ.symm h.united)
    · exact Or.inl
  · have h1 : ∀ al a, x ∉ clusterOf n al a := fun al a e => hx (mem_clusterOf.mp e).1
    simp [h1]

/-! ### The kernel -/

noncomputable section

open Classical in
/-- Probability of going from one partition to a different one when `i` and `j` are selected. -/
def pairOff (E : Env G H Θ) (S : Scores H) (h : H) (nRestr : ℕ) (i j : Fin n)
    (σ τ : Setoid (Fin n)) : ℝ :=
  if SplitRel i j σ τ then
    lawMean (labLaw E S h i j (rowsOf σ i j) nRestr) fun c0 =>
      Real.exp (transLog E S h i j (rowsOf σ i j) c0 (labOf τ i (rowsOf σ i j))
        (rowsOf σ i j).length) *
      min 1 (Real.exp (splitRate E S h n i j (rowsOf σ i j) c0 (labOf τ i (rowsOf σ i j))))
  else if SplitRel i j τ σ then
    lawMean (labLaw E S h i j (rowsOf σ i j) nRestr) fun c0 =>
      min 1 (Real.exp (-splitRate E S h n i j (rowsOf σ i j) c0 (labOf σ i (rowsOf σ i j))))
  else 0

/-- The transition matrix when `i` and `j` are selected. -/
def pairK (E : Env G H Θ) (S : Scores H) (h : H) (nRestr : ℕ) (i j : Fin n) :
    Matrix (Setoid (Fin n)) (Setoid (Fin n)) ℝ := fun σ τ =>
  if τ = σ then 1 - ∑ ρ ∈ Finset.univ.erase σ, pairOff E S h nRestr i j σ ρ
  else pairOff E S h nRestr i j σ τ

theorem pairOff_reversible {E : Env G H Θ} {S : Scores H} {h : H} {nRestr : ℕ} {i j : Fin n}
    {w : Setoid (Fin n) → ℝ}
    (hb : ∀ σ τ, SplitRel i j σ τ → ∀ c0 : ℕ → Bool,
      w σ * Real.exp (transLog E S h i j (rowsOf σ i j) c0 (labOf τ i (rowsOf σ i j))
        (rowsOf σ i j).length) *
        min 1 (Real.exp (splitRate E S h n i j (rowsOf σ i j) c0 (labOf τ i (rowsOf σ i j)))) =
      w τ *
        min 1 (Real.exp (-splitRate E S h n i j (rowsOf σ i j) c0 (labOf τ i (rowsOf σ i j)))))
    (σ τ : Setoid (Fin n)) :
    w σ * pairOff E S h nRestr i j σ τ = w τ * pairOff E S h nRestr i j τ σ := by
  have key : ∀ σ τ, SplitRel i j σ τ →
      w σ * pairOff E S h nRestr i j σ τ = w τ * pairOff E S h nRestr i j τ σ := by
    intro σ τ hst
    rw [pairOff, if_pos hst, pairOff, if_neg hst.asymm, if_pos hst, ← rowsOf_split hst, ← lawMean_mul,
      ← lawMean_mul]
    exact lawMean_congr fun x _ => by rw [← mul_assoc]; exact hb σ τ hst x.2
  by_cases h1 : SplitRel i j σ τ
  · exact key σ τ h1
  · by_cases h2 : SplitRel i j τ σ
    · exact (key τ σ h2).symm
    · rw [pairOff, if_neg h1, if_neg h2, pairOff, if_neg h2, if_neg h1, mul_zero, mul_zero]

/-! ### The law of the code -/

theorem good_split {E : Env G H Θ} {h0 : H} {i j : ℕ} {D : Finset ℕ} {s s' : Alg G H Θ}
    (hs : Good E n h0 s) (h : SplitDone E n i j D s s') : Good E n h0 s' := by
  have hm : MarginalOk E.contrib n s' := ⟨h.cons, h.noEmpty hs.ok.noEmpty, h.caches hs.ok.caches⟩
  refine ⟨hm, h.hyp.trans hs.hyp, fun o ho => ?_⟩
  obtain ⟨x, hx, hox⟩ := mem_objAt hm ho
  rw [h.hyp]
  by_cases hxi : s.alloc[x]? = s.alloc[i]?
  · obtain ⟨o', ho', hf⟩ := h.fresh x hx hxi
    rw [hox] at ho'
    cases ho'
    exact hf
  · have := h.others x hx hxi
    rw [hox] at this
    unfold objAt at this
    obtain ⟨k, -, h2⟩ := Option.bind_eq_some_iff.mp this.symm
    exact hs.fresh o (List.mem_of_getElem? h2)

theorem good_merge {E : Env G H Θ} {h0 : H} {i j : ℕ} {s s' : Alg G H Θ}
    (hs : Good E n h0 s) (h : MergeDone E n i j s s') : Good E n h0 s' := by
  have hm : MarginalOk E.contrib n s' := ⟨h.cons, h.noEmpty hs.ok.noEmpty, h.caches hs.ok.caches⟩
  refine ⟨hm, h.hyp.trans hs.hyp, fun o ho => ?_⟩
  obtain ⟨x, hx, hox⟩ := mem_objAt hm ho
  rw [h.hyp]
  by_cases hxi : s.alloc[x]? = s.alloc[i]? ∨ s.alloc[x]? = s.alloc[j]?
  · obtain ⟨o', ho', hf⟩ := h.fresh x hx hxi
    rw [hox] at ho'
    cases ho'
    exact hf
  · rw [not_or] at hxi
    have := h.others x hx hxi.1 hxi.2
    rw [hox] at this
    unfold objAt at this
    obtain ⟨k, -, h2⟩ := Option.bind_eq_some_iff.mp this.symm
    exact hs.fresh o (List.mem_of_getElem? h2)

/-- Two outcomes, accepted and rejected. -/
theorem two_isLaw {S : Type} {a : ℝ} (h0 : 0 ≤ a) (h1 : a ≤ 1) (s t : S) :
    IsLaw [(a, s), (1 - a, t)] := by
  refine ⟨fun x hx => ?_, by simp [lawMean]⟩
  simp only [List.mem_cons, List.not_mem_nil, or_false] at hx
  rcases hx with rfl | rfl
  · exact h0
  · simpa using h1

/-- The launch states. -/
theorem launched {E : Env G H Θ} (S : Scores H) (hk : E.kind ≠ .other) {s : Alg G H Θ}
    (hs : Consistent E.contrib n s) (nRestr : ℕ) {i j : ℕ} (hi : i < n) (hj : j < n) (hij : i ≠ j)
    {o : Hier G H Θ} (ho : s.clus[0]? = some o) {m : (ℕ → Bool) → Law (Alg G H Θ)}
    (hm : ∀ c0, splitMergeLaw E S s
      (launchOf E s.hyp o.state i j (scanRows n s.alloc i j) c0) i j = .ok (m c0)) :
    pairLaw E S nRestr s i j =
      .ok (lbind (labLaw E S s.hyp i j (scanRows n s.alloc i j) nRestr) m) := by
  have hr := scanRows_ok (n := n) (al := s.alloc) hij
  unfold pairLaw
  rw [launchRows_ok hs hi hj, ok_bind, launchLaw_ok hk hr ho, ok_bind,
    into_lmap (m := fun c => lmap (launchOf E s.hyp o.state i j (scanRows n s.alloc i j))
      (scans E S s.hyp i j (scanRows n s.alloc i j) nRestr c)) fun x _ => scansLaw_ok S hk hr nRestr x.2,
    ok_bind, ← lmap_lbind]
  exact into_lmap fun x _ => hm x.2

/-- Log prior ratio plus log likelihood ratio of a split. -/
def ratioOf (E : Env G H Θ) (S : Scores H) (h : H) (n i j : ℕ) (rows : List ℕ) (c1 : ℕ → Bool) : ℝ :=
  priorRatio S n (side i j rows c1 false) (side i j rows c1 true) +
    likRatio E S h i j (side i j rows c1 false) (side i j rows c1 true)

theorem ratioOf_congr (E : Env G H Θ) (S : Scores H) (h : H) (n i j : ℕ) (rows : List ℕ)
    {c1 c1' : ℕ → Bool} (hc : ∀ t < rows.length, c1 t = c1' t) :
    ratioOf E S h n i j rows c1 = ratioOf E S h n i j rows c1' := by
  unfold ratioOf
  rw [side_congr hc, side_congr hc]

theorem min_exp_nonneg (x : ℝ) : 0 ≤ min 1 (Real.exp x) := le_min zero_le_one (Real.exp_pos x).le

/-- Where the labels `c` lead. -/
theorem lands_iff {al : List ℕ} {i j : Fin n} {rows : List ℕ} (hr : RowsOk i j rows)
    (hrows : rows = scanRows n al i j) {c : ℕ → Bool} {ρ τ : Setoid (Fin n)}
    (hside : ∀ x : Fin n, ρ x i ↔ x.val ∈ side i j rows c false)
    (hrel : SplitRel i j (partOf n al) ρ) (hst : SplitRel i j (partOf n al) τ) :
    ρ = τ ↔ ∀ u < rows.length, c u = labOf τ i rows u := by
  have hlt : ∀ u < rows.length, rows.getD u 0 < n := fun u hu => by
    have := getD_mem hu
    rw [hrows] at this ⊢
    exact mem_scanRows_lt this
  constructor
  · rintro rfl u hu
    have h1 := labOf_iff ρ i ⟨_, hlt u hu⟩ (rows := rows) (k := u) rfl
    rw [hside, mem_side hr hu] at h1
    cases e1 : c u <;> cases e2 : labOf ρ i rows u <;> simp_all
  · intro hall
    refine hrel.ext hst fun x => ?_
    rw [hside, mem_side_iff]
    simp only [Bool.false_eq_true, if_false]
    by_cases hxi : x = i
    · subst hxi
      exact iff_of_true (Or.inl rfl) (τ.refl _)
    · constructor
      · rintro (e | ⟨u, hu, hcu, e⟩)
        · exact absurd (Fin.ext e) hxi
        · rw [← labOf_iff τ i x e, ← hall u hu]
          exact hcu
      · intro e
        right
        have hxj : x ≠ j := fun e' => by
          subst e'
          exact hst.divided (τ.symm e)
        have hmem : x.val ∈ rows := by
          rw [hrows, mem_scanRows]
          refine ⟨fun e' => hxj (Fin.ext e'), fun e' => hxi (Fin.ext e'), Or.inl ?_⟩
          rw [mem_clusterOf]
          exact ⟨x.isLt, (hst.cover x).mpr (Or.inl e)⟩
        obtain ⟨u, hu, e'⟩ := mem_rows_iff.mp hmem
        exact ⟨u, hu, by rw [hall u hu, labOf_iff τ i x e']; exact e, e'⟩

open Classical in
theorem pair_split {E : Env G H Θ} (S : Scores H) (hk : E.kind ≠ .other) {h0 : H} {s : Alg G H Θ}
    (hs : Good E n h0 s) (nRestr : ℕ) {i j : Fin n} (hij : i ≠ j)
    (ht : together s.alloc i j) : ∃ l, pairLaw E S nRestr s i j = .ok l ∧ IsLaw l ∧
      (∀ x ∈ l, Good E n h0 x.2) ∧ ∀ τ, τ ≠ partOf n s.alloc →
        l.prob (fun t => partOf n t.alloc = τ) = pairOff E S h0 nRestr i j (partOf n s.alloc) τ := by
  have hc := hs.ok.cons
  have hij' : i.val ≠ j.val := fun e => hij (Fin.ext e)
  have hn : 0 < n := i.pos
  obtain ⟨o, ho⟩ := first_obj hc hn
  obtain ⟨rows, hrows⟩ : ∃ rows, rows = scanRows n s.alloc i j := ⟨_, rfl⟩
  have hr := scanRows_ok (n := n) (al := s.alloc) hij'
  have hunion : ∀ c1, side i j rows c1 false ∪ side i j rows c1 true = clusterOf n s.alloc i := by
    intro c1
    rw [side_union, hrows, scanRows_union i.isLt j.isLt, show clusterOf n s.alloc j =
      clusterOf n s.alloc i by
        have ht' : s.alloc[i.val]? = s.alloc[j.val]? := ht
        simp [clusterOf, ht'], Finset.union_self]
  rw [← hrows] at hr
  have hiD : ∀ c1, i.val ∈ side i j rows c1 false := fun c1 => root_mem i j rows c1 false
  have hjD : ∀ c1, j.val ∉ side i j rows c1 false := fun c1 h =>
    Finset.disjoint_left.mp (side_disjoint hr c1) h (root_mem i j rows c1 true)
  have hsub : ∀ c1, side i j rows c1 false ⊆ clusterOf n s.alloc i := fun c1 => by
    rw [← hunion c1]; exact Finset.subset_union_left
  have hprop : ∀ c1, ∃ s', proposalUpdate E s (launchOf E s.hyp o.state i j rows c1) i j true =
      .ok s' ∧ SplitDone E n i j (side i j rows c1 false) s s' := fun c1 =>
    proposal_split hk hc i.isLt j.isLt ht rfl (hiD c1) (hjD c1) (hsub c1)
  choose t ht1 ht2 using hprop
  have hrel : ∀ c1, SplitRel i j (partOf n s.alloc) (partOf n (t c1).alloc) := fun c1 =>
    splitRel_of (isSplit_of hc ht (hiD c1) (hjD c1) (hsub c1) (ht2 c1))
  have hside : ∀ c1 (x : Fin n), partOf n (t c1).alloc x i ↔ x.val ∈ side i j rows c1 false := by
    intro c1 x
    rw [← (split_rows hc ht (hiD c1) (hjD c1) (hsub c1) (ht2 c1)).1, mem_clusterOf,
      and_iff_right x.isLt]
    rfl
  obtain ⟨A, hA⟩ : ∃ A : (ℕ → Bool) × ℝ → ℝ, A = fun x =>
    min 1 (Real.exp (x.2 * -1 + ratioOf E S s.hyp n i j rows x.1)) := ⟨_, rfl⟩
  obtain ⟨m, hm⟩ : ∃ m : (ℕ → Bool) → Law (Alg G H Θ), m = fun c0 =>
    lbind (loopLaw (scanRow E S s.hyp i j rows true) (List.range rows.length) (c0, 0)) fun x =>
      [(A x, t x.1), (1 - A x, s)] := ⟨_, rfl⟩
  have hlaw : ∀ c0, IsLaw (m c0) := fun c0 => by
    rw [hm, hA]
    exact (loopLaw_isLaw (scanRow_isLaw E S s.hyp i j rows true) _).lbind fun x _ =>
      two_isLaw (min_exp_nonneg _) (min_le_left _ _) _ _
  refine ⟨_, launched S hk hc nRestr i.isLt j.isLt hij' ho (m := m) ?_,
    (labLaw_isLaw _ _ _ _ _ _ _).lbind fun x _ => hlaw x.2, ?_, ?_⟩
  · intro c0
    obtain ⟨a, ha, -⟩ := hc.on.labelled i (Finset.mem_range.mpr i.isLt)
    have hb : s.alloc[j.val]? = some a := by rw [← ha]; exact ht.symm
    rw [← hrows]
    simp only [splitMergeLaw, vget_ok ha, vget_ok hb, ok_bind, decide_true, Bool.not_true]
    rw [restrictedLaw_draw S hk hr, ok_bind, hm]
    refine into_lmap fun x _ => ?_
    simp only
    rw [logRatios_ok S hk ho (i := i) (j := j) (D0 := side i j rows x.2.1 false)
      (D1 := side i j rows x.2.1 true) (root_mem i j _ _ false) (root_mem i j _ _ true)
      (side_disjoint hr _) (fun _ => ⟨rfl, rfl⟩) (by simp), ok_bind, ht1, ok_bind, hA]
    simp only [if_true, ratioOf, hc.len, add_assoc]
  · intro x hx
    obtain ⟨y, -, z, hz, rfl⟩ := mem_lbind hx
    rw [hm] at hz
    obtain ⟨u, -, v, hv, rfl⟩ := mem_lbind hz
    simp only [List.mem_cons, List.not_mem_nil, or_false] at hv
    rcases hv with rfl | rfl
    · exact good_split hs (ht2 _)
    · exact hs
  · intro τ hτ
    rw [prob_eq_lawMean, lawMean_lbind, pairOff, ← hs.hyp, rowsOf_part, ← hrows]
    have hmean : ∀ c0, lawMean (m c0) (fun u => if partOf n u.alloc = τ then (1 : ℝ) else 0) =
        lawMean (loopLaw (scanRow E S s.hyp i j rows true) (List.range rows.length) (c0, 0))
          fun x => if partOf n (t x.1).alloc = τ then A x else 0 := by
      intro c0
      rw [hm, lawMean_lbind]
      refine lawMean_congr fun x _ => ?_
      simp only [lawMean_cons, lawMean_nil, if_neg (Ne.symm hτ)]
      split <;> simp
    by_cases hst : SplitRel i j (partOf n s.alloc) τ
    · rw [if_pos hst]
      refine lawMean_congr fun x _ => ?_
      rw [hmean, scan_point (c1 := labOf τ i rows) (F := fun a =>
        min 1 (Real.exp (a * -1 + ratioOf E S s.hyp n i j rows (labOf τ i rows))))]
      · simp only [splitRate, ratioOf]
        congr 3
        ring
      · intro c a
        have hiff := lands_iff hr hrows (hside c) (hrel c) hst
        simp only [hA, hiff]
        split
        · rename_i hall
          rw [ratioOf_congr E S s.hyp n i j rows hall]
        · rfl
    · have hnm : ¬ SplitRel i j τ (partOf n s.alloc) := fun h => h.divided ht
      rw [if_neg hst, if_neg hnm]
      rw [lawMean_congr (f' := fun _ => 0 * 1)]
      · rw [lawMean_mul, zero_mul]
      · intro x _
        rw [hmean, lawMean_congr (f' := fun _ => 0 * 1)]
        · rw [lawMean_mul, zero_mul, zero_mul]
        · intro y _
          rw [if_neg fun e => hst (by rw [← e]; exact hrel _), zero_mul]

open Classical in
theorem pair_merge {E : Env G H Θ} (S : Scores H) (hk : E.kind ≠ .other) {h0 : H} {s : Alg G H Θ}
    (hs : Good E n h0 s) (nRestr : ℕ) {i j : Fin n}
    (ht : ¬ together s.alloc i j) : ∃ l, pairLaw E S nRestr s i j = .ok l ∧ IsLaw l ∧
      (∀ x ∈ l, Good E n h0 x.2) ∧ ∀ τ, τ ≠ partOf n s.alloc →
        l.prob (fun t => partOf n t.alloc = τ) = pairOff E S h0 nRestr i j (partOf n s.alloc) τ := by
  have hc := hs.ok.cons
  have hij' : i.val ≠ j.val := fun e => ht (by rw [together, e])
  have hn : 0 < n := i.pos
  have ht' : s.alloc[i.val]? ≠ s.alloc[j.val]? := ht
  obtain ⟨o, ho⟩ := first_obj hc hn
  obtain ⟨rows, hrows⟩ : ∃ rows, rows = scanRows n s.alloc i j := ⟨_, rfl⟩
  have hr := scanRows_ok (n := n) (al := s.alloc) hij'
  rw [← hrows] at hr
  obtain ⟨t, ht1, ht2⟩ := proposal_merge hk hc i.isLt j.isLt ht'
    (launchOf E s.hyp o.state i j rows (backLab s.alloc i j n))
  have hrel := mergeRel_of (isMerge_of hc i.isLt j.isLt ht' ht2)
  have hback : (fun k => origLab s.alloc i (rows.getD k 0)) = backLab s.alloc i j n := by
    funext k
    rw [backLab, hrows]
  obtain ⟨A, hA⟩ : ∃ A : (ℕ → Bool) → ℝ, A = fun c0 =>
    min 1 (Real.exp (-splitRate E S s.hyp n i j rows c0 (backLab s.alloc i j n))) := ⟨_, rfl⟩
  obtain ⟨m, hm⟩ : ∃ m : (ℕ → Bool) → Law (Alg G H Θ), m = fun c0 =>
    [(A c0, t), (1 - A c0, s)] := ⟨_, rfl⟩
  have hlaw : ∀ c0, IsLaw (m c0) := fun c0 => by
    rw [hm, hA]
    exact two_isLaw (min_exp_nonneg _) (min_le_left _ _) _ _
  refine ⟨_, launched S hk hc nRestr i.isLt j.isLt hij' ho (m := m) ?_,
    (labLaw_isLaw _ _ _ _ _ _ _).lbind fun x _ => hlaw x.2, ?_, ?_⟩
  · intro c0
    obtain ⟨a, ha, hal⟩ := hc.on.labelled i (Finset.mem_range.mpr i.isLt)
    obtain ⟨b, hb, hbl⟩ := hc.on.labelled j (Finset.mem_range.mpr j.isLt)
    have hab : a ≠ b := by rintro rfl; exact ht' (ha.trans hb.symm)
    have hoa := List.getElem?_eq_getElem hal
    have hob := List.getElem?_eq_getElem hbl
    obtain ⟨e1, e2⟩ := side_back hc.len i.isLt j.isLt ht'
    rw [← hrows] at e1 e2 ⊢
    simp only [splitMergeLaw, vget_ok ha, vget_ok hb, ok_bind, decide_eq_false hab, Bool.not_false]
    rw [restrictedLaw_back S hk hr ⟨by rw [hc.len]; exact i.isLt, fun x hx => by
      rw [hc.len]
      rw [hrows] at hx
      exact mem_scanRows_lt hx⟩, ok_bind, hback,
      into_ok (m := fun _ => m c0)]
    · simp [lbind]
    · intro x hx
      rw [List.mem_singleton] at hx
      subst hx
      simp only
      rw [logRatios_ok S hk ho (self_mem_clusterOf i.isLt) (self_mem_clusterOf j.isLt)
        (clusterOf_disjoint (n := n) ht') (by simp)
        (fun _ => ⟨a, b, _, _, ha, hb, hoa, hob, by rw [hc.on.members a _ hoa, clusterOf_eq ha],
          by rw [hc.on.members b _ hob, clusterOf_eq hb]⟩), ok_bind, ht1, ok_bind, hm, hA]
      simp only [Bool.false_eq_true, if_false, splitRate, e1, e2, hc.len]
      have er : ∀ x y z : ℝ, x + -y + -z = -(-x + y + z) := fun x y z => by ring
      rw [er]
  · intro x hx
    obtain ⟨y, -, z, hz, rfl⟩ := mem_lbind hx
    rw [hm] at hz
    simp only [List.mem_cons, List.not_mem_nil, or_false] at hz
    rcases hz with rfl | rfl
    · exact good_merge hs ht2
    · exact hs
  · intro τ hτ
    rw [prob_eq_lawMean, lawMean_lbind, pairOff, ← hs.hyp, rowsOf_part, ← hrows,
      if_neg fun h : SplitRel i j (partOf n s.alloc) τ => ht h.united]
    have hmean : ∀ c0, lawMean (m c0) (fun u => if partOf n u.alloc = τ then (1 : ℝ) else 0) =
        if partOf n t.alloc = τ then A c0 else 0 := by
      intro c0
      rw [hm]
      simp only [lawMean_cons, lawMean_nil, if_neg (Ne.symm hτ)]
      split <;> simp
    by_cases hst : SplitRel i j τ (partOf n s.alloc)
    · rw [if_pos hst]
      refine lawMean_congr fun x _ => ?_
      rw [hmean, if_pos (hrel.unite hst), hA]
      have : labOf (partOf n s.alloc) i rows = backLab s.alloc i j n := by
        rw [← hback]
        funext k
        exact labOf_part hc.len i (fun x hx => by rw [hrows] at hx; exact mem_scanRows_lt hx) k
      rw [this]
    · rw [if_neg hst, lawMean_congr (f' := fun _ => 0 * 1)]
      · rw [lawMean_mul, zero_mul]
      · intro x _
        rw [hmean, if_neg fun e => hst (by rw [← e]; exact hrel), zero_mul]

theorem pair_law {E : Env G H Θ} (S : Scores H) (hk : E.kind ≠ .other) {h0 : H} (nRestr : ℕ)
    {i j : Fin n} (hij : i ≠ j) : HasLaw (Good E n h0) (fun s => partOf n s.alloc)
      (pairK E S h0 nRestr i j) (fun s => pairLaw E S nRestr s i j) := by
  classical
  intro s hs
  have : ∃ l, pairLaw E S nRestr s i j = .ok l ∧ IsLaw l ∧
      (∀ x ∈ l, Good E n h0 x.2) ∧ ∀ τ, τ ≠ partOf n s.alloc →
        l.prob (fun t => partOf n t.alloc = τ) = pairOff E S h0 nRestr i j (partOf n s.alloc) τ := by
    by_cases ht : together s.alloc i j
    · exact pair_split S hk hs nRestr hij ht
    · exact pair_merge S hk hs nRestr ht
  obtain ⟨l, e, hl, hg, hp⟩ := this
  refine ⟨l, e, fun x hx => ⟨hl.nonneg x hx, hg x hx⟩, fun τ => ?_⟩
  unfold pairK
  by_cases hτ : τ = partOf n s.alloc
  · rw [if_pos hτ]
    subst hτ
    have h1 := prob_mem (g := fun t : Alg G H Θ => partOf n t.alloc) l Finset.univ
    have h2 : l.prob (fun t => partOf n t.alloc ∈ (Finset.univ : Finset (Setoid (Fin n)))) = 1 := by
      rw [prob_eq_lawMean]
      refine (lawMean_congr fun x _ => ?_).trans hl.total
      simp
    rw [h2, ← Finset.add_sum_erase _ _ (Finset.mem_univ (partOf n s.alloc))] at h1
    rw [Finset.sum_congr rfl fun ρ hρ => hp ρ (Finset.ne_of_mem_erase hρ)] at h1
    linarith
  · rw [if_neg hτ]
    exact hp τ hτ

end

end Bayesmix.Chain
