import Verif.Algo.FinChain
import Verif.Algo.PropsGibbs

/-!
# The Markov chain of the collapsed Gibbs sampler on partitions

`Neal3Algorithm` (`src/algorithms/neal3_algorithm.cc`, `neal2_algorithm.cc` 24-62) with the
probabilities of its categorical draws. The noise used for drawing unique values is arbitrary.
-/

namespace Bayesmix.Chain
open Bayesmix Cond Gibbs SplitMerge Slice

variable {G H Θ : Type} [AddCommGroup G]

noncomputable section

/-- The draw of the label of row `i`, `neal2_algorithm.cc` 30-60 with the `get_cluster_lpdf` of
`neal3_algorithm.cc` 18-32. `rd i` is the noise for the value of a new cluster. -/
def neal3Row (E : Env G H Θ) (S : Scores H) (n : ℕ) (rd : ℕ → ℕ) (i : ℕ) (s : Alg G H Θ) :
    Except Fault (Law (Alg G H Θ)) := do
  let (s1, _) ← detach E true s i
  let p ← neal3Probas E S n s1 i
  drawThen p fun c => neal2Datum E true s i c (rd i)

/-- `BaseAlgorithm::step` (`base_algorithm.h` 179-184) for Neal3: labels, unique values,
hyperparameters. `mixing->update_state` does nothing for the Pitman-Yor process
(`pityor_mixing.cc` 18-19) and for a Dirichlet process with fixed total mass
(`dirichlet_mixing.cc` 21-23). Of `z` the noise for values and hyperparameters is used. -/
def neal3Iter (E : Env G H Θ) (S : Scores H) (n : ℕ) (z : Noise) (s : Alg G H Θ) :
    Except Fault (Law (Alg G H Θ)) := do
  let l ← sweep (neal3Row E S n fun i => (z.cat i).2) (List.range n) s
  l.mapM fun x => do
    let t ← sampleUniqueValues E true z.uv x.2
    let t ← updateHypers E z.hyp t
    .ok (x.1, t)

/-- The loop of `BaseAlgorithm::run` (`base_algorithm.h` 61-71): the law of the state after as many
iterations as there are entries in the list. -/
def neal3Chain (E : Env G H Θ) (S : Scores H) (n : ℕ) : List Noise → Alg G H Θ →
    Except Fault (Law (Alg G H Θ))
  | [], s => .ok [(1, s)]
  | z :: zs, s => do
    let l ← neal3Iter E S n z s
    l.andThen (neal3Chain E S n zs)

end

/-! ### Partitions -/

instance (n : ℕ) : Finite (Setoid (Fin n)) :=
  Finite.of_injective (fun σ : Setoid (Fin n) => (σ.r : Fin n → Fin n → Prop)) fun σ τ h =>
    Setoid.ext fun a b => iff_of_eq (congrFun (congrFun h a) b)

noncomputable instance (n : ℕ) : Fintype (Setoid (Fin n)) := Fintype.ofFinite _

noncomputable instance (n : ℕ) : DecidableEq (Setoid (Fin n)) := Classical.decEq _

/-- The partition of the rows below `n` described by labels: rows with equal labels are together. -/
def partOf (n : ℕ) (al : List ℕ) : Setoid (Fin n) := Setoid.ker fun i : Fin n => al[i.val]?

/-- Labels that describe a given partition. -/
noncomputable def labelsOf {n : ℕ} (σ : Setoid (Fin n)) : List ℕ :=
  List.ofFn fun i => ((Quotient.mk σ i).out).val

theorem labelsOf_length {n : ℕ} (σ : Setoid (Fin n)) : (labelsOf σ).length = n := by
  simp [labelsOf]

theorem partOf_rel {n : ℕ} (al : List ℕ) (a b : Fin n) :
    partOf n al a b ↔ together al a b := Iff.rfl

theorem partOf_labelsOf {n : ℕ} (σ : Setoid (Fin n)) : partOf n (labelsOf σ) = σ := by
  refine Setoid.ext fun a b => ?_
  rw [partOf_rel, together, labelsOf, List.getElem?_ofFn, List.getElem?_ofFn, dif_pos a.isLt,
    dif_pos b.isLt, Option.some_inj]
  simp only [Fin.eta]
  rw [Fin.val_inj, Quotient.out_inj]
  exact Quotient.eq (r := σ)

theorem partOf_eq {n : ℕ} {al al' : List ℕ} : partOf n al = partOf n al' ↔ SamePart n al al' := by
  constructor
  · intro h x hx y hy
    rw [← partOf_rel al ⟨x, hx⟩ ⟨y, hy⟩, h, partOf_rel]
  · intro h
    exact Setoid.ext fun a b => h a a.isLt b b.isLt

/-- The partitions agree off row `i`. -/
def SameOff {n : ℕ} (i : ℕ) (σ τ : Setoid (Fin n)) : Prop :=
  ∀ a b : Fin n, a.val ≠ i → b.val ≠ i → (σ a b ↔ τ a b)

theorem sameOff_iff {n i : ℕ} {al al' : List ℕ} :
    SameOff i (partOf n al) (partOf n al') ↔ SameOthers n i al al' := by
  constructor
  · intro h x hx y hy h1 h2
    exact h ⟨x, hx⟩ ⟨y, hy⟩ h1 h2
  · intro h a b h1 h2
    exact h a a.isLt b b.isLt h1 h2

theorem SameOff.symm {n i : ℕ} {σ τ : Setoid (Fin n)} (h : SameOff i σ τ) : SameOff i τ σ :=
  fun a b h1 h2 => (h a b h1 h2).symm

theorem SameOff.trans {n i : ℕ} {σ τ ρ : Setoid (Fin n)} (h : SameOff i σ τ) (h' : SameOff i τ ρ) :
    SameOff i σ ρ := fun a b h1 h2 => (h a b h1 h2).trans (h' a b h1 h2)

/-! ### The Gibbs kernel of a row -/

section kernel

variable {n : ℕ}

open Classical in
/-- Given everything but the place of row `i`, draw a partition with probability proportional to its
weight. -/
noncomputable def gibbsK (w : Setoid (Fin n) → ℝ) (i : ℕ) : Matrix (Setoid (Fin n)) (Setoid (Fin n)) ℝ :=
  fun σ τ => if SameOff i σ τ then w τ / ∑ ρ ∈ Finset.univ.filter (SameOff i σ), w ρ else 0

theorem off_sum_pos {w : Setoid (Fin n) → ℝ} (hw : ∀ σ, 0 < w σ) (i : ℕ) (σ : Setoid (Fin n))
    [DecidablePred (SameOff i σ)] : 0 < ∑ ρ ∈ Finset.univ.filter (SameOff i σ), w ρ :=
  Finset.sum_pos (fun ρ _ => hw ρ) ⟨σ, by simp [SameOff]⟩

theorem gibbsK_stochastic {w : Setoid (Fin n) → ℝ} (hw : ∀ σ, 0 < w σ) (i : ℕ) :
    Stochastic (gibbsK w i) := by
  classical
  refine ⟨fun σ τ => ?_, fun σ => ?_⟩
  · unfold gibbsK
    split
    · exact div_nonneg (hw τ).le (off_sum_pos hw i σ).le
    · exact le_rfl
  · unfold gibbsK
    rw [← Finset.sum_filter, ← Finset.sum_div]
    exact div_self (off_sum_pos hw i σ).ne'

theorem gibbsK_invariant {w : Setoid (Fin n) → ℝ} (hw : ∀ σ, 0 < w σ) (i : ℕ) :
    Invariant w (gibbsK w i) := by
  classical
  refine invariant_of_reversible (gibbsK_stochastic hw i).sum_one fun σ τ => ?_
  unfold gibbsK
  by_cases h : SameOff i σ τ
  · rw [if_pos h, if_pos h.symm]
    have e : Finset.univ.filter (SameOff i σ) = Finset.univ.filter (SameOff i τ) := by
      ext ρ
      simp only [Finset.mem_filter, Finset.mem_univ, true_and]
      exact ⟨fun h' => h.symm.trans h', fun h' => h.trans h'⟩
    rw [e]
    ring
  · rw [if_neg h, if_neg fun h' => h h'.symm]
    ring

theorem gibbsK_pos {w : Setoid (Fin n) → ℝ} (hw : ∀ σ, 0 < w σ) {i : ℕ} {σ τ : Setoid (Fin n)}
    (h : SameOff i σ τ) : 0 < gibbsK w i σ τ := by
  classical
  unfold gibbsK
  rw [if_pos h]
  exact div_pos (hw τ) (off_sum_pos hw i σ)

/-- Rows below `j` are placed as in `τ`, the others as in `σ`, and none of the former with one of the
latter. -/
def between (σ τ : Setoid (Fin n)) (j : ℕ) : Setoid (Fin n) where
  r a b := (a.val < j ∧ b.val < j ∧ τ a b) ∨ (j ≤ a.val ∧ j ≤ b.val ∧ σ a b)
  iseqv := by
    refine ⟨fun a => ?_, ?_, ?_⟩
    · rcases Nat.lt_or_ge a.val j with h | h
      · exact Or.inl ⟨h, h, τ.refl a⟩
      · exact Or.inr ⟨h, h, σ.refl a⟩
    · rintro a b (⟨h1, h2, h⟩ | ⟨h1, h2, h⟩)
      · exact Or.inl ⟨h2, h1, τ.symm h⟩
      · exact Or.inr ⟨h2, h1, σ.symm h⟩
    · rintro a b c (⟨h1, h2, h⟩ | ⟨h1, h2, h⟩) (⟨h3, h4, h'⟩ | ⟨h3, h4, h'⟩)
      · exact Or.inl ⟨h1, h4, τ.trans h h'⟩
      · omega
      · omega
      · exact Or.inr ⟨h1, h4, σ.trans h h'⟩

theorem between_rel (σ τ : Setoid (Fin n)) (j : ℕ) (a b : Fin n) : between σ τ j a b ↔
    (a.val < j ∧ b.val < j ∧ τ a b) ∨ (j ≤ a.val ∧ j ≤ b.val ∧ σ a b) := Iff.rfl

/-- Every partition can be reached from every other one in a sweep. -/
theorem sweep_pos {w : Setoid (Fin n) → ℝ} (hw : ∀ σ, 0 < w σ) (σ τ : Setoid (Fin n)) :
    0 < ((List.range n).map (gibbsK w)).prod σ τ := by
  have hst : ∀ j, Stochastic ((List.range j).map (gibbsK w)).prod := fun j =>
    Stochastic.prod fun P hP => by
      obtain ⟨i, -, rfl⟩ := List.mem_map.mp hP
      exact gibbsK_stochastic hw i
  have key : ∀ j, 0 < ((List.range j).map (gibbsK w)).prod σ (between σ τ j) := by
    intro j
    induction j with
    | zero =>
      have : between σ τ 0 = σ := Setoid.ext fun a b => by rw [between_rel]; simp
      rw [this]
      simp
    | succ j ih =>
      rw [List.range_succ, List.map_append, List.prod_append]
      simp only [List.map_cons, List.map_nil, List.prod_cons, List.prod_nil, mul_one,
        Matrix.mul_apply]
      have h1 : SameOff j (between σ τ j) (between σ τ (j + 1)) := by
        intro a b ha hb
        rw [between_rel, between_rel]
        have e1 : a.val < j ↔ a.val < j + 1 := by omega
        have e2 : b.val < j ↔ b.val < j + 1 := by omega
        have e3 : j ≤ a.val ↔ j + 1 ≤ a.val := by omega
        have e4 : j ≤ b.val ↔ j + 1 ≤ b.val := by omega
        rw [e1, e2, e3, e4]
      refine lt_of_lt_of_le (mul_pos ih (gibbsK_pos hw h1)) ?_
      exact Finset.single_le_sum (f := fun z => ((List.range j).map (gibbsK w)).prod σ z *
        gibbsK w j z (between σ τ (j + 1)))
        (fun z _ => mul_nonneg ((hst j).nonneg σ z) ((gibbsK_stochastic hw j).nonneg z _))
        (Finset.mem_univ _)
  have : between σ τ n = τ := Setoid.ext fun a b => by
    rw [between_rel]
    have := a.isLt
    constructor
    · rintro (⟨-, -, h⟩ | ⟨h, -, -⟩)
      · exact h
      · omega
    · exact fun h => Or.inl ⟨a.isLt, b.isLt, h⟩
  have h := key n
  rwa [this] at h

end kernel

/-! ### The code -/

theorem drawThen_ok {S : Type} {p : List ℝ} {next : ℕ → Except Fault S} {t : ℕ → S}
    (h : ∀ c < p.length, next c = .ok (t c)) :
    drawThen p next = .ok ((List.range p.length).map fun c => (p.getD c 0, t c)) := by
  unfold drawThen
  rw [Gibbs.mapM_ok _ (fun c => (p.getD c 0, t c))]
  intro c hc
  rw [List.mem_range] at hc
  have e : eigenAt p c = .ok (p.getD c 0) := by
    rw [eigenAt, List.getElem?_eq_getElem hc, List.getD_eq_getElem?_getD, List.getElem?_eq_getElem hc]
    rfl
  rw [e, ok_bind, h c hc, ok_bind]

/-- Weight of a partition. -/
noncomputable def weight {n : ℕ} (π : List ℕ → ℝ) (σ : Setoid (Fin n)) : ℝ := π (labelsOf σ)

/-- If the probabilities are the conditional distribution, the law of the next partition is the
Gibbs kernel. -/
theorem row_law {E : Env G H Θ} {S : Scores H} {n i : ℕ} {s : Alg G H Θ} {π : List ℕ → ℝ}
    {s1 : Alg G H Θ} {p : List ℝ} (hl1 : s1.alloc.length = n)
    (hc : IsConditional E S n s i π s1 p)
    (hpos : ∀ al : List ℕ, al.length = n → 0 < π al)
    (hinv : ∀ al al' : List ℕ, al.length = n → al'.length = n → SamePart n al al' → π al = π al')
    (rd : ℕ → ℕ) :
    ∃ l, neal3Row E S n rd i s = .ok l ∧
      (∀ x ∈ l, 0 ≤ x.1 ∧ ∃ c, neal2Datum E true s i c (rd i) = .ok x.2) ∧
      ∀ τ, l.prob (fun t => partOf n t.alloc = τ) = gibbsK (weight π) i (partOf n s.alloc) τ := by
  classical
  have hm : ∀ c, ∃ s', c < p.length → neal2Datum E true s i c (rd i) = .ok s' ∧
      s'.alloc = s1.alloc.set i c ∧ SameOthers n i s'.alloc s.alloc := by
    intro c
    by_cases h : c < p.length
    · obtain ⟨s', h'⟩ := hc.moves c h (rd i)
      exact ⟨s', fun _ => h'⟩
    · exact ⟨s, fun h' => absurd h' h⟩
  choose t ht using hm
  obtain ⟨x, hdet, hp⟩ := hc.computed
  have hd := drawThen_ok (p := p) (next := fun c => neal2Datum E true s i c (rd i)) (t := t)
    fun c h => (ht c h).1
  refine ⟨_, by
    unfold neal3Row
    rw [hdet, ok_bind]
    simp only
    rw [hp, ok_bind, hd], ?_, ?_⟩
  · intro y hy
    obtain ⟨c, hcl, rfl⟩ := List.mem_map.mp hy
    rw [List.mem_range] at hcl
    refine ⟨?_, c, (ht c hcl).1⟩
    simp only [List.getD_eq_getElem?_getD, List.getElem?_eq_getElem hcl, Option.getD_some]
    exact (hc.pos _ (List.getElem_mem hcl)).le
  · intro τ
    -- the partitions that the choices lead to
    obtain ⟨q, hq⟩ : ∃ q : ℕ → Setoid (Fin n), q = fun c => partOf n (s1.alloc.set i c) := ⟨_, rfl⟩
    have hwq : ∀ c, weight π (q c) = π (s1.alloc.set i c) := by
      intro c
      rw [hq]
      refine hinv _ _ (labelsOf_length _) (by simp [hl1]) ?_
      rw [← partOf_eq, partOf_labelsOf]
    have hoff : ∀ c < p.length, SameOff i (partOf n s.alloc) (q c) := by
      intro c hcl
      rw [hq]
      simp only
      rw [sameOff_iff, ← (ht c hcl).2.1]
      exact (ht c hcl).2.2.symm
    have hinj : ∀ c < p.length, ∀ d < p.length, q c = q d → c = d := by
      intro c hcl d hdl h
      obtain ⟨e, -, hu⟩ := hc.complete (s1.alloc.set i d) (by
        rw [← (ht d hdl).2.1]; exact (ht d hdl).2.2)
      rw [hq] at h
      rw [hu c ⟨hcl, partOf_eq.mp h⟩, hu d ⟨hdl, fun _ _ _ _ => Iff.rfl⟩]
    have hsurj : ∀ ρ, SameOff i (partOf n s.alloc) ρ → ∃ c < p.length, q c = ρ := by
      intro ρ hρ
      rw [← partOf_labelsOf ρ, sameOff_iff] at hρ
      obtain ⟨c, ⟨hcl, h⟩, -⟩ := hc.complete _ hρ.symm
      refine ⟨c, hcl, ?_⟩
      rw [hq]
      simp only
      rw [partOf_eq.mpr h, partOf_labelsOf]
    have hsum : ∑ ρ ∈ Finset.univ.filter (SameOff i (partOf n s.alloc)), weight π ρ =
        ∑ d ∈ Finset.range p.length, π (s1.alloc.set i d) := by
      symm
      refine Finset.sum_bij (fun c _ => q c) ?_ ?_ ?_ ?_
      · intro c hcl
        simp only [Finset.mem_filter, Finset.mem_univ, true_and]
        exact hoff c (Finset.mem_range.mp hcl)
      · intro c hcl d hdl h
        exact hinj c (Finset.mem_range.mp hcl) d (Finset.mem_range.mp hdl) h
      · intro ρ hρ
        obtain ⟨c, hcl, h⟩ := hsurj ρ (Finset.mem_filter.mp hρ).2
        exact ⟨c, Finset.mem_range.mpr hcl, h⟩
      · intro c _
        exact (hwq c).symm
    have hprob : Law.prob ((List.range p.length).map fun c => (p.getD c 0, t c))
        (fun u => partOf n u.alloc = τ) =
        ∑ c ∈ Finset.range p.length, if q c = τ then p.getD c 0 else 0 := by
      have hr : ∀ f : ℕ → ℝ, ∑ c ∈ Finset.range p.length, f c = ((List.range p.length).map f).sum :=
        fun f => rfl
      rw [Law.prob, List.map_map, hr]
      congr 1
      refine List.map_congr_left fun c hcl => ?_
      rw [List.mem_range] at hcl
      simp only [Function.comp]
      rw [hq]
      simp only
      rw [(ht c hcl).2.1]
    rw [hprob]
    unfold gibbsK
    by_cases hτ : SameOff i (partOf n s.alloc) τ
    · rw [if_pos hτ]
      obtain ⟨c, hcl, rfl⟩ := hsurj τ hτ
      rw [Finset.sum_eq_single_of_mem c (Finset.mem_range.mpr hcl)]
      · rw [if_pos rfl, hwq]
        have hz : 0 < ∑ ρ ∈ Finset.univ.filter (SameOff i (partOf n s.alloc)), weight π ρ :=
          off_sum_pos (fun σ => hpos _ (labelsOf_length σ)) i _
        rw [eq_div_iff hz.ne', hsum]
        refine hc.cond c _ ?_
        rw [List.getD_eq_getElem?_getD, List.getElem?_eq_getElem hcl]
        rfl
      · intro d hd hdc
        rw [if_neg fun h => hdc (hinj d (Finset.mem_range.mp hd) c hcl h)]
    · rw [if_neg hτ]
      refine Finset.sum_eq_zero fun c hcl => ?_
      rw [if_neg]
      rintro rfl
      exact hτ (hoff c (Finset.mem_range.mp hcl))

/-- States between iterations: consistent, with the initial hyperparameters, all caches fresh. -/
structure Good (E : Env G H Θ) (n : ℕ) (h0 : H) (s : Alg G H Θ) : Prop where
  ok : MarginalOk E.contrib n s
  hyp : s.hyp = h0
  fresh : ∀ o ∈ s.clus, o.Fresh E s.hyp

/-- The hypotheses under which the chain is analysed. -/
structure Target (E : Env G H Θ) (S : Scores H) (n : ℕ) (h0 : H) (π : List ℕ → ℝ) : Prop where
  fix : ∀ h l r, E.hyperUpdate h l r = h
  kind : E.kind ≠ .other
  two : 2 ≤ n
  pos : ∀ al : List ℕ, al.length = n → 0 < π al
  part : ∀ al al' : List ℕ, al.length = n → al'.length = n → SamePart n al al' → π al = π al'
  cond : ∀ i < n, ∀ s, Good E n h0 s → ∃ s1 p, IsConditional E S n s i π s1 p

section chain

variable {E : Env G H Θ} {S : Scores H} {n : ℕ} {h0 : H} {π : List ℕ → ℝ}

theorem Target.weight_pos (T : Target E S n h0 π) (σ : Setoid (Fin n)) : 0 < weight π σ :=
  T.pos _ (labelsOf_length σ)

theorem Target.row (T : Target E S n h0 π) (rd : ℕ → ℕ) {i : ℕ} (hi : i < n) :
    HasLaw (Good E n h0) (fun s => partOf n s.alloc) (gibbsK (weight π) i) (neal3Row E S n rd i) := by
  intro s hs
  obtain ⟨s1, p, hc⟩ := T.cond i hi s hs
  have hl1 : s1.alloc.length = n := by
    obtain ⟨x, hdet, -⟩ := hc.computed
    obtain ⟨s2, c, o, hdet', hd, -⟩ := detach_ok (upd := true) (fun _ => T.kind) hs.ok.cons.on
      (Finset.mem_range.mpr hi)
    rw [hdet] at hdet'
    cases hdet'
    rw [hd.len, hs.ok.cons.len]
  obtain ⟨l, e, h1, h2⟩ := row_law hl1 hc T.pos T.part rd
  refine ⟨l, e, fun x hx => ⟨(h1 x hx).1, ?_⟩, h2⟩
  obtain ⟨c, ec⟩ := (h1 x hx).2
  obtain ⟨t, et, hr, hne⟩ := neal2Datum_ok (upd := true) c (rd i) T.two (fun _ => T.kind) hs.ok.cons
    hs.ok.noEmpty hs.ok.caches hi
  rw [ec] at et
  cases et
  refine ⟨⟨hr.cons, hne, hr.caches⟩, hr.hyp.trans hs.hyp, fun o ho => ?_⟩
  rw [hr.hyp]
  rcases neal3Datum_objs T.kind hs.ok.cons hi ec o ho with h | h
  · exact h
  · exact hs.fresh o h.1

/-- The rest of an iteration does not change the partition. -/
theorem Target.rest (T : Target E S n h0 π) (z : Noise) {s : Alg G H Θ} (hs : Good E n h0 s) :
    ∃ t, (do
      let t ← sampleUniqueValues E true z.uv s
      updateHypers E z.hyp t) = .ok t ∧ Good E n h0 t ∧ t.alloc = s.alloc := by
  obtain ⟨s1, s2, e1, e2, hm⟩ := marginal_tail_ok (upd := true) z (by have := T.two; omega) hs.ok
  obtain ⟨b, e1', hc1, -, ha, -, hy, hobj⟩ :=
    sampleUniqueValues_ok (E := E) (upd := true) (r := z.uv) hs.ok.cons hs.ok.caches
  rw [e1] at e1'
  cases e1'
  have h2 : s2 = s1 := by
    unfold updateHypers at e2
    rw [vget_ok (List.getElem?_eq_getElem (clus_pos hc1 (by have := T.two; omega))), ok_bind] at e2
    cases e2
    rw [T.fix]
  subst h2
  refine ⟨s2, by rw [e1, ok_bind, e2], ⟨hm, hy.trans hs.hyp, ?_⟩, ha⟩
  intro o ho
  obtain ⟨j, hj⟩ := List.getElem?_of_mem ho
  obtain ⟨p, hp, hdr, -⟩ := hobj j o hj
  rw [hy]
  exact Hier.fresh_draw (hs.fresh p (List.mem_of_getElem? hp)) hdr

/-- The transition matrix of an iteration. -/
noncomputable def transition (n : ℕ) (π : List ℕ → ℝ) : Matrix (Setoid (Fin n)) (Setoid (Fin n)) ℝ :=
  ((List.range n).map (gibbsK (weight π))).prod

theorem Target.iter (T : Target E S n h0 π) (z : Noise) :
    HasLaw (Good E n h0) (fun s => partOf n s.alloc) (transition n π) (neal3Iter E S n z) := by
  intro s hs
  obtain ⟨l, e, h1, h2⟩ := sweep_law (g := fun s : Alg G H Θ => partOf n s.alloc) (List.range n)
    (fun i hi => T.row (fun i => (z.cat i).2) (List.mem_range.mp hi)) s hs
  have hr : ∀ x : ℝ × Alg G H Θ, ∃ t : Alg G H Θ, x ∈ l → (do
      let t ← sampleUniqueValues E true z.uv x.2
      updateHypers E z.hyp t) = .ok t ∧ Good E n h0 t ∧ t.alloc = x.2.alloc := by
    intro x
    by_cases hx : x ∈ l
    · obtain ⟨t, ht⟩ := T.rest z (h1 x hx).2
      exact ⟨t, fun _ => ht⟩
    · exact ⟨x.2, fun h => absurd h hx⟩
  choose t ht using hr
  refine ⟨l.map fun x => (x.1, t x), ?_, ?_, fun τ => ?_⟩
  · unfold neal3Iter
    rw [e, ok_bind]
    refine Gibbs.mapM_ok _ _ _ fun x hx => ?_
    have := (ht x hx).1
    cases e1 : sampleUniqueValues E true z.uv x.2 with
    | error f => rw [e1] at this; cases this
    | ok u =>
      rw [e1, ok_bind] at this
      rw [ok_bind, this, ok_bind]
  · intro x hx
    obtain ⟨y, hy, rfl⟩ := List.mem_map.mp hx
    exact ⟨(h1 y hy).1, (ht y hy).2.1⟩
  · rw [transition, ← h2 τ]
    unfold Law.prob
    rw [List.map_map]
    congr 1
    refine List.map_congr_left fun x hx => ?_
    simp only [Function.comp, (ht x hx).2.2]

theorem Target.chain (T : Target E S n h0 π) (zs : List Noise) :
    HasLaw (Good E n h0) (fun s => partOf n s.alloc) (transition n π ^ zs.length)
      (neal3Chain E S n zs) := by
  induction zs with
  | nil =>
    intro s hs
    refine ⟨[(1, s)], rfl, by simp [hs], fun y => ?_⟩
    simp [Law.prob, Matrix.one_apply]
  | cons z zs ih =>
    intro s hs
    obtain ⟨l, e, hg, hp⟩ := T.iter z s hs
    obtain ⟨m, e2, hg2, hp2⟩ := andThen_law ih hg
    refine ⟨m, by rw [neal3Chain, e, ok_bind, e2], hg2, fun y => ?_⟩
    rw [hp2, List.length_cons, pow_succ', Matrix.mul_apply]
    exact Finset.sum_congr rfl fun z _ => by rw [hp]

theorem Target.stochastic (T : Target E S n h0 π) : Stochastic (transition n π) :=
  Stochastic.prod fun P hP => by
    obtain ⟨i, -, rfl⟩ := List.mem_map.mp hP
    exact gibbsK_stochastic T.weight_pos i

theorem Target.invariant (T : Target E S n h0 π) : Invariant (weight π) (transition n π) :=
  Invariant.prod fun P hP => by
    obtain ⟨i, -, rfl⟩ := List.mem_map.mp hP
    exact gibbsK_invariant T.weight_pos i

instance : Nonempty (Setoid (Fin n)) := ⟨⊥⟩

/-- Posterior probability of a set of partitions. -/
noncomputable def postProb (n : ℕ) (π : List ℕ → ℝ) (A : Finset (Setoid (Fin n))) : ℝ :=
  (∑ σ ∈ A, π (labelsOf σ)) / ∑ σ : Setoid (Fin n), π (labelsOf σ)

theorem Target.converges (T : Target E S n h0 π) :
    ∃ δ : ℝ, 0 < δ ∧ δ ≤ 1 ∧ ∀ s, Good E n h0 s → ∀ zs : List Noise,
      ∃ l, neal3Chain E S n zs s = .ok l ∧ (∀ x ∈ l, 0 ≤ x.1) ∧ ∀ A : Finset (Setoid (Fin n)),
        |l.prob (fun t => partOf n t.alloc ∈ A) - postProb n π A| ≤ (1 - δ) ^ zs.length := by
  obtain ⟨q, hq, q0, q1⟩ := lower_bound T.stochastic fun σ τ => sweep_pos T.weight_pos σ τ
  refine ⟨∑ y, q y, q0, q1, fun s hs zs => ?_⟩
  obtain ⟨l, e, h1, h2⟩ := T.chain zs s hs
  refine ⟨l, e, fun x hx => (h1 x hx).1, fun A => ?_⟩
  have hZ : 0 < ∑ σ : Setoid (Fin n), weight π σ :=
    Finset.sum_pos (fun σ _ => T.weight_pos σ) Finset.univ_nonempty
  have hinv : Invariant (fun σ : Setoid (Fin n) => weight π σ / ∑ ρ : Setoid (Fin n), weight π ρ)
      (transition n π) := by
    intro τ
    simp only [div_mul_eq_mul_div]
    rw [← Finset.sum_div, T.invariant τ]
  have := Chain.converges T.stochastic hq (w := fun σ => weight π σ / ∑ ρ : Setoid (Fin n), weight π ρ)
    (fun σ => div_nonneg (T.weight_pos σ).le hZ.le)
    (by rw [← Finset.sum_div]; exact div_self hZ.ne') hinv (fun σ => if σ ∈ A then 1 else 0) (C := 1)
    (fun x y => by split <;> split <;> norm_num) zs.length (partOf n s.alloc)
  rw [mul_one] at this
  have e1 : l.prob (fun t => partOf n t.alloc ∈ A) =
      ∑ y, (transition n π ^ zs.length) (partOf n s.alloc) y * if y ∈ A then 1 else 0 := by
    rw [prob_mem]
    simp only [h2, mul_ite, mul_one, mul_zero]
    rw [Finset.sum_ite_mem, Finset.univ_inter]
  have e2 : postProb n π A = ∑ y, weight π y / (∑ ρ : Setoid (Fin n), weight π ρ) * if y ∈ A then 1 else 0 := by
    simp only [mul_ite, mul_one, mul_zero]
    rw [Finset.sum_ite_mem, Finset.univ_inter, ← Finset.sum_div]
    rfl
  rw [e1, e2]
  exact this

end chain

end Bayesmix.Chain
