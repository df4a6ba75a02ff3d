import Verif.Algo.PartKernel
import Verif.Algo.PropsGibbsNeal2
import Verif.Algo.BlockedRun

/-!
# States of the samplers with unique values, seen through their partition

A state is described by the partition of the rows, the value of each row's cluster and the set of rows
whose cluster has saved hyperparameters.
-/

namespace Bayesmix.Chain
open Bayesmix Cond Gibbs SplitMerge Slice MeasureTheory ENNReal

variable {G H Θ : Type} [AddCommGroup G] {n : ℕ}

/-- The hyperparameters that `SemiConjugateUpdater::get_posterior_hypers`
(`src/hierarchies/updaters/semi_conjugate_updater.h` 39-48) returns without computing them. -/
def staleOf (o : Hier G H Θ) : Option H := if o.saved then o.ph else none

/-- Value and saved hyperparameters of the cluster of row `j`. -/
def infoOf (s : Alg G H Θ) (j : ℕ) : Option (Θ × Option H) :=
  (s.alloc[j]?).bind fun c => (s.clus[c]?).map fun o => (o.state, staleOf o)

/-- The rows that share a cluster with a row of `A` other than `i`. -/
noncomputable def mark (i : Fin n) (τ : Setoid (Fin n)) (A : Finset (Fin n)) : Finset (Fin n) :=
  open Classical in Finset.univ.filter fun j => ∃ k ∈ A, k ≠ i ∧ τ k j

theorem mem_mark {i : Fin n} {τ : Setoid (Fin n)} {A : Finset (Fin n)} {j : Fin n} :
    j ∈ mark i τ A ↔ ∃ k ∈ A, k ≠ i ∧ τ k j := by
  classical
  simp [mark]

theorem mark_empty (i : Fin n) (τ : Setoid (Fin n)) : mark i τ ∅ = ∅ := by
  ext j
  simp [mem_mark]

/-- The state `s` has hyperparameters `h`, partition `σ`, values `x`, and the clusters of the rows in
`A`, no others, have saved hyperparameters, namely `h`. -/
structure Seen (E : Env G H Θ) (h : H) (σ : Setoid (Fin n)) (A : Finset (Fin n)) (x : Fin n → Θ)
    (s : Alg G H Θ) : Prop where
  ok : MarginalOk E.contrib n s
  hyp : s.hyp = h
  part : partOf n s.alloc = σ
  info : ∀ j : Fin n, infoOf s j = some (x j, if j ∈ A then some h else none)

theorem Seen.withDraw {E : Env G H Θ} {h : H} {σ : Setoid (Fin n)} {A : Finset (Fin n)}
    {x : Fin n → Θ} {s : Alg G H Θ} (draw : H × ℕ → Θ) :
    Seen (withDraw E draw) h σ A x s ↔ Seen E h σ A x s :=
  ⟨fun a => ⟨a.ok, a.hyp, a.part, a.info⟩, fun a => ⟨a.ok, a.hyp, a.part, a.info⟩⟩

theorem infoOf_together {s : Alg G H Θ} {j k : ℕ} (h : together s.alloc j k) :
    infoOf s j = infoOf s k := by
  unfold infoOf
  rw [show s.alloc[j]? = s.alloc[k]? from h]

theorem valueOf_info {s : Alg G H Θ} {j : ℕ} : valueOf s j = (infoOf s j).map Prod.fst := by
  unfold valueOf infoOf
  cases s.alloc[j]? with
  | none => rfl
  | some c =>
    simp only [Option.bind_some, Option.map_map]
    rfl

/-- Detaching a row changes nothing for the others. -/
theorem detach_info {E : Env G H Θ} {A : Finset ℕ} {s s1 : Alg G H Θ} {i : ℕ}
    {o : Hier G H Θ} {b : Bool} (hc : ConsistentOn E.contrib A s)
    (hi : i ∈ A) (hd : detach E false s i = .ok (s1, o, b)) :
    ∀ j ∈ A.erase i, infoOf s1 j = infoOf s j := by
  obtain ⟨-, -, hal⟩ := detach_values (canSave_false E) hc hi hd
  obtain ⟨c, hl, hlt⟩ := hc.labelled i hi
  obtain ⟨p, ho⟩ : ∃ p, s.clus[c]? = some p := ⟨_, List.getElem?_eq_getElem hlt⟩
  have hip : i ∈ p.idx := by rw [hc.members c p ho]; exact mem_membersIn.mpr ⟨hi, hl⟩
  unfold detach at hd
  by_cases h1 : p.card ≤ 1
  · simp only [vget_ok hl, vget_ok ho, ok_bind, h1, if_true, removeSingleton_eq hlt] at hd
    cases hd
    intro j hj
    obtain ⟨d, hd, hdl⟩ := hc.labelled j (Finset.mem_of_mem_erase hj)
    have hne : d ≠ c := by
      rintro rfl
      exact hal.mp rfl j hj (by rw [together, hl, hd])
    simp [infoOf, hd, getElem?_eraseIdx_shift _ hne]
  · simp only [vget_ok hl, vget_ok ho, ok_bind, h1, if_false,
      Hier.removeDatum_eq hip (canSave_false E)] at hd
    cases hd
    intro j hj
    obtain ⟨d, hd, hdl⟩ := hc.labelled j (Finset.mem_of_mem_erase hj)
    simp only [infoOf, hd, Option.bind_some, List.getElem?_set]
    by_cases hcd : c = d
    · subst hcd
      rw [if_pos rfl, if_pos hlt, ho]
      simp [Hier.removed, staleOf]
    · simp [hcd]

/-- Values and marks after a move of row `i`. -/
theorem mark_info {h : H} {A : Finset (Fin n)} {x : Fin n → Θ} {s' : Alg G H Θ} {i : Fin n}
    (hoth : ∀ j, j ≠ i → infoOf s' j.val = some (x j, if j ∈ A then some h else none))
    {v : Θ} {st : Option H} (hi : infoOf s' i.val = some (v, st))
    (hst : (∀ j : Fin n, j ≠ i → ¬ together s'.alloc i j) → st = none) (j : Fin n) :
    infoOf s' j.val = some (Function.update x i v j,
      if j ∈ mark i (partOf n s'.alloc) A then some h else none) := by
  have hsame : ∀ j k : Fin n, j ≠ i → k ≠ i → partOf n s'.alloc k j → (k ∈ A ↔ j ∈ A) := by
    intro j k hj hk hkj
    have e := infoOf_together ((partOf_rel s'.alloc k j).mp hkj)
    rw [hoth j hj, hoth k hk] at e
    have e2 := (Prod.mk.inj (Option.some.inj e)).2
    by_cases h1 : k ∈ A <;> by_cases h2 : j ∈ A <;> simp [h1, h2] at e2 ⊢
  by_cases hj : j = i
  · subst hj
    rw [hi, Function.update_self]
    congr 2
    by_cases hm : ∃ k : Fin n, k ≠ j ∧ together s'.alloc j k
    · obtain ⟨k, hk, hkt⟩ := hm
      have e := infoOf_together hkt
      rw [hi, hoth k hk] at e
      rw [(Prod.mk.inj (Option.some.inj e)).2]
      have : k ∈ A ↔ j ∈ mark j (partOf n s'.alloc) A := by
        rw [mem_mark]
        constructor
        · exact fun h => ⟨k, h, hk, hkt.symm⟩
        · rintro ⟨k', hk', hne, hr⟩
          exact (hsame k k' hk hne (((partOf_rel s'.alloc k' j).mp hr).trans hkt)).mp hk'
      by_cases h1 : k ∈ A
      · rw [if_pos h1, if_pos (this.mp h1)]
      · rw [if_neg h1, if_neg fun h => h1 (this.mpr h)]
    · push Not at hm
      rw [hst hm, if_neg]
      rw [mem_mark]
      rintro ⟨k, -, hne, hr⟩
      exact hm k hne ((partOf_rel s'.alloc k j).mp hr).symm
  · rw [hoth j hj, Function.update_of_ne hj]
    have : j ∈ A ↔ j ∈ mark i (partOf n s'.alloc) A := by
      rw [mem_mark]
      constructor
      · exact fun h => ⟨j, h, hj, Setoid.refl' _ j⟩
      · rintro ⟨k, hk, hne, hr⟩
        exact (hsame j k hj hne hr).mp hk
    by_cases h1 : j ∈ A
    · rw [if_pos h1, if_pos (this.mp h1)]
    · rw [if_neg h1, if_neg fun h => h1 (this.mpr h)]

/-! ### The places of a row -/

section places

variable {s1 : Alg G H Θ} {i : Fin n} {σ : Setoid (Fin n)} {x : Fin n → Θ}

omit [AddCommGroup G] in
theorem set_rel {K : ℕ} (hR : Reduced n i K s1.alloc) (c : ℕ) {j : Fin n} (hj : j ≠ i) :
    partOf n (s1.alloc.set i c) i j ↔ s1.alloc[j.val]? = some c := by
  have hl : i.val < s1.alloc.length := by rw [hR.len]; exact i.isLt
  rw [partOf_rel, together, List.getElem?_set_self hl,
    List.getElem?_set_ne (fun e => hj (Fin.ext e.symm))]
  exact eq_comm

omit [AddCommGroup G] in
theorem set_off (al : List ℕ) (i : Fin n) (c : ℕ) : SameOff i.val (partOf n al) (partOf n (al.set i c)) := by
  intro a b ha hb
  rw [partOf_rel, partOf_rel, together_set ha hb]

omit [AddCommGroup G] in
theorem place_old (hR : Reduced n i s1.clus.length s1.alloc)
    (hoff : SameOff i.val σ (partOf n s1.alloc)) {c : ℕ} (hc : c < s1.clus.length) :
    SameOff i.val σ (partOf n (s1.alloc.set i c)) ∧ partOf n (s1.alloc.set i c) ≠ alone i σ := by
  refine ⟨hoff.trans (set_off _ _ _), fun h => ?_⟩
  obtain ⟨j, hj, hji, e⟩ := hR.used c hc
  have hji' : (⟨j, hj⟩ : Fin n) ≠ i := fun e => hji (by rw [← e])
  have h1 := (set_rel hR c hji').mpr e
  rw [h, alone_rel] at h1
  rcases h1 with h1 | h1
  · exact hji' h1.symm
  · exact h1.1 rfl

omit [AddCommGroup G] in
theorem place_new (hR : Reduced n i s1.clus.length s1.alloc)
    (hoff : SameOff i.val σ (partOf n s1.alloc)) :
    partOf n (s1.alloc.set i s1.clus.length) = alone i σ := by
  rw [alone_congr (hoff.trans (set_off s1.alloc i s1.clus.length))]
  refine Setoid.ext fun a b => ?_
  rw [alone_rel]
  have key : ∀ j : Fin n, j ≠ i → ¬ partOf n (s1.alloc.set i s1.clus.length) i j := by
    intro j hj h
    rw [set_rel hR _ hj] at h
    obtain ⟨d, hd, e⟩ := hR.lab j j.isLt fun e => hj (Fin.ext e)
    rw [h] at e
    have := Option.some.inj e
    omega
  constructor
  · intro h
    by_cases ha : a = i
    · subst ha
      by_cases hb : b = a
      · exact Or.inl hb.symm
      · exact absurd h (key b hb)
    · by_cases hb : b = i
      · subst hb
        exact absurd (Setoid.symm' _ h) (key a ha)
      · exact Or.inr ⟨ha, hb, h⟩
  · rintro (rfl | ⟨-, -, h⟩)
    · exact Setoid.refl' _ a
    · exact h

omit [AddCommGroup G] in
theorem place_inj {K : ℕ} (hR : Reduced n i K s1.alloc) {c d : ℕ} (hc : c < K)
    (h : partOf n (s1.alloc.set i c) = partOf n (s1.alloc.set i d)) : c = d := by
  obtain ⟨j, hj, hji, e⟩ := hR.used c hc
  have hji' : (⟨j, hj⟩ : Fin n) ≠ i := fun e => hji (by rw [← e])
  have h1 := (set_rel hR c hji').mpr e
  rw [h, set_rel hR d hji', e] at h1
  exact Option.some.inj h1

omit [AddCommGroup G] in
theorem place_surj (hR : Reduced n i s1.clus.length s1.alloc)
    (hoff : SameOff i.val σ (partOf n s1.alloc)) {τ : Setoid (Fin n)} (h1 : SameOff i.val σ τ)
    (h2 : τ ≠ alone i σ) : ∃ c < s1.clus.length, partOf n (s1.alloc.set i c) = τ := by
  obtain ⟨j, hj, hij⟩ := exists_mate h1 h2
  obtain ⟨c, hc, e⟩ := hR.lab j j.isLt fun e => hj (Fin.ext e)
  refine ⟨c, hc, ?_⟩
  have hoffc : SameOff i.val (partOf n (s1.alloc.set i c)) τ :=
    ((set_off s1.alloc i c).symm.trans hoff.symm).trans h1
  have hic : partOf n (s1.alloc.set i c) i j := (set_rel hR c hj).mpr e
  have key : ∀ b : Fin n, b ≠ i → (partOf n (s1.alloc.set i c) i b ↔ τ i b) := by
    intro b hb
    have hjb := hoffc j b (fun e => hj (Fin.ext e)) fun e => hb (Fin.ext e)
    exact ⟨fun h => τ.trans hij (hjb.mp (Setoid.trans' _ (Setoid.symm' _ hic) h)),
      fun h => Setoid.trans' _ hic (hjb.mpr (τ.trans (τ.symm hij) h))⟩
  refine Setoid.ext fun a b => ?_
  by_cases ha : a = i
  · subst ha
    by_cases hb : b = a
    · subst hb
      exact ⟨fun _ => τ.refl b, fun _ => Setoid.refl' _ b⟩
    · exact key b hb
  · by_cases hb : b = i
    · subst hb
      exact ⟨fun h => τ.symm ((key a ha).mp (Setoid.symm' _ h)),
        fun h => Setoid.symm' _ ((key a ha).mpr (τ.symm h))⟩
    · exact hoffc a b (fun e => ha (Fin.ext e)) fun e => hb (Fin.ext e)

/-- `Φ` at a place of row `i`. -/
def atPlace (Φ : Setoid (Fin n) → (Fin n → Θ) → ℝ≥0∞) (x : Fin n → Θ) (s1 : Alg G H Θ) (i : Fin n) :
    Place Θ → ℝ≥0∞
  | .inl c => Φ (partOf n (s1.alloc.set i c)) (Function.update x i (((valuesOf s1)[c]?).getD (x i)))
  | .inr t => Φ (partOf n (s1.alloc.set i s1.clus.length)) (Function.update x i t)

omit [AddCommGroup G] in
theorem place_value (hR : Reduced n i s1.clus.length s1.alloc)
    (hoff : SameOff i.val σ (partOf n s1.alloc))
    (hval : ∀ j : Fin n, j ≠ i → ((s1.alloc[j.val]?).bind fun c => (valuesOf s1)[c]?) = some (x j))
    {c : ℕ} (hc : c < s1.clus.length) :
    valueIn (partOf n (s1.alloc.set i c)) i x = ((valuesOf s1)[c]?).getD (x i) := by
  obtain ⟨h1, h2⟩ := place_old hR hoff hc
  have hm := exists_mate h1 h2
  rw [valueIn, dif_pos hm]
  obtain ⟨m1, m2⟩ := hm.choose_spec
  have := hval _ m1
  rw [(set_rel hR c m1).mp m2, Option.bind_some] at this
  rw [this, Option.getD_some]

omit [AddCommGroup G] in
theorem joint_at {π : List ℕ → ℝ} {like : Θ → ℕ → ℝ}
    (hπ : ∀ al al' : List ℕ, al.length = n → al'.length = n → SamePart n al al' → π al = π al')
    (hpos : ∀ al : List ℕ, al.length = n → 0 < π al)
    {al : List ℕ} {vals : List Θ} (hlen : al.length = n) {v : Θ}
    (hi : ((al[i.val]?).bind fun c => vals[c]?) = some v)
    (hval : ∀ j : Fin n, j ≠ i → ((al[j.val]?).bind fun c => vals[c]?) = some (x j)) :
    ENNReal.ofReal (joint π like n al vals) = likOn like (Finset.univ.erase i) x *
      (ENNReal.ofReal (weight π (partOf n al)) * ENNReal.ofReal (Real.exp (like v i))) := by
  have hw : weight π (partOf n al) = π al :=
    hπ _ _ (labelsOf_length _) hlen (by rw [← partOf_eq, partOf_labelsOf])
  have hprod : ∏ y ∈ Finset.range n, rowLik like al vals y =
      (∏ j ∈ Finset.univ.erase i, Real.exp (like (x j) j)) * Real.exp (like v i) := by
    rw [Finset.prod_range, ← Finset.prod_erase_mul _ _ (Finset.mem_univ i)]
    congr 1
    · refine Finset.prod_congr rfl fun j hj => ?_
      rw [rowLik, hval j (Finset.ne_of_mem_erase hj)]
    · rw [rowLik, hi]
  have h0 : 0 ≤ ∏ j ∈ Finset.univ.erase i, Real.exp (like (x j) j) :=
    Finset.prod_nonneg fun _ _ => (Real.exp_pos _).le
  rw [joint, hprod, hw, likOn, ← ENNReal.ofReal_mul (hpos al hlen).le, ← ENNReal.ofReal_mul h0]
  congr 1
  ring

omit [AddCommGroup G] in
/-- The conditional distribution of the place of row `i` in terms of partitions. -/
theorem target_rowFlow [MeasurableSpace Θ] {π : List ℕ → ℝ} {like : Θ → ℕ → ℝ} {ν : Measure Θ}
    (hlike : ∀ i, Measurable fun θ => like θ i)
    (hπ : ∀ al al' : List ℕ, al.length = n → al'.length = n → SamePart n al al' → π al = π al')
    (hpos : ∀ al : List ℕ, al.length = n → 0 < π al)
    (hR : Reduced n i s1.clus.length s1.alloc) (hoff : SameOff i.val σ (partOf n s1.alloc))
    (hval : ∀ j : Fin n, j ≠ i → ((s1.alloc[j.val]?).bind fun c => (valuesOf s1)[c]?) = some (x j))
    {Φ : Setoid (Fin n) → (Fin n → Θ) → ℝ≥0∞} (hΦ : MeasP Φ) :
    target π like n s1 i ν (atPlace Φ x s1 i) =
      likOn like (Finset.univ.erase i) x * rowFlow (weight π) like ν i Φ σ x := by
  classical
  have hvl : (valuesOf s1).length = s1.clus.length := by simp [valuesOf]
  have hl : i.val < s1.alloc.length := by rw [hR.len]; exact i.isLt
  have hlen : ∀ c, (s1.alloc.set i.val c).length = n := fun c => by rw [List.length_set, hR.len]
  have hset : ∀ c (vals : List Θ) (j : Fin n), j ≠ i →
      (((s1.alloc.set i.val c)[j.val]?).bind fun c => vals[c]?) =
        (s1.alloc[j.val]?).bind fun c => vals[c]? := by
    intro c vals j hj
    rw [List.getElem?_set_ne (fun e => hj (Fin.ext e.symm))]
  rw [rowFlow_on (S := (Finset.range s1.clus.length).image fun c => partOf n (s1.alloc.set i c))]
  swap
  · intro τ
    rw [Finset.mem_image]
    constructor
    · rintro ⟨c, hc, rfl⟩
      exact place_old hR hoff (Finset.mem_range.mp hc)
    · rintro ⟨h1, h2⟩
      obtain ⟨c, hc, e⟩ := place_surj hR hoff h1 h2
      exact ⟨c, Finset.mem_range.mpr hc, e⟩
  rw [Finset.sum_image fun c hc d _ h => place_inj hR (Finset.mem_range.mp hc) h, mul_add,
    Finset.mul_sum, target]
  congr 1
  · refine Finset.sum_congr rfl fun c hc => ?_
    rw [Finset.mem_range] at hc
    rw [place_value hR hoff hval hc]
    have hget : (valuesOf s1)[c]? = some (((valuesOf s1)[c]?).getD (x i)) := by
      rw [List.getElem?_eq_getElem (by omega), Option.getD_some]
    simp only [labelsAt, valuesAt, atPlace]
    rw [joint_at hπ hpos (hlen c) (i := i) (x := x) (v := ((valuesOf s1)[c]?).getD (x i))
      (by rw [List.getElem?_set_self hl, Option.bind_some, ← hget])
      fun j hj => by rw [hset c _ j hj, hval j hj]]
    ring
  · rw [← place_new hR hoff]
    have hm : Measurable fun t : Θ => ENNReal.ofReal (Real.exp (like t i)) *
        Φ (partOf n (s1.alloc.set i s1.clus.length)) (Function.update x i t) := by
      refine (measurable_expLike hlike i).mul ((hΦ _).comp ?_)
      refine measurable_pi_iff.mpr fun j => ?_
      by_cases hj : j = i
      · subst hj
        simpa using measurable_id'
      · simp only [Function.update_of_ne hj]
        exact measurable_const
    rw [← lintegral_const_mul _ hm, ← lintegral_const_mul _ (hm.const_mul _)]
    refine lintegral_congr fun t => ?_
    simp only [labelsAt, valuesAt, atPlace]
    rw [joint_at hπ hpos (hlen s1.clus.length) (i := i) (x := x) (v := t)
      (by
        rw [List.getElem?_set_self hl, Option.bind_some, ← hvl, List.getElem?_append_right le_rfl]
        simp)
      fun j hj => by
        rw [hset _ _ j hj, ← hval j hj]
        obtain ⟨d, hd, e⟩ := hR.lab j j.isLt fun e => hj (Fin.ext e)
        rw [e, Option.bind_some, Option.bind_some, List.getElem?_append_left (by omega)]]
    ring

end places

end Bayesmix.Chain
