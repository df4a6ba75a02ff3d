import Verif.Algo.GibbsVals
import Verif.Algo.GibbsCore
import Verif.Algo.AuxKernel
import Verif.Alloc.PropsMoves

/-! States of a sampler with unique values, seen from the row that is updated. -/

namespace Bayesmix.Gibbs
open Bayesmix.SplitMerge MeasureTheory ENNReal

variable {G H Θ : Type}

/-! ### The joint density -/

/-- Likelihood of row `x`, given labels and unique values. -/
noncomputable def rowLik (like : Θ → ℕ → ℝ) (al : List ℕ) (vals : List Θ) (x : ℕ) : ℝ :=
  match (al[x]?).bind fun c => vals[c]? with
  | some θ => Real.exp (like θ x)
  | none => 0

/-- Joint density of labels, unique values and data: probability `π` of the labels times the
likelihoods of the `n` rows. The density is with respect to the prior of the unique values, one
factor for each cluster. -/
noncomputable def joint (π : List ℕ → ℝ) (like : Θ → ℕ → ℝ) (n : ℕ) (al : List ℕ)
    (vals : List Θ) : ℝ :=
  π al * ∏ x ∈ Finset.range n, rowLik like al vals x

/-- The unique values of a state. -/
def valuesOf (s : Alg G H Θ) : List Θ := s.clus.map fun o => o.state

/-- A place for row `i`: an existing cluster of the other rows, or a cluster of its own with the
given value. -/
abbrev Place (Θ : Type) := ℕ ⊕ Θ

/-- Labels when row `i` is put to a place; `s1` is the state without row `i`. -/
def labelsAt (s1 : Alg G H Θ) (i : ℕ) : Place Θ → List ℕ
  | .inl c => s1.alloc.set i c
  | .inr _ => s1.alloc.set i s1.clus.length

/-- Unique values when row `i` is put to a place. -/
def valuesAt (s1 : Alg G H Θ) : Place Θ → List Θ
  | .inl _ => valuesOf s1
  | .inr θ => valuesOf s1 ++ [θ]

/-- Weight of product form, for the labels alone. -/
noncomputable def sizeW (B : ℕ → ℝ) (D : Finset ℕ) : ℝ := B D.card

theorem rowLik_set {like : Θ → ℕ → ℝ} {al : List ℕ} {vals vals' : List Θ} {i x c : ℕ} (h : x ≠ i)
    (hv : ∀ d, al[x]? = some d → vals'[d]? = vals[d]?) :
    rowLik like (al.set i c) vals' x = rowLik like al vals x := by
  unfold rowLik
  rw [List.getElem?_set_ne (Ne.symm h)]
  cases hx : al[x]? with
  | none => rfl
  | some d => rw [Option.bind_some, Option.bind_some, hv d hx]

theorem prod_split {n i : ℕ} (hi : i < n) (f : ℕ → ℝ) :
    ∏ x ∈ Finset.range n, f x = (∏ x ∈ (Finset.range n).erase i, f x) * f i :=
  (Finset.prod_erase_mul _ _ (Finset.mem_range.mpr hi)).symm

/-- The joint density as a function of the place of one row. -/
theorem joint_places {π : List ℕ → ℝ} {like : Θ → ℕ → ℝ} {n i : ℕ} {s1 : Alg G H Θ}
    (hR : Reduced n i s1.clus.length s1.alloc) (hcard : ∀ c o, s1.clus[c]? = some o →
      o.card = ((others n i s1.alloc c).card : ℤ))
    {S : Scores H} {κ : ℝ} {A B : ℕ → ℝ} (hκ : 0 < κ) (hAp : 0 < A s1.clus.length)
    (hB0 : ∀ c, 0 < B c)
    (hπ : ∀ al : List ℕ, al.length = n → π al = κ * prodPost A (sizeW B) al)
    (hA : A (s1.clus.length + 1) * B 1 =
      A s1.clus.length * Real.exp (S.fresh (n - 1) s1.clus.length))
    (hB : ∀ c : ℕ, 1 ≤ c → B (c + 1) = B c * Real.exp (S.exist (n - 1) s1.clus.length c)) :
    ∃ b, 0 < b ∧
      (∀ c o, s1.clus[c]? = some o → joint π like n (labelsAt s1 i (.inl c))
        (valuesAt s1 (.inl c)) =
          b * Real.exp (S.exist (n - 1) s1.clus.length o.card + like o.state i)) ∧
      ∀ θ, joint π like n (labelsAt s1 i (.inr θ)) (valuesAt s1 (.inr θ)) =
        b * Real.exp (S.fresh (n - 1) s1.clus.length + like θ i) := by
  have hl : i < s1.alloc.length := by rw [hR.len]; exact hR.mem
  have hvl : (valuesOf s1).length = s1.clus.length := by simp [valuesOf]
  obtain ⟨R, hRdef⟩ : ∃ R, R = ∏ x ∈ (Finset.range n).erase i,
      rowLik like s1.alloc (valuesOf s1) x := ⟨_, rfl⟩
  have hRpos : 0 < R := by
    rw [hRdef]
    refine Finset.prod_pos fun x hx => ?_
    simp only [Finset.mem_erase, Finset.mem_range] at hx
    obtain ⟨d, hd, e⟩ := hR.lab x hx.2 hx.1
    unfold rowLik
    rw [e, Option.bind_some, List.getElem?_eq_getElem (by omega)]
    exact Real.exp_pos _
  have hW0 : ∀ D, sizeW B D ≠ 0 := fun D => (hB0 _).ne'
  refine ⟨κ * (A s1.clus.length * ∏ k ∈ Finset.range s1.clus.length,
    sizeW B (others n i s1.alloc k)) * R, ?_, ?_, ?_⟩
  · exact mul_pos (mul_pos hκ (mul_pos hAp (Finset.prod_pos fun k _ => hB0 _))) hRpos
  · intro c o ho
    have hc : c < s1.clus.length := (List.getElem?_eq_some_iff.mp ho).1
    have hne := hR.others_pos hc
    have hni : i ∉ others n i s1.alloc c := by simp [others, mem_membersIn]
    have e1 : ∏ x ∈ (Finset.range n).erase i, rowLik like (s1.alloc.set i c) (valuesOf s1) x = R := by
      rw [hRdef]
      exact Finset.prod_congr rfl fun x hx => rowLik_set (Finset.ne_of_mem_erase hx) (by simp)
    have e2 : rowLik like (s1.alloc.set i c) (valuesOf s1) i = Real.exp (like o.state i) := by
      unfold rowLik
      rw [List.getElem?_set_self hl, Option.bind_some]
      simp [valuesOf, ho]
    have e3 : sizeW B (insert i (others n i s1.alloc c)) / sizeW B (others n i s1.alloc c) =
        Real.exp (S.exist (n - 1) s1.clus.length o.card) := by
      rw [sizeW, sizeW, Finset.card_insert_of_notMem hni, hB _ (Finset.card_pos.mpr hne),
        hcard c o ho, mul_div_cancel_left₀ _ (hB0 _).ne']
    simp only [joint, labelsAt, valuesAt]
    rw [hπ _ (by simp [hR.len]), prodPost_existing A hW0 hR hc, prod_split hR.mem, e1, e2, e3,
      Real.exp_add]
    ring
  · intro θ
    have e1 : ∏ x ∈ (Finset.range n).erase i, rowLik like (s1.alloc.set i s1.clus.length)
        (valuesOf s1 ++ [θ]) x = R := by
      rw [hRdef]
      refine Finset.prod_congr rfl fun x hx => rowLik_set (Finset.ne_of_mem_erase hx) ?_
      simp only [Finset.mem_erase, Finset.mem_range] at hx
      intro d hd
      obtain ⟨d', hd', e⟩ := hR.lab x hx.2 hx.1
      rw [hd] at e
      cases e
      exact List.getElem?_append_left (by omega)
    have e2 : rowLik like (s1.alloc.set i s1.clus.length) (valuesOf s1 ++ [θ]) i =
        Real.exp (like θ i) := by
      unfold rowLik
      rw [List.getElem?_set_self hl, Option.bind_some, ← hvl,
        List.getElem?_append_right le_rfl]
      simp
    simp only [joint, labelsAt, valuesAt]
    rw [hπ _ (by simp [hR.len]), prodPost_new A _ hR, prod_split hR.mem, e1, e2, Real.exp_add,
      sizeW, Finset.card_singleton]
    linear_combination κ * (∏ k ∈ Finset.range s1.clus.length, sizeW B (others n i s1.alloc k)) *
      R * Real.exp (like θ i) * hA

/-- Labels and values up to renaming of the labels. -/
def SameState (n : ℕ) (al al' : List ℕ) (vals vals' : List Θ) : Prop :=
  SamePart n al al' ∧ ∀ x < n, ((al[x]?).bind fun c => vals[c]?) = (al'[x]?).bind fun c => vals'[c]?

theorem joint_congr {π : List ℕ → ℝ} {like : Θ → ℕ → ℝ} {n : ℕ} {al al' : List ℕ}
    {vals vals' : List Θ} (hπ : ∀ al al' : List ℕ, al.length = n → al'.length = n →
      SamePart n al al' → π al = π al') (h1 : al.length = n) (h2 : al'.length = n)
    (h : SameState n al al' vals vals') : joint π like n al vals = joint π like n al' vals' := by
  unfold joint
  rw [hπ al al' h1 h2 h.1]
  congr 1
  refine Finset.prod_congr rfl fun x hx => ?_
  unfold rowLik
  rw [h.2 x (Finset.mem_range.mp hx)]

/-! ### What the code does, in terms of places -/

variable [AddCommGroup G]

/-- The place row `i` has, when taking it out gives `o` and the flag `sing`. -/
def placeOf (s : Alg G H Θ) (i : ℕ) (o : Hier G H Θ) (sing : Bool) : Place Θ :=
  if sing then .inr o.state else .inl ((s.alloc[i]?).getD 0)

omit [AddCommGroup G] in
theorem valueOf_eq (s : Alg G H Θ) (x : ℕ) :
    valueOf s x = (s.alloc[x]?).bind fun c => (valuesOf s)[c]? := by
  simp [valueOf, valuesOf]

omit [AddCommGroup G] in
theorem set_same {α : Type} {l : List α} {k : ℕ} {a : α} (h : l[k]? = some a) : l.set k a = l := by
  apply List.ext_getElem?
  intro x
  by_cases hxk : x = k
  · subst hxk
    rw [List.getElem?_set_self (List.getElem?_eq_some_iff.mp h).1, h]
  · rw [List.getElem?_set_ne (Ne.symm hxk)]

/-- A state and its place. -/
theorem detach_place {E : Env G H Θ} {upd : Bool} {n : ℕ} {s : Alg G H Θ} {i : ℕ}
    (hcs : CanSave E upd) (hs : MarginalOk E.contrib n s) (hi : i < n) :
    ∃ s1 o, detach E upd s i = .ok (s1, o, decide (o.card ≤ 1)) ∧
      Reduced n i s1.clus.length s1.alloc ∧ s1.hyp = s.hyp ∧ CachesOk s1 ∧
      Detached E.contrib (Finset.range n) i s s1 ∧
      (∀ c p, s1.clus[c]? = some p → p.card = ((others n i s1.alloc c).card : ℤ)) ∧
      (∀ c, placeOf s i o (decide (o.card ≤ 1)) = .inl c → c < s1.clus.length) ∧
      SameState n s.alloc (labelsAt s1 i (placeOf s i o (decide (o.card ≤ 1))))
        (valuesOf s) (valuesAt s1 (placeOf s i o (decide (o.card ≤ 1)))) := by
  have hiA : i ∈ Finset.range n := Finset.mem_range.mpr hi
  obtain ⟨s1, c0, o, hdet, hd, hl, ho, hsing, hrem⟩ := detach_ok hcs hs.cons.on hiA
  obtain ⟨hv, hvi, hal⟩ := detach_values hcs hs.cons.on hiA hdet
  have hR := reduced_of hi hs.cons.len hd hs.noEmpty
  have hlen1 : i < s1.alloc.length := by rw [hR.len]; exact hi
  have hc0 : c0 < s.clus.length := (List.getElem?_eq_some_iff.mp ho).1
  have hvl : (valuesOf s1).length = s1.clus.length := by simp [valuesOf]
  -- the other rows keep their values
  have hoth : ∀ x < n, x ≠ i → ((s.alloc[x]?).bind fun c => (valuesOf s)[c]?) =
      (s1.alloc[x]?).bind fun c => (valuesOf s1)[c]? := by
    intro x hx hxi
    rw [← valueOf_eq, ← valueOf_eq, hv x (by simp [hx, hxi])]
  have hvi' : ((s.alloc[i]?).bind fun c => (valuesOf s)[c]?) = some o.state := by
    rw [← valueOf_eq, hvi]
  have hadd : ∀ x < n, x ≠ i → ∀ θ, ((s1.alloc[x]?).bind fun c => (valuesOf s1 ++ [θ])[c]?) =
      (s1.alloc[x]?).bind fun c => (valuesOf s1)[c]? := by
    intro x hx hxi θ
    obtain ⟨d, hd', e⟩ := hR.lab x hx hxi
    rw [e, Option.bind_some, Option.bind_some, List.getElem?_append_left (by omega)]
  have hco : ∀ x < n, ∀ y < n, x ≠ i → y ≠ i → (together s1.alloc x y ↔ together s.alloc x y) :=
    fun x hx y hy h1 h2 => hd.co x (by simp [h1, hx]) y (by simp [h2, hy])
  refine ⟨s1, o, hdet, hR, hd.hyp, caches_detach hs.caches ho hsing hrem, hd, ?_, ?_, ?_⟩
  · intro c p hp
    exact hd.cons.cards c p hp
  · intro c hc
    by_cases h : o.card ≤ 1
    · simp [placeOf, h] at hc
    · simp only [placeOf, h, decide_false, Bool.false_eq_true, if_false, hl, Option.getD_some,
        Sum.inl.injEq] at hc
      rw [hrem h, List.length_set, ← hc]
      exact hc0
  · by_cases h : o.card ≤ 1
    · have hp : placeOf s i o (decide (o.card ≤ 1)) = .inr o.state := by simp [placeOf, h]
      have halone : ∀ j < n, j ≠ i → ¬ together s.alloc i j := fun j hj hji =>
        hal.mp (by simp [h]) j (by simp [hj, hji])
      rw [hp]
      refine ⟨?_, ?_⟩
      · have hself : ∀ x < n, x ≠ i → ¬ together (s1.alloc.set i s1.clus.length) i x := by
          intro x hx hxi ht
          unfold together at ht
          rw [List.getElem?_set_self hlen1, List.getElem?_set_ne (Ne.symm hxi)] at ht
          obtain ⟨d, hd', e⟩ := hR.lab x hx hxi
          rw [e] at ht
          have := Option.some.inj ht
          omega
        intro x hx y hy
        change together _ x y ↔ together (s1.alloc.set i s1.clus.length) x y
        by_cases hxi : x = i
        · subst hxi
          by_cases hyi : y = x
          · subst hyi; simp [together]
          · exact ⟨fun t => absurd t (halone y hy hyi), fun t => absurd t (hself y hy hyi)⟩
        · by_cases hyi : y = i
          · subst hyi
            exact ⟨fun t => absurd t.symm (halone x hx hxi),
              fun t => absurd t.symm (hself x hx hxi)⟩
          · rw [together_set hxi hyi, hco x hx y hy hxi hyi]
      · intro x hx
        change _ = ((s1.alloc.set i s1.clus.length)[x]?).bind
          fun c => (valuesOf s1 ++ [o.state])[c]?
        by_cases hxi : x = i
        · subst hxi
          rw [hvi', List.getElem?_set_self hlen1, Option.bind_some, ← hvl,
            List.getElem?_append_right le_rfl]
          simp
        · rw [List.getElem?_set_ne (Ne.symm hxi), hadd x hx hxi, hoth x hx hxi]
    · have hp : placeOf s i o (decide (o.card ≤ 1)) = .inl c0 := by
        simp only [placeOf, h, decide_false, Bool.false_eq_true, if_false, hl, Option.getD_some]
      -- nothing but the object changed
      have halloc : s1.alloc = s.alloc := by
        have hio : i ∈ o.idx := by
          rw [hs.cons.on.members c0 o ho]; exact mem_membersIn.mpr ⟨hiA, hl⟩
        unfold detach at hdet
        simp only [vget_ok hl, vget_ok ho, ok_bind, h, if_false,
          Hier.removeDatum_eq hio hcs] at hdet
        have := Except.ok.inj hdet
        rw [Prod.mk.injEq] at this
        rw [← this.1]
      have hvals : valuesOf s1 = valuesOf s := by
        unfold valuesOf
        rw [hrem h, List.map_set]
        exact set_same (by simp [Hier.removed, ho])
      rw [hp]
      have hset : s1.alloc.set i c0 = s.alloc := by
        rw [halloc]; exact set_same hl
      simp only [labelsAt, valuesAt, hset, hvals]
      exact ⟨fun _ _ _ _ => Iff.rfl, fun _ _ => rfl⟩

/-- Taking row `i` out again, after it was put to a place of `s1`: the clusters are those of `s1`. -/
structure BackTo (E : Env G H Θ) (i : ℕ) (s1 s' : Alg G H Θ) (pl : Place Θ) : Prop where
  back : ∃ s1' o', detach E false s' i = .ok (s1', o', pl.isRight) ∧ s1'.clus = s1.clus ∧
    s1'.hyp = s1.hyp ∧ (∀ x, x ≠ i → s1'.alloc[x]? = s1.alloc[x]?) ∧
    s1'.alloc.length = s1.alloc.length ∧ placeOf s' i o' pl.isRight = pl

theorem backTo_existing {E : Env G H Θ} {n i c : ℕ} {s1 s' : Alg G H Θ} {o : Hier G H Θ}
    (hR : Reduced n i s1.clus.length s1.alloc)
    (hcard : ∀ c p, s1.clus[c]? = some p → p.card = ((others n i s1.alloc c).card : ℤ))
    (hmem : ∀ c p, s1.clus[c]? = some p → p.idx = others n i s1.alloc c)
    (ho : s1.clus[c]? = some o) (ha : s'.alloc = s1.alloc.set i c) (hh : s'.hyp = s1.hyp)
    (hcl : s'.clus = s1.clus.set c (o.added E s1.hyp false i)) :
    BackTo E i s1 s' (.inl c) := by
  have hc : c < s1.clus.length := (List.getElem?_eq_some_iff.mp ho).1
  have hl : i < s1.alloc.length := by rw [hR.len]; exact hR.mem
  have h1 : s'.alloc[i]? = some c := by rw [ha]; exact List.getElem?_set_self hl
  have h2 : s'.clus[c]? = some (o.added E s1.hyp false i) := by
    rw [hcl]; exact List.getElem?_set_self hc
  have hpos : 1 ≤ o.card := by
    rw [hcard c o ho]
    have := Finset.card_pos.mpr (hR.others_pos hc)
    omega
  have hni : i ∉ o.idx := by
    rw [hmem c o ho]; simp [others, mem_membersIn]
  have hgt : ¬ (o.added E s1.hyp false i).card ≤ 1 := by
    simp only [Hier.added]; omega
  have hin : i ∈ (o.added E s1.hyp false i).idx := by simp [Hier.added]
  have hrem : (o.added E s1.hyp false i).removed E s'.hyp false i = o := by
    simp [Hier.added, Hier.removed, Finset.erase_insert hni]
  refine ⟨⟨{ s' with clus := s'.clus.set c o }, o.added E s1.hyp false i, ?_, ?_, hh, ?_, ?_, ?_⟩⟩
  · unfold detach
    rw [vget_ok h1, ok_bind, vget_ok h2, ok_bind, if_neg hgt,
      Hier.removeDatum_eq hin (canSave_false E), ok_bind, hrem]
    rfl
  · simp only [hcl, List.set_set]
    exact set_same ho
  · intro x hx
    simp only [ha]
    exact List.getElem?_set_ne (Ne.symm hx)
  · simp [ha]
  · simp [placeOf, h1]

theorem backTo_new {E : Env G H Θ} {n i : ℕ} {s1 s' : Alg G H Θ} {o : Hier G H Θ}
    (hR : Reduced n i s1.clus.length s1.alloc) (ho : o.card = 1)
    (ha : s'.alloc = s1.alloc.set i s1.clus.length) (hh : s'.hyp = s1.hyp)
    (hcl : s'.clus = s1.clus ++ [o]) : BackTo E i s1 s' (.inr o.state) := by
  have hl : i < s1.alloc.length := by rw [hR.len]; exact hR.mem
  have h1 : s'.alloc[i]? = some s1.clus.length := by rw [ha]; exact List.getElem?_set_self hl
  have h2 : s'.clus[s1.clus.length]? = some o := by
    rw [hcl, List.getElem?_append_right le_rfl]; simp
  have hlt : s1.clus.length < s'.clus.length := by rw [hcl]; simp
  obtain ⟨t, ht⟩ : ∃ t, t = { s' with
      alloc := s'.alloc.map (shiftDown s1.clus.length)
      clus := s'.clus.eraseIdx s1.clus.length } := ⟨_, rfl⟩
  refine ⟨⟨t, o, ?_, ?_, ?_, ?_, ?_, ?_⟩⟩ <;> try rw [ht]
  · unfold detach
    rw [vget_ok h1, ok_bind, vget_ok h2, ok_bind, if_pos (by omega), removeSingleton_eq hlt, ok_bind]
    rfl
  · simp only [hcl]
    rw [List.eraseIdx_append_of_length_le le_rfl]
    simp
  · exact hh
  · intro x hx
    simp only [ha, List.getElem?_map, List.getElem?_set_ne (Ne.symm hx)]
    cases hxx : s1.alloc[x]? with
    | none => rfl
    | some d =>
      have hxn : x < n := by
        have := (List.getElem?_eq_some_iff.mp hxx).1
        rwa [hR.len] at this
      obtain ⟨d', hd', e⟩ := hR.lab x hxn hx
      rw [hxx] at e
      cases e
      simp [shiftDown, Nat.le_of_lt hd']
  · simp [ha]
  · simp [placeOf]

/-- The value that Neal8 offers as `j`-th auxiliary block. -/
def offered (E : Env G H Θ) (h : H) (o : Hier G H Θ) (sing : Bool) (ra : ℕ → ℕ) (j : ℕ) : Θ :=
  if sing = true ∧ j = 0 then o.state else E.sample h (ra j)

/-- The place that choice `k` leads to. -/
def placeOfChoice (K : ℕ) (val : ℕ → Θ) (k : ℕ) : Place Θ :=
  if k < K then .inl k else .inr (val (k - K))

/-- The state `s'` is `s1` with row `i` at the given place. -/
structure PutAt (E : Env G H Θ) (i : ℕ) (s1 s' : Alg G H Θ) (pl : Place Θ) : Prop where
  labels : s'.alloc = labelsAt s1 i pl
  values : valuesOf s' = valuesAt s1 pl
  hyp : s'.hyp = s1.hyp
  back : BackTo E i s1 s' pl

theorem putAt_existing {E : Env G H Θ} {n i c : ℕ} {s1 s' : Alg G H Θ} {o : Hier G H Θ}
    (hR : Reduced n i s1.clus.length s1.alloc)
    (hc1 : ConsistentOn E.contrib ((Finset.range n).erase i) s1)
    (ho : s1.clus[c]? = some o) (ha : s'.alloc = s1.alloc.set i c) (hh : s'.hyp = s1.hyp)
    (hcl : s'.clus = s1.clus.set c (o.added E s1.hyp false i)) : PutAt E i s1 s' (.inl c) := by
  refine ⟨ha, ?_, hh, backTo_existing hR (fun c p hp => hc1.cards c p hp)
    (fun c p hp => hc1.members c p hp) ho ha hh hcl⟩
  unfold valuesAt valuesOf
  rw [hcl, List.map_set]
  exact set_same (by simp [Hier.added, ho])

theorem putAt_new {E : Env G H Θ} {n i : ℕ} {s1 s' : Alg G H Θ} {o : Hier G H Θ}
    (hR : Reduced n i s1.clus.length s1.alloc) (ho : o.card = 1)
    (ha : s'.alloc = s1.alloc.set i s1.clus.length) (hh : s'.hyp = s1.hyp)
    (hcl : s'.clus = s1.clus ++ [o]) : PutAt E i s1 s' (.inr o.state) := by
  refine ⟨ha, ?_, hh, backTo_new hR ho ha hh hcl⟩
  simp [valuesAt, valuesOf, hcl]

/-- The choices of Neal8. -/
theorem neal8_moves {E : Env G H Θ} {n : ℕ} {s : Alg8 G H Θ} {i : ℕ} (haux : 0 < s.aux.length)
    (hi : i < n) {s1 : Alg G H Θ} {o : Hier G H Θ}
    (hdet : detach E false s.base i = .ok (s1, o, decide (o.card ≤ 1)))
    (hR : Reduced n i s1.clus.length s1.alloc) (hca1 : CachesOk s1)
    (hd : Detached E.contrib (Finset.range n) i s.base s1)
    {k : ℕ} (hk : k < s1.clus.length + s.aux.length) (ra : ℕ → ℕ) :
    ∃ s', neal8Datum E s i k ra = .ok s' ∧ s'.aux.length = s.aux.length ∧
      PutAt E i s1 s'.base (placeOfChoice s1.clus.length
        (offered E s1.hyp o (decide (o.card ≤ 1)) ra) k) := by
  have hcs := canSave_false E
  have hlen1 : i < s1.alloc.length := by rw [hR.len]; exact hi
  have hnotin : i ∉ (Finset.range n).erase i := by simp
  obtain ⟨m, hm⟩ : ∃ m, m = s.aux.length := ⟨_, rfl⟩
  obtain ⟨aux, aux', hauxeq, haux', haux'len, hauxval⟩ : ∃ aux aux' : List (Hier G H Θ),
      storeSingleton s.aux o (decide (o.card ≤ 1)) = .ok aux ∧
      resampleAux E s1.hyp ra (if decide (o.card ≤ 1) = true then 1 else 0) aux = aux' ∧
      aux'.length = m ∧ ∀ (a : ℕ) (p : Hier G H Θ), aux'[a]? = some p →
        p.state = offered E s1.hyp o (decide (o.card ≤ 1)) ra a := by
    by_cases h : o.card ≤ 1
    · refine ⟨s.aux.set 0 { s.aux[0] with state := o.state, card := o.card }, _, ?_, rfl,
        by simp [resampleAux, hm], ?_⟩
      · simp [storeSingleton, h, vget_ok (List.getElem?_eq_getElem haux)]
      · intro a p hp
        simp only [resampleAux, List.getElem?_mapIdx, h, decide_true, if_true,
          Option.map_eq_some_iff] at hp
        obtain ⟨q, hq, rfl⟩ := hp
        by_cases ha : a = 0
        · subst ha
          simp [haux] at hq
          subst hq
          simp [offered, h]
        · rw [if_pos (by omega)]
          simp [offered, ha, Hier.samplePrior]
    · refine ⟨s.aux, _, by simp [storeSingleton, h], rfl, by simp [resampleAux, hm], ?_⟩
      intro a p hp
      simp only [resampleAux, List.getElem?_mapIdx, h, decide_false, Bool.false_eq_true, if_false,
        Nat.zero_le, if_true, Option.map_eq_some_iff] at hp
      obtain ⟨q, hq, rfl⟩ := hp
      simp [offered, h, Hier.samplePrior]
  have hpos : 0 < s1.clus.length + m := by omega
  have hkm : k % (s1.clus.length + m) = k := Nat.mod_eq_of_lt (by omega)
  simp only [neal8Datum, hdet, ok_bind, hauxeq, haux', haux'len, categorical_ok k hpos, hkm]
  by_cases hnew : k ≥ s1.clus.length
  · have hpl : ∀ val : ℕ → Θ, placeOfChoice s1.clus.length val k =
        .inr (val (k - s1.clus.length)) := by
      intro val; simp [placeOfChoice, Nat.not_lt.mpr hnew]
    simp only [hnew, if_true]
    have hlt : k - s1.clus.length < aux'.length := by omega
    have hget := List.getElem?_eq_getElem hlt
    rw [vget_ok hget, ok_bind, Hier.addDatum_eq (by simp [Hier.clone]) hcs, ok_bind,
      vset_ok hlen1, ok_bind]
    refine ⟨_, rfl, haux'len.trans hm, ?_⟩
    rw [hpl, ← hauxval _ _ hget]
    exact putAt_new (o := (aux'[k - s1.clus.length]).clone.added E s1.hyp false i) hR
      (by simp [Hier.added, Hier.clone]) rfl rfl rfl
  · have hpl : ∀ val : ℕ → Θ, placeOfChoice s1.clus.length val k = .inl k := by
      intro val; simp [placeOfChoice, Nat.lt_of_not_ge hnew]
    simp only [hnew, if_false]
    obtain ⟨s', p, hs', ha, -, hp, hcl⟩ :=
      attach_ok hcs hd.cons hnotin hlen1 (Nat.lt_of_not_ge hnew) hca1
    refine ⟨_, by rw [hs', ok_bind], haux'len.trans hm, ?_⟩
    rw [hpl]
    exact putAt_existing hR hd.cons hp ha.alloc ha.hyp hcl

end Bayesmix.Gibbs
