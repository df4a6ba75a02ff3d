import Verif.Algo.Gibbs
import Verif.Algo.SMBalance
import Verif.Alloc.Cache
import Mathlib.Tactic.FieldSimp

/-! Weights of partitions that differ in the place of one row. -/

namespace Bayesmix.Gibbs
open Bayesmix.SplitMerge

/-- Weight of a labelling: a factor for the number of clusters, a factor for each cluster. -/
noncomputable def prodPost (A : ℕ → ℝ) (W : Finset ℕ → ℝ) (al : List ℕ) : ℝ :=
  A al.toFinset.card * ∏ c ∈ al.toFinset, W (membersIn (Finset.range al.length) al c)

/-- The labellings agree on who is with whom among the rows below `n` other than `i`. -/
def SameOthers (n i : ℕ) (al al' : List ℕ) : Prop :=
  ∀ x < n, ∀ y < n, x ≠ i → y ≠ i → (together al x y ↔ together al' x y)

/-- The labellings describe the same partition of the rows below `n`. -/
def SamePart (n : ℕ) (al al' : List ℕ) : Prop :=
  ∀ x < n, ∀ y < n, (together al x y ↔ together al' x y)

theorem SamePart.symm {n : ℕ} {al al' : List ℕ} (h : SamePart n al al') : SamePart n al' al :=
  fun x hx y hy => (h x hx y hy).symm

theorem SamePart.trans {n : ℕ} {a b c : List ℕ} (h : SamePart n a b) (h' : SamePart n b c) :
    SamePart n a c := fun x hx y hy => (h x hx y hy).trans (h' x hx y hy)

theorem SameOthers.symm {n i : ℕ} {al al' : List ℕ} (h : SameOthers n i al al') :
    SameOthers n i al' al := fun x hx y hy h1 h2 => (h x hx y hy h1 h2).symm

theorem SameOthers.trans {n i : ℕ} {a b c : List ℕ} (h : SameOthers n i a b)
    (h' : SameOthers n i b c) : SameOthers n i a c :=
  fun x hx y hy h1 h2 => (h x hx y hy h1 h2).trans (h' x hx y hy h1 h2)

theorem SameOthers.set (n i c : ℕ) (al : List ℕ) : SameOthers n i (al.set i c) al :=
  fun _ _ _ _ h1 h2 => together_set h1 h2

/-- The clusters of a labelling, as sets of rows. -/
def blocks (al : List ℕ) : Finset (Finset ℕ) :=
  al.toFinset.image (membersIn (Finset.range al.length) al)

theorem members_nonempty {al : List ℕ} {c : ℕ} (h : c ∈ al.toFinset) :
    (membersIn (Finset.range al.length) al c).Nonempty := by
  obtain ⟨x, hx⟩ := List.getElem?_of_mem (List.mem_toFinset.mp h)
  exact ⟨x, mem_membersIn.mpr
    ⟨Finset.mem_range.mpr (List.getElem?_eq_some_iff.mp hx).1, hx⟩⟩

theorem members_injOn (al : List ℕ) :
    Set.InjOn (membersIn (Finset.range al.length) al) (al.toFinset : Set ℕ) := by
  intro a ha b _ hab
  obtain ⟨x, hx⟩ := members_nonempty (Finset.mem_coe.mp ha)
  have h1 := (mem_membersIn.mp hx).2
  rw [hab] at hx
  have h2 := (mem_membersIn.mp hx).2
  rw [h1] at h2
  exact Option.some.inj h2

theorem prodPost_blocks (A : ℕ → ℝ) (W : Finset ℕ → ℝ) (al : List ℕ) :
    prodPost A W al = A (blocks al).card * ∏ D ∈ blocks al, W D := by
  rw [prodPost, blocks, Finset.card_image_of_injOn (members_injOn al),
    Finset.prod_image (members_injOn al)]

theorem blocks_eq {n : ℕ} {al al' : List ℕ} (hl : al.length = n) (hl' : al'.length = n)
    (h : SamePart n al al') : blocks al = blocks al' := by
  have key : ∀ {a b : List ℕ}, a.length = n → b.length = n → SamePart n a b →
      blocks a ⊆ blocks b := by
    intro a b ha hb hab D hD
    obtain ⟨c, hc, rfl⟩ := Finset.mem_image.mp hD
    obtain ⟨x, hx⟩ := List.getElem?_of_mem (List.mem_toFinset.mp hc)
    have hxn : x < n := ha ▸ (List.getElem?_eq_some_iff.mp hx).1
    have hxb : b[x]? = some (b[x]'(by omega)) := List.getElem?_eq_getElem (by omega)
    refine Finset.mem_image.mpr ⟨b[x]'(by omega), List.mem_toFinset.mpr (List.getElem_mem _), ?_⟩
    ext y
    simp only [mem_membersIn, Finset.mem_range, ha, hb]
    refine and_congr_right fun hy => ?_
    have := hab y hy x hxn
    simp only [together, hx, hxb] at this
    exact this.symm
  exact (key hl hl' h).antisymm (key hl' hl h.symm)

theorem prodPost_congr (A : ℕ → ℝ) (W : Finset ℕ → ℝ) {n : ℕ} {al al' : List ℕ}
    (hl : al.length = n) (hl' : al'.length = n) (h : SamePart n al al') :
    prodPost A W al = prodPost A W al' := by
  rw [prodPost_blocks, prodPost_blocks, blocks_eq hl hl' h]

/-- The labels of the rows other than `i` are exactly the numbers below `K`. -/
structure Reduced (n i K : ℕ) (al : List ℕ) : Prop where
  len : al.length = n
  mem : i < n
  lab : ∀ x < n, x ≠ i → ∃ c < K, al[x]? = some c
  used : ∀ c < K, ∃ x < n, x ≠ i ∧ al[x]? = some c

/-- The members of a label among the other rows. -/
def others (n i : ℕ) (al : List ℕ) (c : ℕ) : Finset ℕ :=
  membersIn ((Finset.range n).erase i) al c

theorem members_set {n i K : ℕ} {al : List ℕ} (h : Reduced n i K al) (c k : ℕ) :
    membersIn (Finset.range (al.set i c).length) (al.set i c) k =
      if k = c then insert i (others n i al k) else others n i al k := by
  have hi : i ∉ (Finset.range n).erase i := by simp
  have hl : i < al.length := by rw [h.len]; exact h.mem
  rw [List.length_set, h.len, ← erase_range_insert h.mem]
  split
  · rename_i e; subst e; exact membersIn_insert_set_eq hi hl
  · rename_i e; exact membersIn_insert_set_ne hi hl e

theorem labels_set {n i K : ℕ} {al : List ℕ} (h : Reduced n i K al) {c : ℕ} (hc : c ≤ K) :
    (al.set i c).toFinset = Finset.range (if c = K then K + 1 else K) := by
  have hl : i < al.length := by rw [h.len]; exact h.mem
  ext k
  rw [List.mem_toFinset, Finset.mem_range]
  constructor
  · intro hk
    obtain ⟨x, hx⟩ := List.getElem?_of_mem hk
    have hxn : x < n := by
      have := (List.getElem?_eq_some_iff.mp hx).1
      rwa [List.length_set, h.len] at this
    by_cases hxi : x = i
    · subst hxi
      rw [List.getElem?_set_self hl] at hx
      have := Option.some.inj hx
      split <;> omega
    · rw [List.getElem?_set_ne (Ne.symm hxi)] at hx
      obtain ⟨d, hd, e⟩ := h.lab x hxn hxi
      rw [hx] at e
      have := Option.some.inj e
      split <;> omega
  · intro hk
    by_cases hkc : k = c
    · subst hkc
      exact List.mem_of_getElem? (List.getElem?_set_self hl)
    · obtain ⟨x, -, hxi, hx⟩ := h.used k (by split at hk <;> omega)
      exact List.mem_of_getElem? (i := x) (by rw [List.getElem?_set_ne (Ne.symm hxi)]; exact hx)

theorem others_empty {n i K : ℕ} {al : List ℕ} (h : Reduced n i K al) : others n i al K = ∅ := by
  ext x
  simp only [others, mem_membersIn, Finset.mem_erase, Finset.mem_range, Finset.notMem_empty,
    iff_false, not_and, and_imp]
  intro h1 h2 h3
  obtain ⟨d, hd, e⟩ := h.lab x h2 h1
  rw [h3] at e
  have := Option.some.inj e
  omega

/-- Weight of the labelling that puts row `i` into an existing cluster. -/
theorem prodPost_existing (A : ℕ → ℝ) {W : Finset ℕ → ℝ} (hW : ∀ D, W D ≠ 0) {n i K : ℕ}
    {al : List ℕ} (h : Reduced n i K al) {c : ℕ} (hc : c < K) :
    prodPost A W (al.set i c) = A K * (∏ k ∈ Finset.range K, W (others n i al k)) *
      (W (insert i (others n i al c)) / W (others n i al c)) := by
  have hcK : c ≠ K := by omega
  rw [prodPost, labels_set h hc.le, if_neg hcK, Finset.card_range]
  have e : ∀ k ∈ Finset.range K, W (membersIn (Finset.range (al.set i c).length) (al.set i c) k) =
      W (others n i al k) *
        (if k = c then W (insert i (others n i al c)) / W (others n i al c) else 1) := by
    intro k _
    rw [members_set h]
    split
    · rename_i e; subst e; rw [mul_div_cancel₀ _ (hW _)]
    · rw [mul_one]
  rw [Finset.prod_congr rfl e, Finset.prod_mul_distrib, Finset.prod_ite_eq',
    if_pos (Finset.mem_range.mpr hc), mul_assoc]

/-- Weight of the labelling that puts row `i` into a cluster of its own. -/
theorem prodPost_new (A : ℕ → ℝ) (W : Finset ℕ → ℝ) {n i K : ℕ} {al : List ℕ}
    (h : Reduced n i K al) :
    prodPost A W (al.set i K) =
      A (K + 1) * (∏ k ∈ Finset.range K, W (others n i al k)) * W {i} := by
  rw [prodPost, labels_set h le_rfl, if_pos rfl, Finset.card_range, Finset.prod_range_succ,
    members_set h, if_pos rfl, others_empty h, ← mul_assoc]
  congr 2
  apply Finset.prod_congr rfl
  intro k hk
  rw [members_set h, if_neg (by have := Finset.mem_range.mp hk; omega)]

/-- Every partition that agrees on the other rows is reached by exactly one choice. -/
theorem unique_choice {n i K : ℕ} {al al' : List ℕ} (h : Reduced n i K al)
    (hs : SameOthers n i al al') : ∃! c, c < K + 1 ∧ SamePart n (al.set i c) al' := by
  have hl : i < al.length := by rw [h.len]; exact h.mem
  have hset : ∀ c, (al.set i c)[i]? = some c := fun c => List.getElem?_set_self hl
  have hne : ∀ c x, x ≠ i → (al.set i c)[x]? = al[x]? := fun c x hx =>
    List.getElem?_set_ne (Ne.symm hx)
  -- it is enough to look at the company of row `i`
  have enough : ∀ c, (∀ x < n, x ≠ i → (al[x]? = some c ↔ together al' x i)) →
      SamePart n (al.set i c) al' := by
    intro c hc x hx y hy
    by_cases hxi : x = i
    · subst hxi
      by_cases hyi : y = x
      · subst hyi; simp [together]
      · have := hc y hy hyi
        unfold together at this ⊢
        rw [hset, hne c y hyi]
        constructor
        · intro e; exact (this.mp e.symm).symm
        · intro e; exact (this.mpr e.symm).symm
    · by_cases hyi : y = i
      · subst hyi
        have := hc x hx hxi
        unfold together at this ⊢
        rw [hset, hne c x hxi]
        exact this
      · rw [together_set hxi hyi]
        exact hs x hx y hy hxi hyi
  have ex : ∃ c, c < K + 1 ∧ SamePart n (al.set i c) al' := by
    by_cases hx : ∃ x < n, x ≠ i ∧ together al' x i
    · obtain ⟨x, hxn, hxi, hxt⟩ := hx
      obtain ⟨c, hc, hal⟩ := h.lab x hxn hxi
      refine ⟨c, by omega, enough c fun y hy hyi => ?_⟩
      have := hs y hy x hxn hyi hxi
      unfold together at this hxt ⊢
      rw [hal] at this
      rw [this, hxt]
    · refine ⟨K, by omega, enough K fun y hy hyi => ?_⟩
      constructor
      · intro e
        obtain ⟨d, hd, e'⟩ := h.lab y hy hyi
        rw [e] at e'
        have := Option.some.inj e'
        omega
      · intro e; exact absurd ⟨y, hy, hyi, e⟩ hx
  obtain ⟨c, hc, hp⟩ := ex
  refine ⟨c, ⟨hc, hp⟩, ?_⟩
  rintro d ⟨hd, hq⟩
  have hpq := hq.trans hp.symm
  by_contra hcd
  -- one of the two labels is carried by another row
  have main : ∀ a b, a ≠ b → a < K → SamePart n (al.set i a) (al.set i b) → False := by
    intro a b hab ha hs'
    obtain ⟨x, hx, hxi, hxa⟩ := h.used a ha
    have := hs' x hx i h.mem
    unfold together at this
    rw [hset, hset, hne a x hxi, hne b x hxi, hxa] at this
    exact hab (Option.some.inj (this.mp rfl))
  rcases Nat.lt_or_ge d K with hdK | hdK
  · exact main d c hcd hdK hpq
  · exact main c d (Ne.symm hcd) (by omega) hpq.symm

/-- The weights of the partitions that agree on the other rows have the same sum, whatever the
labels. -/
theorem sum_choices (A : ℕ → ℝ) (W : Finset ℕ → ℝ) {n i K K' : ℕ} {al al' : List ℕ}
    (h : Reduced n i K al) (h' : Reduced n i K' al') (hs : SameOthers n i al al') :
    ∑ c ∈ Finset.range (K + 1), prodPost A W (al.set i c) =
      ∑ c ∈ Finset.range (K' + 1), prodPost A W (al'.set i c) := by
  have go : ∀ c, ∃! d, d < K' + 1 ∧ SamePart n (al'.set i d) (al.set i c) := fun c =>
    unique_choice h' (hs.symm.trans (SameOthers.set n i c al).symm)
  have back : ∀ d, ∃! c, c < K + 1 ∧ SamePart n (al.set i c) (al'.set i d) := fun d =>
    unique_choice h (hs.trans (SameOthers.set n i d al').symm)
  choose f hf _ using go
  refine Finset.sum_bij (fun c _ => f c) ?_ ?_ ?_ ?_
  · intro c _; exact Finset.mem_range.mpr (hf c).1
  · intro c hc d hd e
    refine (back (f c)).unique ⟨Finset.mem_range.mp hc, (hf c).2.symm⟩
      ⟨Finset.mem_range.mp hd, ?_⟩
    rw [e]; exact (hf d).2.symm
  · intro d hd
    obtain ⟨c, ⟨hc, hp⟩, -⟩ := back d
    refine ⟨c, Finset.mem_range.mpr hc, ?_⟩
    refine (unique_choice h'
      (hs.symm.trans (SameOthers.set n i c al).symm)).unique (hf c)
      ⟨Finset.mem_range.mp hd, hp.symm⟩
  · intro c _
    exact prodPost_congr A W (by simp [h.len]) (by simp [h'.len]) (hf c).2.symm

/-! ### The probabilities -/

theorem softmax_length (l : List ℝ) : (softmax l).length = l.length := by simp [softmax]

theorem softmax_sum {l : List ℝ} (hl : l ≠ []) : (softmax l).sum = 1 := by
  have hpos : 0 < (l.map Real.exp).sum := by
    apply List.sum_pos _ (by simp [Real.exp_pos]) (by simpa using hl)
  have : softmax l = l.map fun x => ((l.map Real.exp).sum)⁻¹ * Real.exp x := by
    simp [softmax, div_eq_inv_mul]
  rw [this, List.sum_map_mul_left, inv_mul_cancel₀ hpos.ne']

/-- Probabilities out of weights. -/
theorem softmax_weights {l : List ℝ} {w : ℕ → ℝ} {b : ℝ}
    (h : ∀ (c : ℕ) x, l[c]? = some x → w c = b * Real.exp x) {c : ℕ} {q : ℝ}
    (hq : (softmax l)[c]? = some q) :
    q * ∑ d ∈ Finset.range l.length, w d = w c := by
  have hsum : ∑ d ∈ Finset.range l.length, w d = b * (l.map Real.exp).sum := by
    rw [Finset.sum_range, ← List.sum_map_mul_left]
    rw [← List.sum_ofFn]
    congr 1
    apply List.ext_getElem (by simp)
    intro k h1 h2
    simp only [List.getElem_ofFn, List.getElem_map]
    exact h k _ (List.getElem?_eq_getElem (by simpa using h1))
  simp only [softmax, List.getElem?_map, Option.map_eq_some_iff] at hq
  obtain ⟨x, hx, rfl⟩ := hq
  have hpos : 0 < (l.map Real.exp).sum :=
    List.sum_pos _ (by simp [Real.exp_pos]) (by simpa using List.ne_nil_of_mem (List.mem_of_getElem? hx))
  rw [hsum, h c x hx]
  field_simp

end Bayesmix.Gibbs
