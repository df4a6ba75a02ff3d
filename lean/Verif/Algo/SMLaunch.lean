import Verif.Algo.SMLemmas
import Mathlib.Data.List.GetD
import Mathlib.Data.Finset.Sort
import Mathlib.Algebra.BigOperators.Group.Finset.Basic

/-! Closed form of the launch state, of the restricted scans and of the two ratios of the
split-merge sampler. -/

namespace Bayesmix.SplitMerge

variable {G H Θ : Type} [AddCommGroup G]

/-- An object that holds the rows `A` and has its posterior hypers saved. -/
def objOf (E : Env G H Θ) (h : H) (θ : Θ) (A : Finset ℕ) : Hier G H Θ :=
  ⟨θ, A.card, A, ∑ x ∈ A, E.contrib x, true,
    some (E.post h A.card (∑ x ∈ A, E.contrib x))⟩

/-- The same without saved hypers. -/
def rawOf (E : Env G H Θ) (θ : Θ) (A : Finset ℕ) : Hier G H Θ :=
  ⟨θ, A.card, A, ∑ x ∈ A, E.contrib x, false, none⟩

/-- Predictive log density of row `x` given the rows `A`. -/
def predOn (E : Env G H Θ) (S : Scores H) (h : H) (A : Finset ℕ) (x : ℕ) : ℝ :=
  S.pred (E.post h A.card (∑ y ∈ A, E.contrib y)) x

theorem clone_eq (E : Env G H Θ) (o : Hier G H Θ) : o.clone = rawOf E o.state ∅ := by
  simp [Hier.clone, rawOf]

theorem rawOf_add {E : Env G H Θ} {h : H} {θ : Θ} {A : Finset ℕ} {x : ℕ} (hx : x ∉ A) :
    (rawOf E θ A).addDatum E h false x = .ok (rawOf E θ (insert x A)) := by
  rw [Hier.addDatum_eq (by exact hx) (canSave_false E)]
  simp [rawOf, Hier.added, hx, Finset.sum_insert, add_comm]

theorem rawOf_save {E : Env G H Θ} (hk : E.kind ≠ .other) {h : H} {θ : Θ} {A : Finset ℕ} {x : ℕ}
    (hx : x ∉ A) :
    (rawOf E θ A).addDatum E h true x = .ok (objOf E h θ (insert x A)) := by
  rw [Hier.addDatum_eq (by exact hx) (fun _ => hk)]
  simp [rawOf, objOf, Hier.added, hx, Finset.sum_insert, add_comm]

theorem objOf_add {E : Env G H Θ} (hk : E.kind ≠ .other) {h : H} {θ : Θ} {A : Finset ℕ} {x : ℕ}
    (hx : x ∉ A) :
    (objOf E h θ A).addDatum E h true x = .ok (objOf E h θ (insert x A)) := by
  rw [Hier.addDatum_eq (by exact hx) (fun _ => hk)]
  simp [objOf, Hier.added, hx, Finset.sum_insert, add_comm]

theorem objOf_remove {E : Env G H Θ} (hk : E.kind ≠ .other) {h : H} {θ : Θ} {A : Finset ℕ}
    {x : ℕ} (hx : x ∈ A) :
    (objOf E h θ A).removeDatum E h true x = .ok (objOf E h θ (A.erase x)) := by
  rw [Hier.removeDatum_eq (by exact hx) (fun _ => hk)]
  have h1 : (A.card : ℤ) - 1 = ((A.erase x).card : ℤ) := by
    rw [← Finset.card_erase_add_one hx]; push_cast; ring
  have h2 : ∑ y ∈ A, E.contrib y - E.contrib x = ∑ y ∈ A.erase x, E.contrib y := by
    rw [← Finset.add_sum_erase _ _ hx]; abel
  simp only [objOf, Hier.removed, h1, h2, if_true, Bool.true_or]

theorem condPred_obj (E : Env G H Θ) (S : Scores H) (h h' : H) (θ : Θ) (A : Finset ℕ) (x : ℕ) :
    condPred E S h' (objOf E h θ A) x = .ok (predOn E S h A x) := by
  simp [condPred, Hier.getPosterior, objOf, predOn]

/-- Rows of temporary cluster `b` when row number `t` of the list has label `c t`. -/
def side (i j : ℕ) (rows : List ℕ) (c : ℕ → Bool) (b : Bool) : Finset ℕ :=
  insert (if b then j else i)
    (((Finset.range rows.length).filter (fun t => c t = b)).image (fun t => rows.getD t 0))

/-- Hypotheses on the rows of a restricted scan. -/
structure RowsOk (i j : ℕ) (rows : List ℕ) : Prop where
  nodup : rows.Nodup
  hi : i ∉ rows
  hj : j ∉ rows
  ne : i ≠ j

theorem getD_mem {rows : List ℕ} {t : ℕ} (ht : t < rows.length) : rows.getD t 0 ∈ rows := by
  rw [List.getD_eq_getElem _ _ ht]; exact List.getElem_mem ht

theorem getD_inj {rows : List ℕ} (hn : rows.Nodup) {t u : ℕ} (ht : t < rows.length)
    (hu : u < rows.length) (e : rows.getD t 0 = rows.getD u 0) : t = u := by
  rw [List.getD_eq_getElem _ _ ht, List.getD_eq_getElem _ _ hu] at e
  exact (List.Nodup.getElem_inj_iff hn).mp e

theorem row_notMem_root {i j : ℕ} {rows : List ℕ} (h : RowsOk i j rows) {t : ℕ}
    (ht : t < rows.length) (b : Bool) : rows.getD t 0 ≠ (if b then j else i) := by
  intro e
  have := getD_mem ht
  rw [e] at this
  cases b
  · exact h.hi this
  · exact h.hj this

theorem mem_side {i j : ℕ} {rows : List ℕ} (h : RowsOk i j rows) {c : ℕ → Bool} {b : Bool}
    {t : ℕ} (ht : t < rows.length) : rows.getD t 0 ∈ side i j rows c b ↔ c t = b := by
  simp only [side, Finset.mem_insert, Finset.mem_image, Finset.mem_filter, Finset.mem_range]
  constructor
  · rintro (e | ⟨u, ⟨hu, hc⟩, e⟩)
    · exact absurd e (row_notMem_root h ht b)
    · rw [← getD_inj h.nodup hu ht e]; exact hc
  · intro hc; exact .inr ⟨t, ⟨ht, hc⟩, rfl⟩

theorem mem_rows_iff {rows : List ℕ} {x : ℕ} :
    x ∈ rows ↔ ∃ t < rows.length, rows.getD t 0 = x := by
  rw [List.mem_iff_getElem]
  constructor
  · rintro ⟨t, ht, e⟩; exact ⟨t, ht, by rw [List.getD_eq_getElem _ _ ht, e]⟩
  · rintro ⟨t, ht, e⟩; exact ⟨t, ht, by rw [← e, List.getD_eq_getElem _ _ ht]⟩

theorem mem_side_iff {i j : ℕ} {rows : List ℕ} {c : ℕ → Bool} {b : Bool} {x : ℕ} :
    x ∈ side i j rows c b ↔
      x = (if b then j else i) ∨ ∃ t < rows.length, c t = b ∧ rows.getD t 0 = x := by
  simp only [side, Finset.mem_insert, Finset.mem_image, Finset.mem_filter, Finset.mem_range,
    and_assoc]

theorem root_mem (i j : ℕ) (rows : List ℕ) (c : ℕ → Bool) (b : Bool) :
    (if b then j else i) ∈ side i j rows c b := by simp [side]

theorem side_union (i j : ℕ) (rows : List ℕ) (c : ℕ → Bool) :
    side i j rows c false ∪ side i j rows c true = insert i (insert j rows.toFinset) := by
  ext x
  simp only [Finset.mem_union, mem_side_iff, Finset.mem_insert, List.mem_toFinset, mem_rows_iff,
    if_true, Bool.false_eq_true, if_false]
  constructor
  · rintro ((h | ⟨t, ht, -, e⟩) | (h | ⟨t, ht, -, e⟩))
    · exact .inl h
    · exact .inr (.inr ⟨t, ht, e⟩)
    · exact .inr (.inl h)
    · exact .inr (.inr ⟨t, ht, e⟩)
  · rintro (h | h | ⟨t, ht, e⟩)
    · exact .inl (.inl h)
    · exact .inr (.inl h)
    · cases hc : c t
      · exact .inl (.inr ⟨t, ht, hc, e⟩)
      · exact .inr (.inr ⟨t, ht, hc, e⟩)

theorem side_disjoint {i j : ℕ} {rows : List ℕ} (h : RowsOk i j rows) (c : ℕ → Bool) :
    Disjoint (side i j rows c false) (side i j rows c true) := by
  rw [Finset.disjoint_left]
  intro x hx hy
  rw [mem_side_iff] at hx hy
  simp only [if_true, Bool.false_eq_true, if_false] at hx hy
  rcases hx with rfl | ⟨t, ht, hc, rfl⟩
  · rcases hy with e | ⟨u, hu, -, e⟩
    · exact h.ne e
    · exact h.hi (e ▸ getD_mem hu)
  · rcases hy with e | ⟨u, hu, hc', e⟩
    · exact h.hj (e ▸ getD_mem ht)
    · have := getD_inj h.nodup hu ht e
      subst this; rw [hc] at hc'; cases hc'

theorem side_update_same {i j : ℕ} {rows : List ℕ} (h : RowsOk i j rows) (c : ℕ → Bool)
    {k : ℕ} (hk : k < rows.length) (b : Bool) :
    side i j rows (Function.update c k b) b =
      insert (rows.getD k 0) ((side i j rows c b).erase (rows.getD k 0)) := by
  ext x
  simp only [Finset.mem_insert, Finset.mem_erase, mem_side_iff]
  constructor
  · rintro (e | ⟨t, ht, hc, e⟩)
    · exact .inr ⟨by rw [e]; exact (row_notMem_root h hk b).symm, .inl e⟩
    · by_cases htk : t = k
      · subst htk; exact .inl e.symm
      · rw [Function.update_of_ne htk] at hc
        refine .inr ⟨?_, .inr ⟨t, ht, hc, e⟩⟩
        rw [← e]; exact fun e' => htk (getD_inj h.nodup ht hk e')
  · rintro (e | ⟨hne, e | ⟨t, ht, hc, e⟩⟩)
    · exact .inr ⟨k, hk, by simp, e.symm⟩
    · exact .inl e
    · refine .inr ⟨t, ht, ?_, e⟩
      rw [Function.update_of_ne (by rintro rfl; exact hne e.symm)]; exact hc

theorem side_update_ne {i j : ℕ} {rows : List ℕ} (h : RowsOk i j rows) (c : ℕ → Bool)
    {k : ℕ} (hk : k < rows.length) {b b' : Bool} (hb : b ≠ b') :
    side i j rows (Function.update c k b') b = (side i j rows c b).erase (rows.getD k 0) := by
  ext x
  simp only [Finset.mem_erase, mem_side_iff]
  constructor
  · rintro (e | ⟨t, ht, hc, e⟩)
    · exact ⟨by rw [e]; exact (row_notMem_root h hk b).symm, .inl e⟩
    · by_cases htk : t = k
      · subst htk; rw [Function.update_self] at hc; exact absurd hc.symm hb
      · rw [Function.update_of_ne htk] at hc
        refine ⟨?_, .inr ⟨t, ht, hc, e⟩⟩
        rw [← e]; exact fun e' => htk (getD_inj h.nodup ht hk e')
  · rintro ⟨hne, e | ⟨t, ht, hc, e⟩⟩
    · exact .inl e
    · refine .inr ⟨t, ht, ?_, e⟩
      rw [Function.update_of_ne (by rintro rfl; exact hne e.symm)]; exact hc

/-- The launch state in which row number `t` of the list has label `c t`. -/
def launchOf (E : Env G H Θ) (h : H) (θ : Θ) (i j : ℕ) (rows : List ℕ) (c : ℕ → Bool) :
    Launch G H Θ :=
  ⟨rows, (List.range rows.length).map c, fun b => objOf E h θ (side i j rows c b)⟩

theorem map_range_set (m : ℕ) (c : ℕ → Bool) {k : ℕ} (b : Bool) :
    ((List.range m).map c).set k b = (List.range m).map (Function.update c k b) := by
  apply List.ext_getElem
  · simp
  · intro t h1 h2
    simp only [List.length_map, List.length_range] at h2
    rw [List.getElem_set]
    by_cases h : k = t
    · subst h; simp
    · simp [h, Function.update_of_ne (Ne.symm h)]

/-- Rows of temporary cluster `b` without the two selected rows, for the first `k` rows. -/
def part (rows : List ℕ) (c : ℕ → Bool) (b : Bool) (k : ℕ) : Finset ℕ :=
  ((Finset.range k).filter (fun t => c t = b)).image (fun t => rows.getD t 0)

theorem part_succ_same {rows : List ℕ} {c : ℕ → Bool} {b : Bool} {k : ℕ} (h : c k = b) :
    part rows c b (k + 1) = insert (rows.getD k 0) (part rows c b k) := by
  simp [part, Finset.range_add_one, Finset.filter_insert, h]

theorem part_succ_ne {rows : List ℕ} {c : ℕ → Bool} {b : Bool} {k : ℕ} (h : c k ≠ b) :
    part rows c b (k + 1) = part rows c b k := by
  simp [part, Finset.range_add_one, Finset.filter_insert, h]

theorem notMem_part {rows : List ℕ} (hn : rows.Nodup) {c : ℕ → Bool} {b : Bool} {k : ℕ}
    (hk : k < rows.length) : rows.getD k 0 ∉ part rows c b k := by
  simp only [part, Finset.mem_image, Finset.mem_filter, Finset.mem_range, not_exists, not_and,
    and_imp]
  intro t ht _ e
  have := getD_inj hn (by omega) hk e
  omega

theorem launchValues_ok {E : Env G H Θ} (hk : E.kind ≠ .other) {s : Alg G H Θ} {i j : ℕ}
    {rows : List ℕ} (hr : RowsOk i j rows) {o : Hier G H Θ} (ho : s.clus[0]? = some o)
    (r : ℕ → ℕ) :
    launchValues E s i j rows r =
      .ok (launchOf E s.hyp o.state i j rows (fun t => decide (r t % 2 = 1))) := by
  obtain ⟨c, hc⟩ : ∃ c : ℕ → Bool, c = fun t => decide (r t % 2 = 1) := ⟨_, rfl⟩
  have hloop := foldlM_range_inv (launchAdd E s.hyp r) (fun k L =>
      L.rows = rows ∧ L.lab = (List.range rows.length).map (fun t => if t < k then c t else false)
        ∧ ∀ b, L.vals b = rawOf E o.state (part rows c b k)) rows.length
    (by
      rintro k ⟨ro, lab, vals⟩ hkl ⟨h1, h2, hv⟩
      simp only at h1 h2 hv
      subst h1; subst h2
      have hg : ro[k]? = some (ro.getD k 0) := by
        rw [List.getElem?_eq_getElem hkl, List.getD_eq_getElem _ _ hkl]
      have hb : decide (r k % 2 = 1) = c k := by rw [hc]
      refine ⟨⟨ro, List.set ((List.range ro.length).map
        (fun t => if t < k then c t else false)) k (c k), Function.update vals (c k)
        (rawOf E o.state (insert (ro.getD k 0) (part ro c (c k) k)))⟩, ?_, rfl, ?_, ?_⟩
      · simp only [launchAdd, vget_ok hg, ok_bind]
        simp only [hb]
        simp only [hv, rawOf_add (notMem_part hr.nodup hkl), ok_bind]
        rw [vset_ok (by simpa using hkl), ok_bind]
      · show List.set _ k (c k) = _
        rw [map_range_set]
        apply List.map_congr_left
        intro t ht
        by_cases e : t = k
        · subst e; simp
        · rw [Function.update_of_ne e]
          have : t < k + 1 ↔ t < k := by omega
          simp [this]
      · intro b
        show Function.update vals (c k) _ b = _
        by_cases e : b = c k
        · subst e; rw [Function.update_self, part_succ_same rfl]
        · rw [Function.update_of_ne e, part_succ_ne (Ne.symm e), hv])
    ⟨rows, List.replicate rows.length false, fun _ => o.clone⟩
    ⟨rfl, by
      apply List.ext_getElem <;> simp, by
      intro b; rw [clone_eq E]; simp [part]⟩
  obtain ⟨⟨ro, lab, vals⟩, he, h1, h2, h3⟩ := hloop
  simp only at h1 h2 h3
  have hroot : ∀ b, (if b then j else i) ∉ part rows c b rows.length := by
    intro b
    simp only [part, Finset.mem_image, Finset.mem_filter, Finset.mem_range, not_exists, not_and,
      and_imp]
    intro t ht _ e
    exact row_notMem_root hr ht b e
  unfold launchValues
  rw [vget_ok ho, ok_bind, he, ok_bind]
  simp only [h3, rawOf_save hk (by simpa using hroot false), ok_bind]
  have e1 : (Function.update vals false (objOf E s.hyp o.state
      (insert i (part rows c false rows.length)))) true =
      rawOf E o.state (part rows c true rows.length) := by
    rw [Function.update_of_ne (by simp), h3]
  simp only [e1, rawOf_save hk (by simpa using hroot true), ok_bind]
  rw [← hc, launchOf, h1, h2]
  congr 2
  · apply List.map_congr_left
    intro t ht
    simp at ht; simp [ht]
  · funext b
    cases b
    · rw [Function.update_of_ne (by simp), Function.update_self]; simp [side, part]
    · rw [Function.update_self]; simp [side, part]

/-- Log weights of the two temporary clusters for row number `k` of the list. -/
def scanWeight (E : Env G H Θ) (S : Scores H) (h : H) (i j : ℕ) (rows : List ℕ) (c : ℕ → Bool)
    (k : ℕ) (b : Bool) : ℝ :=
  S.exist (rows.length + 1) 2 (((side i j rows c b).erase (rows.getD k 0)).card : ℤ) +
    predOn E S h ((side i j rows c b).erase (rows.getD k 0)) (rows.getD k 0)

/-- Labels during a scan from `c0` to `c1`, before row number `k`. -/
def mixLab (c0 c1 : ℕ → Bool) (k t : ℕ) : Bool := if t < k then c1 t else c0 t

/-- Log probability that a restricted scan goes from labels `c0` to labels `c1`. -/
noncomputable def transLog (E : Env G H Θ) (S : Scores H) (h : H) (i j : ℕ) (rows : List ℕ)
    (c0 c1 : ℕ → Bool) (k : ℕ) : ℝ :=
  ∑ t ∈ Finset.range k, logProba (scanWeight E S h i j rows (mixLab c0 c1 t) t) (c1 t)

/-- Label of a row when it is forced back to its original cluster. -/
def origLab (al : List ℕ) (first x : ℕ) : Bool := decide (al.getD x 0 ≠ al.getD first 0)

/-- Label chosen for row number `k`. -/
def newLab (al : List ℕ) (first : ℕ) (rows : List ℕ) (toOrig : Bool) (r : ℕ → ℕ) (k : ℕ) : Bool :=
  if toOrig then origLab al first (rows.getD k 0) else decide (r k % 2 = 1)

theorem restrictedStep_ok {E : Env G H Θ} (S : Scores H) (hk : E.kind ≠ .other)
    {s : Alg G H Θ} {θ : Θ} {i j : ℕ} {rows : List ℕ} (hr : RowsOk i j rows) (c : ℕ → Bool)
    (hal : toOrig = true → i < s.alloc.length ∧ ∀ x ∈ rows, x < s.alloc.length)
    (ret : Bool) (r : ℕ → ℕ) (acc : ℝ) {k : ℕ} (hkl : k < rows.length) :
    restrictedStep E S s i ret toOrig r (launchOf E s.hyp θ i j rows c, acc) k =
      .ok (launchOf E s.hyp θ i j rows
        (Function.update c k (newLab s.alloc i rows toOrig r k)),
        if ret then acc + logProba (scanWeight E S s.hyp i j rows c k)
          (newLab s.alloc i rows toOrig r k) else acc) := by
  obtain ⟨x, hx⟩ : ∃ x, x = rows.getD k 0 := ⟨_, rfl⟩
  obtain ⟨b, hb⟩ : ∃ b, b = newLab s.alloc i rows toOrig r k := ⟨_, rfl⟩
  rw [← hb]
  have hg : rows[k]? = some x := by
    rw [List.getElem?_eq_getElem hkl, hx, List.getD_eq_getElem _ _ hkl]
  have hlab : ((List.range rows.length).map c)[k]? = some (c k) := by simp [hkl]
  have hmem : ∀ b, x ∈ side i j rows c b ↔ c k = b := fun b => by rw [hx]; exact mem_side hr hkl
  have hvals : Function.update (fun b => objOf E s.hyp θ (side i j rows c b)) (c k)
      (objOf E s.hyp θ ((side i j rows c (c k)).erase x)) =
      fun b => objOf E s.hyp θ ((side i j rows c b).erase x) := by
    funext b'
    by_cases e : b' = c k
    · subst e; rw [Function.update_self]
    · rw [Function.update_of_ne e, Finset.erase_eq_of_notMem]
      rw [hmem]; exact Ne.symm e
  have hw : (fun b' : Bool => S.exist (rows.length + 2 - 1) 2
      (objOf E s.hyp θ ((side i j rows c b').erase x)).card +
      (if b' = true then predOn E S s.hyp ((side i j rows c true).erase x) x
        else predOn E S s.hyp ((side i j rows c false).erase x) x)) =
      scanWeight E S s.hyp i j rows c k := by
    funext b'
    cases b' <;> simp [scanWeight, objOf, hx]
  simp only [restrictedStep, launchOf, vget_ok hlab, vget_ok hg, ok_bind,
    objOf_remove hk ((hmem _).mpr rfl), hvals, condPred_obj, hw]
  have hfin : Function.update (fun b => objOf E s.hyp θ ((side i j rows c b).erase x)) b
      (objOf E s.hyp θ (insert x ((side i j rows c b).erase x))) =
      fun b' => objOf E s.hyp θ (side i j rows (Function.update c k b) b') := by
    funext b'
    by_cases e : b' = b
    · subst e; rw [Function.update_self, side_update_same hr c hkl, ← hx]
    · rw [Function.update_of_ne e, side_update_ne hr c hkl e, ← hx]
  cases hto : toOrig
  · have hb' : decide (r k % 2 = 1) = b := by rw [hb, newLab, hto]; simp
    simp only [Bool.false_eq_true, if_false, hb']
    rw [vset_ok (by simpa using hkl), ok_bind, objOf_add hk (Finset.notMem_erase x _), ok_bind,
      map_range_set, hfin]
  · obtain ⟨h1, h2⟩ := hal hto
    have h2 := h2 x (List.mem_of_getElem? hg)
    have hb' : decide (s.alloc[x] ≠ s.alloc[i]) = b := by
      rw [hb, newLab, hto, if_pos rfl, ← hx, origLab, List.getD_eq_getElem _ _ h2,
        List.getD_eq_getElem _ _ h1]
    simp only [if_true, vget_ok (List.getElem?_eq_getElem h2),
      vget_ok (List.getElem?_eq_getElem h1), ok_bind, hb']
    rw [vset_ok (by simpa using hkl), ok_bind, objOf_add hk (Finset.notMem_erase x _), ok_bind,
      map_range_set, hfin]

theorem launchOf_congr (E : Env G H Θ) (h : H) (θ : Θ) (i j : ℕ) (rows : List ℕ)
    {c c' : ℕ → Bool} (hc : ∀ t < rows.length, c t = c' t) :
    launchOf E h θ i j rows c = launchOf E h θ i j rows c' := by
  have hs : ∀ b, side i j rows c b = side i j rows c' b := by
    intro b
    unfold side
    congr 2
    apply Finset.filter_congr
    intro t ht; rw [hc t (Finset.mem_range.mp ht)]
  unfold launchOf
  congr 1
  · apply List.map_congr_left
    intro t ht; exact hc t (List.mem_range.mp ht)
  · funext b; rw [hs]

theorem restrictedGs_ok {E : Env G H Θ} (S : Scores H) (hk : E.kind ≠ .other)
    {s : Alg G H Θ} {θ : Θ} {i j : ℕ} {rows : List ℕ} (hr : RowsOk i j rows) (c : ℕ → Bool)
    {toOrig : Bool}
    (hal : toOrig = true → i < s.alloc.length ∧ ∀ x ∈ rows, x < s.alloc.length)
    (ret : Bool) (r : ℕ → ℕ) :
    restrictedGs E S s i ret toOrig r (launchOf E s.hyp θ i j rows c) =
      .ok (launchOf E s.hyp θ i j rows (newLab s.alloc i rows toOrig r),
        if ret then transLog E S s.hyp i j rows c (newLab s.alloc i rows toOrig r) rows.length
        else 0) := by
  obtain ⟨c1, hc1⟩ : ∃ c1, c1 = newLab s.alloc i rows toOrig r := ⟨_, rfl⟩
  rw [← hc1]
  obtain ⟨La, he, h⟩ := foldlM_range_inv (restrictedStep E S s i ret toOrig r) (fun k La =>
      La = (launchOf E s.hyp θ i j rows (mixLab c c1 k),
        if ret then transLog E S s.hyp i j rows c c1 k else 0)) rows.length
    (by
      rintro k La hkl rfl
      refine ⟨_, restrictedStep_ok S hk hr _ hal ret r _ hkl, ?_⟩
      rw [← hc1]
      have e1 : Function.update (mixLab c c1 k) k (c1 k) = mixLab c c1 (k + 1) := by
        funext t
        by_cases e : t = k
        · subst e; simp [mixLab]
        · rw [Function.update_of_ne e]
          have : t < k + 1 ↔ t < k := by omega
          simp [mixLab, this]
      rw [e1]
      congr 1
      cases ret
      · simp
      · simp [transLog, Finset.sum_range_succ])
    (launchOf E s.hyp θ i j rows c, 0)
    (by
      have : mixLab c c1 0 = c := by funext t; simp [mixLab]
      rw [this]; simp [transLog])
  unfold restrictedGs
  rw [show (launchOf E s.hyp θ i j rows c).rows.length = rows.length from rfl, he, h]
  rw [launchOf_congr E s.hyp θ i j rows (c := mixLab c c1 rows.length) (c' := c1)
    (fun t ht => by simp [mixLab, ht])]

/-! ### The two ratios -/

/-- Sum of the predictive log densities of the rows `l`, one after another, given `A`. -/
def chain (E : Env G H Θ) (S : Scores H) (h : H) : Finset ℕ → List ℕ → ℝ
  | _, [] => 0
  | A, x :: l => predOn E S h A x + chain E S h (insert x A) l

/-- Log prior weight of a cluster with `k` rows: product of the masses of the sizes it went
through. -/
def wgt (S : Scores H) (n k : ℕ) : ℝ := ∑ t ∈ Finset.Ico 1 k, S.exist n 2 (t : ℤ)

theorem wgt_succ (S : Scores H) (n : ℕ) {k : ℕ} (hk : 1 ≤ k) :
    wgt S n (k + 1) = wgt S n k + S.exist n 2 (k : ℤ) := by
  unfold wgt; rw [Finset.sum_Ico_succ_top hk]

@[simp] theorem wgt_one (S : Scores H) (n : ℕ) : wgt S n 1 = 0 := by simp [wgt]

theorem ratioAdd_ok {E : Env G H Θ} (S : Scores H) (hk : E.kind ≠ .other) (h : H) (θ : Θ) (n : ℕ)
    (c : Bool) (l : List ℕ) (hn : l.Nodup) (D U : Finset ℕ) (hD : D.Nonempty)
    (hU : U.Nonempty) (hlD : ∀ x ∈ l, x ∉ D) (hlU : ∀ x ∈ l, x ∉ U) (R : Ratios G H Θ)
    (hd : R.div c = objOf E h θ D) (hu : R.uni = objOf E h θ U) :
    ∃ R', l.foldlM (ratioAdd E S h n c) R = .ok R' ∧
      R'.div = Function.update R.div c (objOf E h θ (D ∪ l.toFinset)) ∧
      R'.uni = objOf E h θ (U ∪ l.toFinset) ∧
      R'.predDiv = Function.update R.predDiv c (R.predDiv c + chain E S h D l) ∧
      R'.predUni = R.predUni + chain E S h U l ∧
      R'.prior = R.prior + (wgt S n (D ∪ l.toFinset).card - wgt S n D.card) -
        (wgt S n (U ∪ l.toFinset).card - wgt S n U.card) := by
  induction l generalizing D U R with
  | nil =>
    exact ⟨R, rfl, by simp [← hd], by simp [hu], by simp [chain], by simp [chain], by simp⟩
  | cons x l ih =>
    obtain ⟨hxl, hn'⟩ := List.nodup_cons.mp hn
    have hxD := hlD x (by simp)
    have hxU := hlU x (by simp)
    obtain ⟨R1, hR1⟩ : ∃ R1 : Ratios G H Θ, R1 = ⟨Function.update R.div c (objOf E h θ (insert x D)),
      objOf E h θ (insert x U), Function.update R.predDiv c (R.predDiv c + predOn E S h D x),
      R.predUni + predOn E S h U x,
      R.prior + S.exist n 2 (D.card : ℤ) - S.exist n 2 (U.card : ℤ)⟩ := ⟨_, rfl⟩
    have hstep : ratioAdd E S h n c R x = .ok R1 := by
      simp only [ratioAdd, hd, hu, condPred_obj, ok_bind, objOf_add hk hxD, objOf_add hk hxU, hR1]
      rfl
    obtain ⟨R', he, h1, h2, h3, h4, h5⟩ := ih hn' (insert x D) (insert x U) (by simp) (by simp)
      (by
        intro y hy
        simp only [Finset.mem_insert, not_or]
        exact ⟨by rintro rfl; exact hxl hy, hlD y (by simp [hy])⟩)
      (by
        intro y hy
        simp only [Finset.mem_insert, not_or]
        exact ⟨by rintro rfl; exact hxl hy, hlU y (by simp [hy])⟩)
      R1 (by rw [hR1]; simp) (by rw [hR1])
    have eD : insert x D ∪ l.toFinset = D ∪ (x :: l).toFinset := by
      rw [List.toFinset_cons]; ext y; simp
    have eU : insert x U ∪ l.toFinset = U ∪ (x :: l).toFinset := by
      rw [List.toFinset_cons]; ext y; simp
    rw [eD] at h1 h5; rw [eU] at h2 h5
    refine ⟨R', ?_, ?_, h2, ?_, ?_, ?_⟩
    · rw [List.foldlM_cons, hstep]; exact he
    · rw [h1, hR1]; simp
    · rw [h3, hR1]; simp [chain, add_assoc]
    · rw [h4, hR1]; simp [chain, add_assoc]
    · rw [h5, hR1, Finset.card_insert_of_notMem hxD, Finset.card_insert_of_notMem hxU,
        wgt_succ S n (Finset.card_pos.mpr hD), wgt_succ S n (Finset.card_pos.mpr hU)]
      ring

/-- Rows of `D` after row `x`, in the order in which the code visits them. -/
def rest (D : Finset ℕ) (x : ℕ) : List ℕ := (D.erase x).sort (· ≤ ·)

theorem rest_union {D U : Finset ℕ} {x : ℕ} (hx : x ∈ D) :
    insert x U ∪ (rest D x).toFinset = U ∪ D := by
  ext y
  simp only [rest, Finset.mem_union, Finset.mem_insert, List.mem_toFinset, Finset.mem_sort,
    Finset.mem_erase]
  by_cases h : y = x
  · subst h; simp [hx]
  · simp [h]

theorem mem_rest {D : Finset ℕ} {x y : ℕ} : y ∈ rest D x ↔ y ≠ x ∧ y ∈ D := by
  simp [rest]

theorem rest_nodup (D : Finset ℕ) (x : ℕ) : (rest D x).Nodup := Finset.sort_nodup _ _

/-- Log likelihood of the divided clusters minus that of the united one, as accumulated. -/
def likRatio (E : Env G H Θ) (S : Scores H) (h : H) (i j : ℕ) (D0 D1 : Finset ℕ) : ℝ :=
  (S.pred h i + chain E S h {i} (rest D0 i)) + (S.pred h j + chain E S h {j} (rest D1 j)) -
    (S.pred h i + chain E S h {i} (rest D0 i) + predOn E S h D0 j +
      chain E S h (insert j D0) (rest D1 j))

/-- Log prior ratio of the divided clusters over the united one, as accumulated. -/
def priorRatio (S : Scores H) (n : ℕ) (D0 D1 : Finset ℕ) : ℝ :=
  S.fresh n 2 + wgt S n D0.card + wgt S n D1.card - wgt S n (D0 ∪ D1).card

theorem logRatios_ok {E : Env G H Θ} (S : Scores H) (hk : E.kind ≠ .other) {s : Alg G H Θ}
    {L : Launch G H Θ} {i j : ℕ} {split : Bool} {o : Hier G H Θ} (ho : s.clus[0]? = some o)
    {D0 D1 : Finset ℕ} (hi : i ∈ D0) (hj : j ∈ D1) (hdis : Disjoint D0 D1)
    (hs : split = true → (L.vals false).idx = D0 ∧ (L.vals true).idx = D1)
    (hm : split = false → ∃ a b : ℕ, ∃ oa ob : Hier G H Θ, s.alloc[i]? = some a ∧
      s.alloc[j]? = some b ∧ s.clus[a]? = some oa ∧ s.clus[b]? = some ob ∧ oa.idx = D0 ∧
      ob.idx = D1) :
    logRatios E S s L i j split = .ok (if split then
        (likRatio E S s.hyp i j D0 D1, priorRatio S s.alloc.length D0 D1)
      else (-likRatio E S s.hyp i j D0 D1, -priorRatio S s.alloc.length D0 D1)) := by
  obtain ⟨n, hn⟩ : ∃ n, n = s.alloc.length := ⟨_, rfl⟩
  have hr0 : ((D0.erase i).erase i).sort (· ≤ ·) = rest D0 i := by simp [rest]
  have hr1 : ((D1.erase j).erase j).sort (· ≤ ·) = rest D1 j := by simp [rest]
  have hjD0 : j ∉ D0 := fun h => Finset.disjoint_left.mp hdis h hj
  have hne : j ≠ i := by rintro rfl; exact hjD0 hi
  -- first cluster
  obtain ⟨R1, he1, hd1, hu1, hpd1, hpu1, hpr1⟩ := ratioAdd_ok S hk s.hyp o.state n false
    (rest D0 i) (rest_nodup D0 i) {i} {i} (by simp) (by simp)
    (by intro x hx; simpa using (mem_rest.mp hx).1) (by intro x hx; simpa using (mem_rest.mp hx).1)
    ⟨Function.update (fun _ => rawOf E o.state ∅) false (objOf E s.hyp o.state {i}),
      objOf E s.hyp o.state {i}, Function.update (fun _ => 0) false (0 + S.pred s.hyp i),
      0 + S.pred s.hyp i, S.fresh n 2⟩ (by simp) rfl
  have hD0 : ({i} : Finset ℕ) ∪ (rest D0 i).toFinset = D0 := by
    have := rest_union (U := ∅) hi; simpa using this
  rw [hD0] at hd1 hu1 hpr1
  have hs0 : (rawOf E o.state ∅ : Hier G H Θ).addDatum E s.hyp true i =
      .ok (objOf E s.hyp o.state {i}) := rawOf_save hk (by simp)
  have hs1 : (rawOf E o.state ∅ : Hier G H Θ).addDatum E s.hyp true j =
      .ok (objOf E s.hyp o.state {j}) := rawOf_save hk (by simp)
  have hC1 : ratioCluster E S s L split
      ⟨fun _ => rawOf E o.state ∅, rawOf E o.state ∅, fun _ => 0, 0, S.fresh n 2⟩ false i =
      .ok R1 := by
    have hcard : (rawOf E o.state ∅ : Hier G H Θ).card = 0 := by simp [rawOf]
    simp only [ratioCluster, hs0, ok_bind, hcard, if_true]
    rw [← hn]
    cases hsp : split
    · obtain ⟨a, b, oa, ob, ha, -, hoa, -, e, -⟩ := hm hsp
      simp only [Bool.false_eq_true, if_false, vget_ok ha, vget_ok hoa, ok_bind, e]
      exact he1
    · simp only [if_true, (hs hsp).1, hr0]
      exact he1
  -- second cluster
  have hdt : R1.div true = rawOf E o.state ∅ := by
    rw [hd1]; simp
  have hcard : R1.uni.card ≠ 0 := by
    rw [hu1]; simp [objOf]; exact Finset.ne_empty_of_mem hi
  have hpt : R1.predDiv true = 0 := by
    rw [hpd1]; simp
  obtain ⟨R2, he2, hd2, hu2, hpd2, hpu2, hpr2⟩ := ratioAdd_ok S hk s.hyp o.state n true
    (rest D1 j) (rest_nodup D1 j) {j} (insert j D0) (by simp) (by simp)
    (by intro x hx; simpa using (mem_rest.mp hx).1)
    (by
      intro x hx
      have hx := mem_rest.mp hx
      simp only [Finset.mem_insert, not_or]
      exact ⟨hx.1, fun h => Finset.disjoint_left.mp hdis h hx.2⟩)
    ⟨Function.update R1.div true (objOf E s.hyp o.state {j}),
      objOf E s.hyp o.state (insert j D0),
      Function.update R1.predDiv true (R1.predDiv true + S.pred s.hyp j),
      R1.predUni + predOn E S s.hyp D0 j, R1.prior - S.exist n 2 (D0.card : ℤ)⟩ (by simp) rfl
  have hD1 : ({j} : Finset ℕ) ∪ (rest D1 j).toFinset = D1 := by
    have := rest_union (U := ∅) hj; simpa using this
  rw [hD1] at hd2 hpr2
  rw [rest_union hj] at hu2 hpr2
  have hC2 : ratioCluster E S s L split R1 true j = .ok R2 := by
    have hcd : R1.uni.card = (D0.card : ℤ) := by rw [hu1]; rfl
    have hua : R1.uni.addDatum E s.hyp true j = .ok (objOf E s.hyp o.state (insert j D0)) := by
      rw [hu1, objOf_add hk hjD0]
    have hcp : condPred E S s.hyp R1.uni j = .ok (predOn E S s.hyp D0 j) := by
      rw [hu1, condPred_obj]
    simp only [ratioCluster, hdt, hs1, ok_bind]
    rw [← hn]
    rw [if_neg hcard]
    simp only [hcp, hcd, ok_bind, hua]
    cases hsp : split
    · obtain ⟨a, b, oa, ob, -, hb, -, hob, -, e⟩ := hm hsp
      simp only [Bool.false_eq_true, if_false, vget_ok hb, vget_ok hob, ok_bind, e]
      exact he2
    · simp only [if_true, (hs hsp).2, hr1]
      exact he2
  unfold logRatios
  rw [vget_ok ho, ok_bind, clone_eq E]
  rw [← hn, hC1, ok_bind, hC2, ok_bind]
  have hlik : R2.predDiv false + R2.predDiv true - R2.predUni = likRatio E S s.hyp i j D0 D1 := by
    rw [hpd2, hpu2]
    simp [hpd1, hpu1, likRatio]
  have hprior : R2.prior = priorRatio S n D0 D1 := by
    rw [hpr2]
    simp only [hpr1, Finset.card_singleton, wgt_one, Finset.card_insert_of_notMem hjD0]
    rw [wgt_succ S n (Finset.card_pos.mpr ⟨i, hi⟩)]
    unfold priorRatio; ring
  simp only [hlik, hprior]

end Bayesmix.SplitMerge
