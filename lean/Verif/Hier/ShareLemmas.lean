import Verif.FaultLemmas
import Verif.Hier.Share

/-!
# Lemmas on the heap of hyperparameters
-/

namespace Bayesmix.Hierarchies

variable {H Q S P : Type}

theorem vget_eq_ok {α : Type} {v : List α} {i : ℕ} {a : α} :
    vget v i = .ok a ↔ v[i]? = some a := by
  unfold vget
  cases v[i]? <;> simp

theorem vset_eq_ok {α : Type} {v w : List α} {i : ℕ} {a : α} :
    vset v i a = .ok w ↔ i < v.length ∧ w = v.set i a := by
  unfold vset
  split <;> simp_all [eq_comm]

theorem bind_eq_ok {α β : Type} {x : Except Fault α} {f : α → Except Fault β} {b : β} :
    (x >>= f) = .ok b ↔ ∃ a, x = .ok a ∧ f a = .ok b := by
  cases x with
  | error e => simp
  | ok a => simp

theorem initPrior_eq_ok {init : Q → Except Fault H} {w : World H Q S P} {p : Option ℕ}
    {r : List H × ℕ} :
    initPrior init w p = .ok r ↔
      ∃ a q h, p = some a ∧ w.pheap[a]? = some q ∧ init q = .ok h ∧
        r = (w.hheap ++ [h], w.hheap.length) := by
  cases p with
  | none => simp [initPrior]
  | some a =>
    simp only [initPrior, bind_eq_ok, vget_eq_ok]
    constructor
    · rintro ⟨q, hq, h, hh, hr⟩
      cases hr
      exact ⟨a, q, h, rfl, hq, hh, rfl⟩
    · rintro ⟨a', q, h, ha, hq, hh, rfl⟩
      cases ha
      exact ⟨q, hq, h, hh, rfl⟩

/-- No dangling pointers. -/
def WorldWF (w : World H Q S P) : Prop :=
  ∀ o ∈ w.objs, o.hypers < w.hheap.length ∧ ∀ a, o.prior = some a → a < w.pheap.length

/-- What a call does, case by case. -/
theorem runHOp_eq_ok {zero : S} {init : Q → Except Fault H} {w w' : World H Q S P}
    {op : HOp H Q P} (h : runHOp zero init w op = .ok w') :
    ∃ o, w.objs[op.target]? = some o ∧
    match op with
    | .clone _ => w' = { w with objs := w.objs ++ [⟨o.hypers, o.prior, cloneLike zero o.like⟩] }
    | .deepClone _ => ∃ a q hv hn, o.prior = some a ∧ w.pheap[a]? = some q ∧
        w.hheap[o.hypers]? = some hv ∧ init q = .ok hn ∧
        w' = ⟨w.hheap ++ [hv] ++ [hn], w.pheap ++ [q],
          w.objs ++ [⟨w.hheap.length + 1, some w.pheap.length, cloneLike zero o.like⟩]⟩
    | .writeHypers _ hv => o.hypers < w.hheap.length ∧
        w' = { w with hheap := w.hheap.set o.hypers hv }
    | .writePrior i q =>
        (∃ a, o.prior = some a ∧ a < w.pheap.length ∧ w' = { w with pheap := w.pheap.set a q }) ∨
        (o.prior = none ∧ w' = ⟨w.hheap, w.pheap ++ [q],
          w.objs.set i ⟨o.hypers, some w.pheap.length, o.like⟩⟩)
    | .reinit i => ∃ a q hn, o.prior = some a ∧ w.pheap[a]? = some q ∧ init q = .ok hn ∧
        w' = ⟨w.hheap ++ [hn], w.pheap,
          w.objs.set i ⟨w.hheap.length, o.prior, clearAll zero o.like⟩⟩
    | .writeState i p => w' = { w with
        objs := w.objs.set i { o with like := { o.like with state := p } } } := by
  cases op with
  | clone i =>
    simp only [runHOp, cloneObj, bind_eq_ok, vget_eq_ok] at h
    obtain ⟨o, ho, hw⟩ := h
    cases hw
    exact ⟨o, ho, rfl⟩
  | deepClone i =>
    simp only [runHOp, deepCloneObj, bind_eq_ok, vget_eq_ok] at h
    obtain ⟨o, ho, hw⟩ := h
    refine ⟨o, ho, ?_⟩
    cases hp : o.prior with
    | none => rw [hp] at hw; cases hw
    | some a =>
      rw [hp] at hw
      simp only [bind_eq_ok, vget_eq_ok, initPrior_eq_ok] at hw
      obtain ⟨q, hq, hv, hhv, r, ⟨a', q', hn, ha', hq', hn', rfl⟩, hw⟩ := hw
      cases ha'
      cases hw
      have : q' = q := by simpa using hq'.symm
      subst this
      exact ⟨a, q', hv, hn, rfl, hq, hhv, hn', by simp⟩
  | writeHypers i hv =>
    simp only [runHOp, bind_eq_ok, vget_eq_ok, vset_eq_ok] at h
    obtain ⟨o, ho, hh, ⟨h1, rfl⟩, hw⟩ := h
    cases hw
    exact ⟨o, ho, h1, rfl⟩
  | writePrior i q =>
    simp only [runHOp, bind_eq_ok, vget_eq_ok] at h
    obtain ⟨o, ho, hw⟩ := h
    refine ⟨o, ho, ?_⟩
    cases hp : o.prior with
    | none =>
      rw [hp] at hw
      simp only [bind_eq_ok, vset_eq_ok] at hw
      obtain ⟨objs, ⟨h1, rfl⟩, hw⟩ := hw
      cases hw
      exact Or.inr ⟨rfl, rfl⟩
    | some a =>
      rw [hp] at hw
      simp only [bind_eq_ok, vset_eq_ok] at hw
      obtain ⟨pp, ⟨h1, rfl⟩, hw⟩ := hw
      cases hw
      exact Or.inl ⟨a, rfl, h1, rfl⟩
  | reinit i =>
    simp only [runHOp, bind_eq_ok, vget_eq_ok, vset_eq_ok, initPrior_eq_ok] at h
    obtain ⟨o, ho, r, ⟨a, q, hn, hp, hq, hn', rfl⟩, objs, ⟨h1, rfl⟩, hw⟩ := h
    cases hw
    exact ⟨o, ho, a, q, hn, hp, hq, hn', rfl⟩
  | writeState i p =>
    simp only [runHOp, bind_eq_ok, vget_eq_ok, vset_eq_ok] at h
    obtain ⟨o, ho, objs, ⟨h1, rfl⟩, hw⟩ := h
    cases hw
    exact ⟨o, ho, rfl⟩

theorem mem_of_getElem? {α : Type} {l : List α} {i : ℕ} {a : α} (h : l[i]? = some a) : a ∈ l :=
  List.mem_of_getElem? h

theorem lt_of_getElem? {α : Type} {l : List α} {i : ℕ} {a : α} (h : l[i]? = some a) :
    i < l.length := by
  by_contra hc
  rw [List.getElem?_eq_none (by omega)] at h
  cases h

theorem WorldWF.step {zero : S} {init : Q → Except Fault H} {w w' : World H Q S P}
    {op : HOp H Q P} (hw : WorldWF w) (h : runHOp zero init w op = .ok w') : WorldWF w' := by
  obtain ⟨o, ho, hcase⟩ := runHOp_eq_ok h
  have hom := hw o (mem_of_getElem? ho)
  cases op with
  | clone i =>
    simp only at hcase
    subst hcase
    intro x hx
    simp only [List.mem_append, List.mem_singleton] at hx
    rcases hx with hx | rfl
    · exact hw x hx
    · exact hom
  | deepClone i =>
    obtain ⟨a, q, hv, hn, hp, hq, hhv, hinit, rfl⟩ := hcase
    intro x hx
    simp only [List.mem_append, List.mem_singleton] at hx
    rcases hx with hx | rfl
    · have := hw x hx
      simp only [List.length_append, List.length_singleton]
      exact ⟨by omega, fun a ha => by have := this.2 a ha; omega⟩
    · simp only [List.length_append, List.length_singleton]
      exact ⟨by omega, fun a ha => by cases ha; omega⟩
  | writeHypers i hv =>
    obtain ⟨h1, rfl⟩ := hcase
    intro x hx
    have := hw x hx
    simpa using this
  | writePrior i q =>
    rcases hcase with ⟨a, hp, h1, rfl⟩ | ⟨hp, rfl⟩
    · intro x hx
      have := hw x hx
      simpa using this
    · intro x hx
      simp only [List.length_append, List.length_singleton]
      rcases List.mem_or_eq_of_mem_set hx with hx | rfl
      · have := hw x hx
        exact ⟨this.1, fun a ha => by have := this.2 a ha; omega⟩
      · exact ⟨hom.1, fun a ha => by cases ha; omega⟩
  | reinit i =>
    obtain ⟨a, q, hn, hp, hq, hinit, rfl⟩ := hcase
    intro x hx
    simp only [List.length_append, List.length_singleton]
    rcases List.mem_or_eq_of_mem_set hx with hx | rfl
    · have := hw x hx
      exact ⟨by omega, this.2⟩
    · exact ⟨by simp, hom.2⟩
  | writeState i p =>
    simp only at hcase
    subst hcase
    intro x hx
    rcases List.mem_or_eq_of_mem_set hx with hx | rfl
    · exact hw x hx
    · exact hom

/-- Invariants of a sequence of calls. -/
theorem runHOps_inv {zero : S} {init : Q → Except Fault H} (I : World H Q S P → Prop)
    (allowed : HOp H Q P → Prop)
    (hstep : ∀ w w' op, I w → allowed op → runHOp zero init w op = .ok w' → I w')
    {w w' : World H Q S P} {ops : List (HOp H Q P)} (ha : ∀ op ∈ ops, allowed op) (hI : I w)
    (h : runHOps zero init w ops = .ok w') : I w' := by
  induction ops generalizing w with
  | nil => cases h; exact hI
  | cons op ops ih =>
    simp only [runHOps, List.foldlM_cons, bind_eq_ok] at h
    obtain ⟨w1, h1, h2⟩ := h
    exact ih (fun op hop => ha op (List.mem_cons_of_mem _ hop))
      (hstep w w1 op hI (ha op List.mem_cons_self) h1) h2

theorem WorldWF.run {zero : S} {init : Q → Except Fault H} {w w' : World H Q S P}
    {ops : List (HOp H Q P)} (hw : WorldWF w) (h : runHOps zero init w ops = .ok w') :
    WorldWF w' :=
  runHOps_inv WorldWF (fun _ => True) (fun _ _ _ hI _ hr => hI.step hr) (fun _ _ => trivial) hw h

theorem freshWorld_wf (h : H) (like : Cluster S P) :
    WorldWF (freshWorld h like : World H Q S P) := by
  intro o ho
  simp only [freshWorld, List.mem_singleton] at ho
  subst ho
  simp [freshWorld]

/-- The pointers of an object change only through `initialize` on it, or by creating a missing
prior message. -/
theorem pointers_step {zero : S} {init : Q → Except Fault H} {w w' : World H Q S P}
    {op : HOp H Q P} (h : runHOp zero init w op = .ok w') {j : ℕ} {o : HObj S P}
    (hj : w.objs[j]? = some o) :
    ∃ o', w'.objs[j]? = some o' ∧ (op ≠ .reinit j → o'.hypers = o.hypers) ∧
      (op.target ≠ j → o' = o) := by
  have hlt := lt_of_getElem? hj
  obtain ⟨x, hx, hcase⟩ := runHOp_eq_ok h
  cases op with
  | clone i =>
    simp only at hcase
    subst hcase
    exact ⟨o, by simp [List.getElem?_append_left hlt, hj], fun _ => rfl, fun _ => rfl⟩
  | deepClone i =>
    obtain ⟨a, q, hv, hn, hp, hq, hhv, hinit, rfl⟩ := hcase
    exact ⟨o, by simp [List.getElem?_append_left hlt, hj], fun _ => rfl, fun _ => rfl⟩
  | writeHypers i hv =>
    obtain ⟨h1, rfl⟩ := hcase
    exact ⟨o, hj, fun _ => rfl, fun _ => rfl⟩
  | writePrior i q =>
    rcases hcase with ⟨a, hp, h1, rfl⟩ | ⟨hp, rfl⟩
    · exact ⟨o, hj, fun _ => rfl, fun _ => rfl⟩
    · simp only [HOp.target] at hx
      by_cases hij : i = j
      · subst hij
        rw [hj] at hx
        cases hx
        exact ⟨⟨o.hypers, some w.pheap.length, o.like⟩, by simp [hlt], fun _ => rfl,
          fun hne => absurd rfl hne⟩
      · exact ⟨o, by simp [hij, hj], fun _ => rfl, fun _ => rfl⟩
  | reinit i =>
    obtain ⟨a, q, hn, hp, hq, hinit, rfl⟩ := hcase
    by_cases hij : i = j
    · subst hij
      exact ⟨⟨w.hheap.length, x.prior, clearAll zero x.like⟩, by simp [hlt],
        fun hne => absurd rfl hne, fun hne => absurd rfl hne⟩
    · exact ⟨o, by simp [hij, hj], fun _ => rfl, fun _ => rfl⟩
  | writeState i p =>
    simp only at hcase
    subst hcase
    simp only [HOp.target] at hx
    by_cases hij : i = j
    · subst hij
      rw [hj] at hx
      cases hx
      exact ⟨{ o with like := { o.like with state := p } }, by simp [hlt], fun _ => rfl,
        fun hne => absurd rfl hne⟩
    · exact ⟨o, by simp [hij, hj], fun _ => rfl, fun _ => rfl⟩

/-- `k` is the only object with its pointers, whose cells hold `h` and `q`. -/
structure Alone (k : ℕ) (o : HObj S P) (h : H) (q : Q) (a : ℕ) (w : World H Q S P) : Prop where
  wf : WorldWF w
  obj : w.objs[k]? = some o
  ptr : o.prior = some a
  hyp : w.hheap[o.hypers]? = some h
  pri : w.pheap[a]? = some q
  others : ∀ j x, j ≠ k → w.objs[j]? = some x → x.hypers ≠ o.hypers ∧ x.prior ≠ some a

theorem Alone.step {zero : S} {init : Q → Except Fault H} {w w' : World H Q S P}
    {op : HOp H Q P} {k a : ℕ} {o : HObj S P} {h : H} {q : Q} (hI : Alone k o h q a w)
    (ht : op.target ≠ k) (hr : runHOp zero init w op = .ok w') : Alone k o h q a w' := by
  obtain ⟨hwf, hobj, hptr, hhyp, hpri, hoth⟩ := hI
  have hwf' := hwf.step hr
  have hlt := lt_of_getElem? hobj
  obtain ⟨o', ho', -, heq⟩ := pointers_step hr hobj
  rw [heq ht] at ho'
  refine ⟨hwf', ho', hptr, ?_, ?_, ?_⟩
  all_goals obtain ⟨x, hx, hcase⟩ := runHOp_eq_ok hr
  · have hxo := hoth _ x ht hx
    have hl := lt_of_getElem? hhyp
    cases op with
    | clone i => simp only at hcase; subst hcase; exact hhyp
    | deepClone i =>
      obtain ⟨a', q', hv, hn, hp, hq, hhv, hinit, rfl⟩ := hcase
      simp only [List.append_assoc]
      rw [List.getElem?_append_left hl]; exact hhyp
    | writeHypers i hv =>
      obtain ⟨h1, rfl⟩ := hcase
      simp [hxo.1, hhyp]
    | writePrior i q' =>
      rcases hcase with ⟨a', hp, h1, rfl⟩ | ⟨hp, rfl⟩ <;> exact hhyp
    | reinit i =>
      obtain ⟨a', q', hn, hp, hq, hinit, rfl⟩ := hcase
      rw [List.getElem?_append_left hl]; exact hhyp
    | writeState i p => simp only at hcase; subst hcase; exact hhyp
  · have hxo := hoth _ x ht hx
    have hl := lt_of_getElem? hpri
    cases op with
    | clone i => simp only at hcase; subst hcase; exact hpri
    | deepClone i =>
      obtain ⟨a', q', hv, hn, hp, hq, hhv, hinit, rfl⟩ := hcase
      rw [List.getElem?_append_left hl]; exact hpri
    | writeHypers i hv => obtain ⟨h1, rfl⟩ := hcase; exact hpri
    | writePrior i q' =>
      rcases hcase with ⟨a', hp, h1, rfl⟩ | ⟨hp, rfl⟩
      · have : a' ≠ a := fun e => hxo.2 (by rw [hp, e])
        simp [this, hpri]
      · rw [List.getElem?_append_left hl]; exact hpri
    | reinit i => obtain ⟨a', q', hn, hp, hq, hinit, rfl⟩ := hcase; exact hpri
    | writeState i p => simp only at hcase; subst hcase; exact hpri
  · intro j y hjk hy
    have hxo := hoth _ x ht hx
    have hlh := lt_of_getElem? hhyp
    have hlp := lt_of_getElem? hpri
    cases op with
    | clone i =>
      simp only at hcase; subst hcase
      simp only [List.getElem?_append] at hy
      split at hy
      · exact hoth j y hjk hy
      · rw [List.getElem?_singleton] at hy
        split at hy
        · cases hy; exact hxo
        · cases hy
    | deepClone i =>
      obtain ⟨a', q', hv, hn, hp, hq, hhv, hinit, rfl⟩ := hcase
      simp only [List.getElem?_append] at hy
      split at hy
      · exact hoth j y hjk hy
      · rw [List.getElem?_singleton] at hy
        split at hy
        · cases hy
          exact ⟨by simp only; omega, by simp only [ne_eq, Option.some.injEq]; omega⟩
        · cases hy
    | writeHypers i hv => obtain ⟨h1, rfl⟩ := hcase; exact hoth j y hjk hy
    | writePrior i q' =>
      rcases hcase with ⟨a', hp, h1, rfl⟩ | ⟨hp, rfl⟩
      · exact hoth j y hjk hy
      · simp only [List.getElem?_set] at hy
        split at hy
        · split at hy
          · cases hy
            exact ⟨hxo.1, by simp only [ne_eq, Option.some.injEq]; omega⟩
          · cases hy
        · exact hoth j y hjk hy
    | reinit i =>
      obtain ⟨a', q', hn, hp, hq, hinit, rfl⟩ := hcase
      simp only [List.getElem?_set] at hy
      split at hy
      · split at hy
        · cases hy
          exact ⟨by simp only; omega, hxo.2⟩
        · cases hy
      · exact hoth j y hjk hy
    | writeState i p =>
      simp only at hcase; subst hcase
      simp only [List.getElem?_set] at hy
      split at hy
      · split at hy
        · cases hy; exact hxo
        · cases hy
      · exact hoth j y hjk hy

/-- Objects before `k` and the cells before `nh`, `np` are as in `w0`; objects from `k` on point
beyond. -/
structure Below (k : ℕ) (w0 w : World H Q S P) : Prop where
  le : k ≤ w.objs.length
  objs : ∀ j, j < k → w.objs[j]? = w0.objs[j]?
  hyp : ∀ j, j < w0.hheap.length → w.hheap[j]? = w0.hheap[j]?
  pri : ∀ j, j < w0.pheap.length → w.pheap[j]? = w0.pheap[j]?
  hlen : w0.hheap.length ≤ w.hheap.length
  plen : w0.pheap.length ≤ w.pheap.length
  above : ∀ j x, k ≤ j → w.objs[j]? = some x →
    w0.hheap.length ≤ x.hypers ∧ ∀ a, x.prior = some a → w0.pheap.length ≤ a

theorem Below.step {zero : S} {init : Q → Except Fault H} {w0 w w' : World H Q S P}
    {op : HOp H Q P} {k : ℕ} (hI : Below k w0 w)
    (ht : k ≤ op.target) (hr : runHOp zero init w op = .ok w') : Below k w0 w' := by
  obtain ⟨hle, hobjs, hhyp, hpri, hhl, hpl, habove⟩ := hI
  obtain ⟨x, hx, hcase⟩ := runHOp_eq_ok hr
  have hxa := habove _ x ht hx
  have hset : ∀ (y : HObj S P) (j : ℕ), j < k → (w.objs.set op.target y)[j]? = w0.objs[j]? := by
    intro y j hj
    rw [List.getElem?_set_ne (by omega)]
    exact hobjs j hj
  have hseta : ∀ (y : HObj S P), (w0.hheap.length ≤ y.hypers ∧
      ∀ a, y.prior = some a → w0.pheap.length ≤ a) →
      ∀ j z, k ≤ j → (w.objs.set op.target y)[j]? = some z →
        w0.hheap.length ≤ z.hypers ∧ ∀ a, z.prior = some a → w0.pheap.length ≤ a := by
    intro y hy j z hj hz
    rw [List.getElem?_set] at hz
    split at hz
    · split at hz
      · cases hz; exact hy
      · cases hz
    · exact habove j z hj hz
  have happ : ∀ (y : HObj S P) (j : ℕ), j < k → (w.objs ++ [y])[j]? = w0.objs[j]? := by
    intro y j hj
    rw [List.getElem?_append_left (by omega)]
    exact hobjs j hj
  have happa : ∀ (y : HObj S P), (w0.hheap.length ≤ y.hypers ∧
      ∀ a, y.prior = some a → w0.pheap.length ≤ a) →
      ∀ j z, k ≤ j → (w.objs ++ [y])[j]? = some z →
        w0.hheap.length ≤ z.hypers ∧ ∀ a, z.prior = some a → w0.pheap.length ≤ a := by
    intro y hy j z hj hz
    rw [List.getElem?_append] at hz
    split at hz
    · exact habove j z hj hz
    · rw [List.getElem?_singleton] at hz
      split at hz
      · cases hz; exact hy
      · cases hz
  cases op with
  | clone i =>
    simp only at hcase; subst hcase
    exact ⟨by simp; omega, happ _, hhyp, hpri, hhl, hpl, happa _ hxa⟩
  | deepClone i =>
    obtain ⟨a', q', hv, hn, hp, hq, hhv, hinit, rfl⟩ := hcase
    refine ⟨by simp; omega, happ _, ?_, ?_, by simp; omega, by simp; omega, happa _ ?_⟩
    · intro j hj
      simp only [List.append_assoc]
      rw [List.getElem?_append_left (by omega)]
      exact hhyp j hj
    · intro j hj
      rw [List.getElem?_append_left (by omega)]
      exact hpri j hj
    · exact ⟨by simp only; omega, fun a ha => by cases ha; omega⟩
  | writeHypers i hv =>
    obtain ⟨h1, rfl⟩ := hcase
    refine ⟨hle, hobjs, ?_, hpri, by simpa using hhl, hpl, habove⟩
    intro j hj
    simp only
    rw [List.getElem?_set_ne (by omega)]
    exact hhyp j hj
  | writePrior i q' =>
    rcases hcase with ⟨a', hp, h1, rfl⟩ | ⟨hp, rfl⟩
    · refine ⟨hle, hobjs, hhyp, ?_, hhl, by simpa using hpl, habove⟩
      intro j hj
      have := hxa.2 a' hp
      simp only
      rw [List.getElem?_set_ne (by omega)]
      exact hpri j hj
    · refine ⟨by simpa using hle, hset _, hhyp, ?_, hhl, by simp; omega, hseta _ ?_⟩
      · intro j hj
        simp only
        rw [List.getElem?_append_left (by omega)]
        exact hpri j hj
      · exact ⟨hxa.1, fun a ha => by cases ha; exact hpl⟩
  | reinit i =>
    obtain ⟨a', q', hn, hp, hq, hinit, rfl⟩ := hcase
    refine ⟨by simpa using hle, hset _, ?_, hpri, by simp; omega, hpl, hseta _ ⟨hhl, hxa.2⟩⟩
    intro j hj
    simp only
    rw [List.getElem?_append_left (by omega)]
    exact hhyp j hj
  | writeState i p =>
    simp only at hcase; subst hcase
    exact ⟨by simpa using hle, hset _, hhyp, hpri, hhl, hpl, hseta _ hxa⟩

end Bayesmix.Hierarchies
