import Verif.Hier.ShareLemmas
import Verif.Hier.ConjLemmas

/-!
# C40: clones and deep clones
-/

namespace Bayesmix.Hierarchies

variable {H Q S P : Type}

/-- **C40, clones.** In every program state, a clone has the same hyperparameters, prior message
and parameters as its source, and no data; nothing else changes. -/
theorem c40_clone (zero : S) (init : Q → Except Fault H) (h0 : H) (like0 : Cluster S P)
    (ops : List (HOp H Q P)) (w w' : World H Q S P)
    (hw : runHOps zero init (freshWorld h0 like0) ops = .ok w) (i k : ℕ)
    (hk : k = w.objs.length) (hc : runHOp zero init w (.clone i) = .ok w') :
    (∃ h, hypersOf w i = some h ∧ hypersOf w' k = some h) ∧ priorOf w' k = priorOf w i ∧
    (∃ c c', likeOf w i = some c ∧ likeOf w' k = some c' ∧ c'.state = c.state ∧ c'.idx = ∅ ∧
      c'.card = 0 ∧ c'.stats = zero) ∧
    ∀ j, j < k → hypersOf w' j = hypersOf w j ∧ priorOf w' j = priorOf w j ∧
      likeOf w' j = likeOf w j := by
  have hwf := (freshWorld_wf h0 like0).run hw
  obtain ⟨o, ho, hcase⟩ := runHOp_eq_ok hc
  simp only [HOp.target] at ho
  simp only at hcase
  subst hcase
  have hin := (hwf o (mem_of_getElem? ho)).1
  refine ⟨⟨w.hheap[o.hypers], ?_, ?_⟩, ?_, ⟨o.like, cloneLike zero o.like, ?_, ?_, rfl, rfl, rfl,
    rfl⟩, ?_⟩
  · simp [hypersOf, ho, hin]
  · simp [hypersOf, hk, hin]
  · simp [priorOf, ho, hk]
  · simp [likeOf, ho]
  · simp [likeOf, hk]
  · intro j hj
    have e : (w.objs ++ [(⟨o.hypers, o.prior, cloneLike zero o.like⟩ : HObj S P)])[j]? =
        w.objs[j]? := List.getElem?_append_left (by omega)
    simp [hypersOf, priorOf, likeOf, e]

/-- **C40, sharing.** The clone and its source keep showing the same hyperparameters through
every later sequence of calls on any objects, as long as neither of the two is initialized
again. -/
theorem c40_clone_keeps_sharing (zero : S) (init : Q → Except Fault H) (w w' w'' : World H Q S P)
    (i k : ℕ) (hk : k = w.objs.length) (hc : runHOp zero init w (.clone i) = .ok w')
    (ops : List (HOp H Q P)) (hops : ∀ op ∈ ops, op ≠ .reinit i ∧ op ≠ .reinit k)
    (hr : runHOps zero init w' ops = .ok w'') :
    hypersOf w'' i = hypersOf w'' k := by
  have key : ∃ x y, w''.objs[i]? = some x ∧ w''.objs[k]? = some y ∧ x.hypers = y.hypers := by
    apply runHOps_inv (zero := zero) (init := init)
      (fun w => ∃ x y, w.objs[i]? = some x ∧ w.objs[k]? = some y ∧ x.hypers = y.hypers)
      (fun op => op ≠ .reinit i ∧ op ≠ .reinit k) ?_ hops ?_ hr
    · rintro v v' op ⟨x, y, hx, hy, hxy⟩ ha hstep
      obtain ⟨x', hx', h1, -⟩ := pointers_step hstep hx
      obtain ⟨y', hy', h2, -⟩ := pointers_step hstep hy
      exact ⟨x', y', hx', hy', by rw [h1 ha.1, h2 ha.2, hxy]⟩
    · obtain ⟨o, ho, hcase⟩ := runHOp_eq_ok hc
      simp only [HOp.target] at ho
      simp only at hcase
      subst hcase
      exact ⟨o, ⟨o.hypers, o.prior, cloneLike zero o.like⟩, by
        simp [List.getElem?_append_left (lt_of_getElem? ho), ho], by simp [hk], rfl⟩
  obtain ⟨x, y, hx, hy, hxy⟩ := key
  simp [hypersOf, hx, hy, hxy]

/-- **C40, independence of deep clones.** Calls on other objects never change the deep clone's
hyperparameters, prior message or likelihood; calls on the deep clone and on the objects created
after it never change those of any older object. -/
theorem c40_deep_clone_independent (zero : S) (init : Q → Except Fault H) (h0 : H)
    (like0 : Cluster S P) (ops : List (HOp H Q P)) (w w' w'' : World H Q S P)
    (hw : runHOps zero init (freshWorld h0 like0) ops = .ok w) (i k : ℕ)
    (hk : k = w.objs.length) (hc : runHOp zero init w (.deepClone i) = .ok w')
    (later : List (HOp H Q P)) (hr : runHOps zero init w' later = .ok w'') :
    ((∀ op ∈ later, op.target ≠ k) → hypersOf w'' k = hypersOf w' k ∧
      priorOf w'' k = priorOf w' k ∧ likeOf w'' k = likeOf w' k) ∧
    ((∀ op ∈ later, k ≤ op.target) → ∀ j, j < k → hypersOf w'' j = hypersOf w j ∧
      priorOf w'' j = priorOf w j ∧ likeOf w'' j = likeOf w j) := by
  have hwf := (freshWorld_wf h0 like0).run hw
  have hwf' := hwf.step hc
  obtain ⟨o, ho, a, q, hv, hn, hp, hq, hhv, hinit, hw'⟩ := runHOp_eq_ok hc
  constructor
  · intro hl
    have hstart : Alone k ⟨w.hheap.length + 1, some w.pheap.length, cloneLike zero o.like⟩ hn q
        w.pheap.length w' := by
      refine ⟨hwf', by simp [hw', hk], rfl, by simp [hw'], by simp [hw'], ?_⟩
      intro j x hjk hx
      rw [hw'] at hx
      simp only [List.getElem?_append] at hx
      split at hx
      · have := hwf x (mem_of_getElem? hx)
        refine ⟨by simp only; omega, ?_⟩
        intro e
        have := this.2 _ e
        omega
      · rw [List.getElem?_singleton] at hx
        split at hx
        · omega
        · cases hx
    have hend := runHOps_inv (zero := zero) (init := init) _ (fun op => op.target ≠ k)
      (fun _ _ _ hI ha hs => Alone.step hI ha hs) hl hstart hr
    refine ⟨?_, ?_, ?_⟩
    · simpa [hypersOf, hend.obj, hstart.obj] using hend.hyp.trans hstart.hyp.symm
    · simpa [priorOf, hend.obj, hstart.obj] using hend.pri.trans hstart.pri.symm
    · simp only [likeOf, hend.obj, hstart.obj]
  · intro hl j hj
    have hstart : Below k w w' := by
      rw [hw']
      refine ⟨by simp [hk], ?_, ?_, ?_, by simp, by simp, ?_⟩
      · intro j hj; exact List.getElem?_append_left (by omega)
      · intro j hj
        simp only [List.append_assoc]
        exact List.getElem?_append_left (by omega)
      · intro j hj; exact List.getElem?_append_left (by omega)
      · intro j x hj hx
        simp only [List.getElem?_append] at hx
        split at hx
        · omega
        · rw [List.getElem?_singleton] at hx
          split at hx
          · cases hx
            exact ⟨by simp only; omega, fun a ha => by cases ha; omega⟩
          · cases hx
    have hend := runHOps_inv (zero := zero) (init := init) _ (fun op => k ≤ op.target)
      (fun _ _ _ hI ha hs => Below.step hI ha hs) hl hstart hr
    have hobj := hend.objs j hj
    obtain ⟨x, hx⟩ : ∃ x, w.objs[j]? = some x := ⟨w.objs[j]'(by omega), by simp⟩
    have hxw := hwf x (mem_of_getElem? hx)
    refine ⟨by simpa [hypersOf, hobj, hx] using hend.hyp _ hxw.1, ?_, by
      simp [likeOf, hobj, hx]⟩
    cases hxp : x.prior with
    | none => simp [priorOf, hobj, hx, hxp]
    | some b => simpa [priorOf, hobj, hx, hxp] using hend.pri b (hxw.2 b hxp)

/-- **C40, what deep cloning keeps.** The deep clone has a copy of the prior message and the
parameters of the source, no data, and the hyperparameters initialization computes from the
prior message; so it has the source's hyperparameters exactly when those are still the initial
ones. -/
theorem c40_deep_clone_hypers_partial (zero : S) (init : Q → Except Fault H)
    (w w' : World H Q S P) (i k : ℕ)
    (hk : k = w.objs.length) (hc : runHOp zero init w (.deepClone i) = .ok w') :
    ∃ q h, priorOf w i = some q ∧ priorOf w' k = some q ∧ init q = .ok h ∧
      hypersOf w' k = some h ∧ (hypersOf w' k = hypersOf w i ↔ hypersOf w i = some h) ∧
      ∃ c c', likeOf w i = some c ∧ likeOf w' k = some c' ∧ c'.state = c.state ∧ c'.idx = ∅ ∧
        c'.card = 0 ∧ c'.stats = zero := by
  obtain ⟨o, ho, a, q, hv, hn, hp, hq, hhv, hinit, hw'⟩ := runHOp_eq_ok hc
  simp only [HOp.target] at ho
  have e : hypersOf w' k = some hn := by simp [hypersOf, hw', hk]
  refine ⟨q, hn, by simp [priorOf, ho, hp, hq], by simp [priorOf, hw', hk], hinit, e, ?_,
    o.like, cloneLike zero o.like, by simp [likeOf, ho], by simp [likeOf, hw', hk], rfl, rfl, rfl,
    rfl⟩
  rw [e]
  exact eq_comm

/-- A program: set a prior message with hyperpriors, initialize, update the hyperparameters. -/
noncomputable def exShareOps : List (HOp NIG NIGPrior UniLS) :=
  [.writePrior 0 (.ngg 0 1 2 2 3 3 1), .reinit 0, .writeHypers 0 ⟨5, 1, 1, 1⟩]

theorem exShareOps_run (like0 : Cluster UniNormStats UniLS) :
    ∃ w, runHOps uniNormZero nigInit (freshWorld ⟨0, 0, 0, 0⟩ like0) exShareOps = .ok w ∧
      w.objs.length = 1 ∧ hypersOf w 0 = some ⟨5, 1, 1, 1⟩ ∧
      priorOf w 0 = some (.ngg 0 1 2 2 3 3 1) ∧ w.hheap.length = 2 ∧
      w.objs[0]? = some ⟨1, some 0, clearAll uniNormZero like0⟩ := by
  have hi : nigInit (.ngg 0 1 2 2 3 3 1) = .ok ⟨0, 1, 1, 1⟩ := by
    norm_num [nigInit]
  refine ⟨⟨[⟨0, 0, 0, 0⟩, ⟨5, 1, 1, 1⟩], [.ngg 0 1 2 2 3 3 1],
    [⟨1, some 0, clearAll uniNormZero like0⟩]⟩, ?_, rfl, rfl, rfl, rfl, rfl⟩
  simp [runHOps, exShareOps, runHOp, freshWorld, vget, vset, initPrior, hi]

theorem exShareOps_deepClone (like0 : Cluster UniNormStats UniLS) :
    ∃ w w', runHOps uniNormZero nigInit (freshWorld ⟨0, 0, 0, 0⟩ like0) exShareOps = .ok w ∧
      runHOp uniNormZero nigInit w (.deepClone 0) = .ok w' ∧ w.objs.length = 1 := by
  obtain ⟨w, h1, h2, h3, h4, h5, h6⟩ := exShareOps_run like0
  have hi : nigInit (.ngg 0 1 2 2 3 3 1) = .ok ⟨0, 1, 1, 1⟩ := by
    norm_num [nigInit]
  have hp : w.pheap[0]? = some (.ngg 0 1 2 2 3 3 1) := by
    simpa [priorOf, h6] using h4
  have hh : w.hheap[1]? = some ⟨5, 1, 1, 1⟩ := by
    simpa [hypersOf, h6] using h3
  refine ⟨w, ⟨w.hheap ++ [⟨5, 1, 1, 1⟩] ++ [⟨0, 1, 1, 1⟩], w.pheap ++ [.ngg 0 1 2 2 3 3 1],
    w.objs ++ [⟨w.hheap.length + 1, some w.pheap.length,
      cloneLike uniNormZero (clearAll uniNormZero like0)⟩]⟩, h1, ?_, h2⟩
  simp [runHOp, deepCloneObj, vget, h6, hp, hh, initPrior, hi]

/-- C40: a clone shows the updated hyperparameters. -/
example (like0 : Cluster UniNormStats UniLS) : ∃ w w',
    runHOps uniNormZero nigInit (freshWorld ⟨0, 0, 0, 0⟩ like0) exShareOps = .ok w ∧
    runHOp uniNormZero nigInit w (.clone 0) = .ok w' ∧
    hypersOf w' 1 = some ⟨5, 1, 1, 1⟩ := by
  obtain ⟨w, h1, h2, h3, h4, h5, h6⟩ := exShareOps_run like0
  have hc : runHOp uniNormZero nigInit w (.clone 0) = .ok ⟨w.hheap, w.pheap, w.objs ++
      [⟨1, some 0, cloneLike uniNormZero (clearAll uniNormZero like0)⟩]⟩ := by
    simp [runHOp, cloneObj, vget, h6]
  obtain ⟨⟨h, e1, e2⟩, -⟩ := c40_clone _ _ _ _ _ _ _ h1 0 1 h2.symm hc
  rw [h3] at e1
  cases e1
  exact ⟨w, _, h1, hc, e2⟩

/-- C40: the hyperparameters written through the clone show in its source. -/
example (like0 : Cluster UniNormStats UniLS) : ∃ w w' w'',
    runHOps uniNormZero nigInit (freshWorld ⟨0, 0, 0, 0⟩ like0) exShareOps = .ok w ∧
    runHOp uniNormZero nigInit w (.clone 0) = .ok w' ∧
    runHOps uniNormZero nigInit w' [.writeHypers 1 ⟨7, 1, 1, 1⟩] = .ok w'' ∧
    hypersOf w'' 0 = hypersOf w'' 1 := by
  obtain ⟨w, h1, h2, h3, h4, h5, h6⟩ := exShareOps_run like0
  have hc : runHOp uniNormZero nigInit w (.clone 0) = .ok ⟨w.hheap, w.pheap, w.objs ++
      [⟨1, some 0, cloneLike uniNormZero (clearAll uniNormZero like0)⟩]⟩ := by
    simp [runHOp, cloneObj, vget, h6]
  have hr : runHOps uniNormZero nigInit ⟨w.hheap, w.pheap, w.objs ++
      [⟨1, some 0, cloneLike uniNormZero (clearAll uniNormZero like0)⟩]⟩
      [.writeHypers 1 ⟨7, 1, 1, 1⟩] = .ok ⟨w.hheap.set 1 ⟨7, 1, 1, 1⟩, w.pheap, w.objs ++
      [⟨1, some 0, cloneLike uniNormZero (clearAll uniNormZero like0)⟩]⟩ := by
    have e1 : (w.objs ++ [(⟨1, some 0, cloneLike uniNormZero (clearAll uniNormZero like0)⟩ :
        HObj UniNormStats UniLS)])[1]? =
        some ⟨1, some 0, cloneLike uniNormZero (clearAll uniNormZero like0)⟩ := by
      rw [← h2]; simp
    simp [runHOps, runHOp, vget, vset, e1, h5]
  exact ⟨w, _, _, h1, hc, hr, c40_clone_keeps_sharing _ _ _ _ _ 0 1 h2.symm hc _ (by simp) hr⟩

/-- C40: new hyperparameters of the source do not show in its deep clone, and those of the deep clone
not in its source. -/
example (like0 : Cluster UniNormStats UniLS) : ∃ w w' v1 v2,
    runHOps uniNormZero nigInit (freshWorld ⟨0, 0, 0, 0⟩ like0) exShareOps = .ok w ∧
    runHOp uniNormZero nigInit w (.deepClone 0) = .ok w' ∧
    runHOps uniNormZero nigInit w' [.writeHypers 0 ⟨7, 1, 1, 1⟩] = .ok v1 ∧
    runHOps uniNormZero nigInit w' [.writeHypers 1 ⟨7, 1, 1, 1⟩] = .ok v2 ∧
    hypersOf v1 1 = hypersOf w' 1 ∧ hypersOf v2 0 = some ⟨5, 1, 1, 1⟩ := by
  obtain ⟨w, w', h1, h2, h3⟩ := exShareOps_deepClone like0
  obtain ⟨v, g1, g2, g3, g4, g5, g6⟩ := exShareOps_run like0
  obtain rfl : w = v := Except.ok.inj (h1.symm.trans g1)
  obtain ⟨o, ho, a, q, hv, hn, hp, hq, hhv, hinit, hw'⟩ := runHOp_eq_ok h2
  simp only [HOp.target] at ho
  rw [g6] at ho
  cases ho
  have e0 : w'.objs[0]? = some ⟨1, some 0, clearAll uniNormZero like0⟩ := by
    rw [hw']
    exact (List.getElem?_append_left (by omega)).trans g6
  have e1 : ∃ x : HObj UniNormStats UniLS, w'.objs[1]? = some x ∧ x.hypers = 3 := by
    rw [hw']
    refine ⟨_, by rw [← g2, List.getElem?_concat_length], by simp [g5, g2]⟩
  obtain ⟨x, e1, e2⟩ := e1
  have hl : w'.hheap.length = 4 := by rw [hw']; simp [g5]
  have r1 : runHOps uniNormZero nigInit w' [.writeHypers 0 ⟨7, 1, 1, 1⟩] =
      .ok ⟨w'.hheap.set 1 ⟨7, 1, 1, 1⟩, w'.pheap, w'.objs⟩ := by
    simp [runHOps, runHOp, vget, vset, e0, hl]
  have r2 : runHOps uniNormZero nigInit w' [.writeHypers 1 ⟨7, 1, 1, 1⟩] =
      .ok ⟨w'.hheap.set 3 ⟨7, 1, 1, 1⟩, w'.pheap, w'.objs⟩ := by
    simp [runHOps, runHOp, vget, vset, e1, e2, hl]
  refine ⟨w, w', _, _, h1, h2, r1, r2,
    ((c40_deep_clone_independent _ _ _ _ _ _ _ _ h1 0 1 h3.symm h2 _ r1).1 (by simp [HOp.target])).1,
    ?_⟩
  rw [((c40_deep_clone_independent _ _ _ _ _ _ _ _ h1 0 1 h3.symm h2 _ r2).2 (by simp [HOp.target]) 0
    one_pos).1, g3]

/-- **C40, violated.** A deep clone of an initialized hierarchy whose hyperparameters have been
updated since does not have those hyperparameters. -/
theorem c40_deep_clone_hypers_violated (like0 : Cluster UniNormStats UniLS) :
    ∃ w w', runHOps uniNormZero nigInit (freshWorld ⟨0, 0, 0, 0⟩ like0) exShareOps = .ok w ∧
      runHOp uniNormZero nigInit w (.deepClone 0) = .ok w' ∧
      hypersOf w 0 = some ⟨5, 1, 1, 1⟩ ∧ hypersOf w' 1 = some ⟨0, 1, 1, 1⟩ := by
  obtain ⟨w, w', h1, h2, h3⟩ := exShareOps_deepClone like0
  obtain ⟨v, g1, g2, g3, g4, -⟩ := exShareOps_run like0
  rw [h1] at g1
  cases g1
  obtain ⟨q, h, e1, -, e3, e4, -⟩ :=
    c40_deep_clone_hypers_partial _ _ _ _ 0 1 h3.symm h2
  rw [g4] at e1
  cases e1
  have hi : nigInit (.ngg 0 1 2 2 3 3 1) = .ok ⟨0, 1, 1, 1⟩ := by
    norm_num [nigInit]
  rw [hi] at e3
  cases e3
  exact ⟨w, w', h1, h2, g3, e4⟩

/-- **C40, no prior message.** Deep cloning an object whose prior was never set dereferences a
null pointer, whereas initializing it throws. -/
theorem c40_null_prior_is_ub (zero : S) (init : Q → Except Fault H) (h0 : H)
    (like0 : Cluster S P) :
    runHOp zero init (freshWorld h0 like0) (.deepClone 0) = .error .ub ∧
    runHOp zero init (freshWorld h0 like0) (.reinit 0) = .error .throw := by
  constructor <;> rfl

end Bayesmix.Hierarchies
