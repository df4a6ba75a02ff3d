import Verif.Algo.BlockedAvg
import Verif.Algo.FinChainLimit
import Verif.Alloc.InitLemmas
import Verif.Mixing.SBLemmas

/-!
# The state of blocked Gibbs after initialization
-/

namespace Bayesmix.Cond
open Bayesmix Mixing Slice Gibbs MeasureTheory ENNReal Hierarchies

variable {G H Θ : Type} [AddCommGroup G]

/-- `BaseAlgorithm::initialize` (`src/algorithms/base_algorithm.cc` 114-150) for blocked Gibbs with a
truncated stick-breaking mixing of `K` components: the mixing first, then labels and values. -/
noncomputable def blockedInit (E : Env G H Θ) (prior : SBPrior) (K n : ℕ) (h0 : H) (θ0 : Θ)
    (z : InitNoise) (o : Hier G H Θ) : Except Fault (Alg G H Θ × SBState) := do
  let mix ← sbInit prior K
  let s ← initAlloc E false mix.num n h0 θ0 z [o]
  .ok (s, mix)

variable {E : Env G H Θ}

theorem foldlM_keeps {S α : Type} (f : S → α → Except Fault S) {P : S → Prop}
    (h : ∀ s x s', f s x = .ok s' → P s → P s') (l : List α) :
    ∀ {s s' : S}, l.foldlM f s = .ok s' → P s → P s' := by
  induction l with
  | nil =>
    intro s s' e hs
    rw [← Except.ok.inj e]
    exact hs
  | cons x l ih =>
    intro s s' e hs
    rw [List.foldlM_cons] at e
    cases ef : f s x with
    | error er => rw [ef] at e; cases e
    | ok t =>
      rw [ef] at e
      exact ih e (h s x t ef hs)

theorem growStep_cache {h h0 : H} {r : ℕ → ℕ} {cl cl' : List (Hier G H Θ)} {i : ℕ}
    (e : growStep E h r cl i = .ok cl') (hc : CacheIs (firstSaved h0) cl) :
    CacheIs (firstSaved h0) cl' := by
  unfold growStep at e
  cases e0 : vget cl 0 with
  | error f => rw [e0] at e; cases e
  | ok o0 =>
    rw [e0, ok_bind] at e
    have hl : 0 < cl.length := (List.getElem?_eq_some_iff.mp (vget_some e0)).1
    have happ : CacheIs (firstSaved h0) (cl ++ [o0.clone]) := by
      intro k p hp
      rw [List.getElem?_append] at hp
      split at hp
      · exact hc k p hp
      · rename_i hk
        have hk0 : k ≠ 0 := by omega
        have hp' : p = o0.clone := by
          rw [List.getElem?_singleton] at hp
          split at hp
          · exact (Option.some.inj hp).symm
          · cases hp
        rw [hp', firstSaved, if_neg hk0]
        exact ⟨rfl, fun p hp => by cases hp⟩
    cases e1 : vget (cl ++ [o0.clone]) i with
    | error f => simp only [e1] at e; cases e
    | ok o =>
      simp only [e1, ok_bind] at e
      rw [← Except.ok.inj e]
      exact happ.set (vget_some e1) rfl rfl

theorem seat_cache {Q : ℕ → Option H} {n i c : ℕ} {s s' : Alg G H Θ} (e : seat E n s i c = .ok s')
    (hc : CacheIs Q s.clus) : CacheIs Q s'.clus := by
  unfold seat at e
  split at e
  · cases e0 : vget s.clus c with
    | error f => rw [e0] at e; cases e
    | ok o =>
      rw [e0, ok_bind] at e
      cases e1 : o.addDatum E s.hyp false i with
      | error f => rw [e1] at e; cases e
      | ok o' =>
        rw [e1, ok_bind] at e
        rw [← Except.ok.inj e]
        have ho' : o'.saved = o.saved ∧ o'.ph = o.ph := by
          unfold Hier.addDatum at e1
          split at e1
          · cases e1
          · simp only [Bool.false_eq_true, if_false] at e1
            rw [← Except.ok.inj e1]
            exact ⟨rfl, rfl⟩
        exact hc.set (vget_some e0) ho'.1 ho'.2
  · cases e

/-- After initialization with a conjugate hierarchy only the first object has saved hyperparameters:
those of the prior. -/
theorem initAlloc_cache (hk : E.kind = .conjugate) {K n : ℕ} {h0 : H} {θ0 : Θ} {z : InitNoise}
    {o : Hier G H Θ} {s : Alg G H Θ} (e : initAlloc E false K n h0 θ0 z [o] = .ok s) :
    CacheIs (firstSaved h0) s.clus := by
  unfold initAlloc at e
  rw [vget_ok (a := o) rfl, ok_bind] at e
  simp only [List.set_cons_zero, Bool.false_eq_true, if_false] at e
  cases e1 : (List.range (K - 1)).foldlM (growStep E h0 z.prior) [initObject E h0 θ0 o] with
  | error f => rw [e1] at e; cases e
  | ok cl =>
    rw [e1, ok_bind] at e
    have h1 : CacheIs (firstSaved h0) cl := by
      refine foldlM_keeps _ (fun _ _ _ e hc => growStep_cache e hc) _ e1 ?_
      intro k p hp
      rw [List.getElem?_singleton] at hp
      split at hp
      · rename_i hk0
        rw [← Option.some.inj hp, firstSaved, if_pos hk0]
        simp [initObject, hk]
      · cases hp
    cases e2 : (List.range K).foldlM (fun s i => seat E n s i i)
        ({ alloc := [], clus := cl, hyp := h0 } : Alg G H Θ) with
    | error f => simp only [e2] at e; cases e
    | ok s1 =>
      simp only [e2, ok_bind] at e
      have h2 : CacheIs (firstSaved h0) s1.clus :=
        foldlM_keeps (P := fun s : Alg G H Θ => CacheIs (firstSaved h0) s.clus) _
          (fun _ _ _ e hc => seat_cache e hc) _ e2 h1
      cases e3 : (List.range (n - K)).foldlM (fun s j => seat E n s (K + j) (z.cat j % K)) s1 with
      | error f => simp only [e3] at e; cases e
      | ok s2 =>
        simp only [e3, ok_bind] at e
        rw [← Except.ok.inj e]
        exact foldlM_keeps (P := fun s : Alg G H Θ => CacheIs (firstSaved h0) s.clus) _
          (fun _ _ _ e hc => seat_cache e hc) _ e3 h2

theorem exists_labels {n K : ℕ} {s : Alg G H Θ} (hc : Consistent E.contrib n s)
    (hl : s.clus.length = K) :
    ∃ c : Fin n → Fin K, s.alloc = List.ofFn fun i => (c i).val := by
  have hlab : ∀ i : Fin n, ∃ k : Fin K, s.alloc[i.val]? = some k.val := by
    intro i
    obtain ⟨k, hk, hlt⟩ := hc.on.labelled i (by simp)
    exact ⟨⟨k, by omega⟩, hk⟩
  choose c hc' using hlab
  refine ⟨c, List.ext_getElem? fun j => ?_⟩
  by_cases hj : j < n
  · rw [hc' ⟨j, hj⟩, List.getElem?_ofFn, dif_pos hj]
  · rw [List.getElem?_eq_none (by rw [hc.len]; omega), List.getElem?_eq_none (by simp; omega)]

theorem exists_ofFn {α : Type} {K : ℕ} (l : List α) (hl : l.length = K) :
    ∃ f : Fin K → α, l = List.ofFn f := by
  subst hl
  exact ⟨fun k => l[k.val], List.ofFn_getElem.symm⟩

/-- Initialization succeeds and leads to a state with labels, values and sticks in which the prior's
hyperparameters are saved as the posterior ones of the first component. -/
theorem blockedInit_ok (hk : E.kind = .conjugate) {prior : SBPrior} {K n : ℕ} (hK : 0 < K)
    (hKn : K ≤ n) {a b : Fin K → ℝ} (hsh : ∀ k : Fin K, betaParams prior K k = .ok (a k, b k))
    (ha : ∀ k, 0 < a k) (hb : ∀ k, 0 < b k) (hchk : sbCheck prior K = .ok ()) (h0 : H) (θ0 : Θ)
    (z : InitNoise) (o : Hier G H Θ) (ho : o.CacheOk) :
    ∃ s mix, blockedInit E prior K n h0 θ0 z o = .ok (s, mix) ∧
      ∃ (c : Fin n → Fin K) (θ : Fin K → Θ) (v : Fin K → ℝ),
        BlockedState E prior (firstSaved h0) c θ v h0 s mix ∧ ∀ k, 0 < v k ∧ v k ≤ 1 := by
  have hshapes : priorShapes prior K = .ok (List.ofFn fun k => (a k, b k)) := by
    rw [priorShapes, Gibbs.mapM_ok _ (fun k => if h : k < K then (a ⟨k, h⟩, b ⟨k, h⟩) else (0, 0))]
    · congr 1
      refine List.ext_getElem (by simp) fun j h1 h2 => ?_
      simp only [List.length_map, List.length_range] at h1
      simp [h1]
    · intro k hk
      rw [List.mem_range] at hk
      rw [dif_pos hk]
      exact hsh ⟨k, hk⟩
  obtain ⟨v, hv⟩ : ∃ v : Fin K → ℝ, v = fun k => a k / (a k + b k) := ⟨_, rfl⟩
  have hmap : (List.ofFn fun k => (a k, b k)).map (fun ab => ab.1 / (ab.1 + ab.2)) = List.ofFn v := by
    rw [List.map_ofFn, hv]
    rfl
  obtain ⟨lw, hlw, -⟩ := logweights_ok (List.ofFn v)
  rw [List.length_ofFn] at hlw
  have hinit : sbInit prior K = .ok ⟨List.ofFn v, lw, K⟩ := by
    rw [sbInit, hchk, ok_bind, hshapes, ok_bind]
    simp only [hmap]
    rw [hlw, ok_bind]
  obtain ⟨s, es, hs, hlen, hhyp, -⟩ := initAlloc_ok (E := E) (upd := false) (h0 := h0) (θ0 := θ0) z
    (o := o) (by simp [CanSave]) hK hKn ho
  obtain ⟨c, hc⟩ := exists_labels hs.cons hlen
  obtain ⟨θ, hθ⟩ := exists_ofFn (s.clus.map Hier.state) (by rw [List.length_map, hlen])
  refine ⟨s, ⟨List.ofFn v, lw, K⟩, ?_, c, θ, v, ⟨hc, hθ, rfl, hhyp, hs.cons, initAlloc_cache hk es,
    .init hinit⟩, fun k => ?_⟩
  · rw [blockedInit, hinit, ok_bind, es, ok_bind]
  · rw [hv]
    have h1 := ha k
    have h2 := hb k
    exact ⟨by positivity, by rw [div_le_one (by positivity)]; linarith⟩

end Bayesmix.Cond
