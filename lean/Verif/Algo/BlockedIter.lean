import Verif.Algo.BlockedKernel

/-!
# An iteration of blocked Gibbs
-/

namespace Bayesmix.Cond
open Bayesmix Mixing Slice Gibbs MeasureTheory ENNReal

variable {G H Θ : Type} [AddCommGroup G]

/-- What `ConditionalAlgorithm::step` (`src/algorithms/conditional_algorithm.h` 56-58) does after
the labels are drawn: `sample_unique_values`, `update_hierarchy_hypers` and
`BlockedGibbsAlgorithm::sample_weights` (`blocked_gibbs_algorithm.cc` 52-54). `inf` is the flag
`infinite_mixture` of the prior of the weights. -/
noncomputable def blockedRest (E : Env G H Θ) (prior : SBPrior) (inf : Bool) (r : ℕ → ℕ) (rh : ℕ)
    (draws : ℕ → ℝ → ℝ → ℝ) (mix : SBState) (s : Alg G H Θ) :
    Except Fault (Alg G H Θ × SBState) := do
  let s ← sampleUniqueValues E false r s
  let s ← updateHypers E rh s
  let mix ← sbUpdate mix prior inf (s.clus.map fun o => o.card.toNat) draws
  .ok (s, mix)

/-- Object number `k` has the posterior hyperparameters `Q k` saved, or none if `Q k` is `none`. -/
def CacheIs (Q : ℕ → Option H) (l : List (Hier G H Θ)) : Prop :=
  ∀ k o, l[k]? = some o → o.saved = (Q k).isSome ∧ ∀ p, Q k = some p → o.ph = some p

/-- No object has saved posterior hyperparameters. -/
def noneSaved : ℕ → Option H := fun _ => none

/-- Only the first object has saved hyperparameters, `h0`. -/
def firstSaved (h0 : H) : ℕ → Option H := fun k => if k = 0 then some h0 else none

/-- Hyperparameters with which the value of component `k` is drawn when object number `k` has `Q k`
saved (`SemiConjugateUpdater::draw`, `src/hierarchies/updaters/semi_conjugate_updater.h` 39-48 and
71-88): those of the prior if no row is in the component, else the saved ones, if any, else the
posterior ones. -/
noncomputable def drawHyp (E : Env G H Θ) (Q : ℕ → Option H) (h : H) {n K : ℕ} (c : Fin n → Fin K)
    (k : Fin K) : H :=
  if cnt c k = 0 then h else
    (Q k).getD (E.post h (cnt c k) (∑ i ∈ rowsOf c k, E.contrib i))

/-- The state of the algorithm and of the mixing has labels `c`, values `θ`, sticks `v`,
hyperparameters `h` and saved posterior hyperparameters `Q`. -/
structure BlockedState (E : Env G H Θ) (prior : SBPrior) (Q : ℕ → Option H) {n K : ℕ}
    (c : Fin n → Fin K) (θ : Fin K → Θ) (v : Fin K → ℝ) (h : H) (s : Alg G H Θ) (mix : SBState) : Prop where
  labels : s.alloc = List.ofFn fun i => (c i).val
  values : s.clus.map Hier.state = List.ofFn θ
  sticks : mix.sticks = List.ofFn v
  hyp : s.hyp = h
  cons : Consistent E.contrib n s
  cache : CacheIs Q s.clus
  run : SBRun prior false mix

/-- Values and sizes of the components in use. -/
noncomputable def inUse {n K : ℕ} (c : Fin n → Fin K) (θ : Fin K → Θ) : List (Θ × ℤ) :=
  (List.finRange K).filterMap fun k => if cnt c k = 0 then none else some (θ k, (cnt c k : ℤ))

section lemmas

variable {E : Env G H Θ} {Q : ℕ → Option H} {n K : ℕ}

theorem drawHyp_noneSaved (h : H) (c : Fin n → Fin K) (k : Fin K) :
    drawHyp E noneSaved h c k = condHyp E h c k := rfl

theorem CacheIs.set {l : List (Hier G H Θ)} (hl : CacheIs Q l) {j : ℕ} {o q : Hier G H Θ}
    (ho : l[j]? = some o) (h1 : q.saved = o.saved) (h2 : q.ph = o.ph) : CacheIs Q (l.set j q) := by
  intro k p hp
  rw [List.getElem?_set] at hp
  split at hp
  · rename_i hk
    subst hk
    split at hp
    · rw [← Option.some.inj hp, h1, h2]
      exact hl j o ho
    · cases hp
  · exact hl k p hp

theorem CacheIs.ok {s : Alg G H Θ} (h : CacheIs Q s.clus) : CachesOk s := by
  intro o ho hs
  obtain ⟨j, hj, rfl⟩ := List.mem_iff_getElem.mp ho
  obtain ⟨h1, h2⟩ := h j _ (List.getElem?_eq_getElem hj)
  rw [hs] at h1
  obtain ⟨p, hp⟩ := Option.isSome_iff_exists.mp h1.symm
  rw [h2 p hp]
  rfl

theorem sweep_keeps {S : Type} {row : ℕ → S → Except Fault (Law S)} {P : S → Prop}
    (h : ∀ i s l, row i s = .ok l → P s → ∀ x ∈ l, P x.2) (rows : List ℕ) :
    ∀ s l, sweep row rows s = .ok l → P s → ∀ x ∈ l, P x.2 := by
  induction rows with
  | nil =>
    intro s l e hs x hx
    rw [← Except.ok.inj e, List.mem_singleton] at hx
    rw [hx]
    exact hs
  | cons i is ih =>
    intro s l e hs x hx
    rw [sweep] at e
    cases er : row i s with
    | error f => rw [er] at e; cases e
    | ok m =>
      rw [er, ok_bind, Law.andThen] at e
      cases em : m.mapM (fun x => do
          let m ← sweep row is x.2
          (Except.ok (m.map fun y : ℝ × S => (x.1 * y.1, y.2)) : Except Fault (Law S))) with
      | error f => rw [em] at e; cases e
      | ok q =>
        rw [em, ok_bind] at e
        rw [← Except.ok.inj e, List.mem_flatten] at hx
        obtain ⟨l1, hl1, hx1⟩ := hx
        obtain ⟨z, hz, ez⟩ := mapM_ok_mem em l1 hl1
        cases es : sweep row is z.2 with
        | error f => rw [es] at ez; cases ez
        | ok l2 =>
          rw [es, ok_bind] at ez
          rw [← Except.ok.inj ez, List.mem_map] at hx1
          obtain ⟨y, hy, rfl⟩ := hx1
          exact ih z.2 l2 es (h i s m er hs z hz) y hy

theorem drawThen_mem {S : Type} {p : List ℝ} {next : ℕ → Except Fault S} {l : Law S}
    (h : drawThen p next = .ok l) : ∀ x ∈ l, ∃ k, next k = .ok x.2 := by
  intro x hx
  obtain ⟨k, -, hk⟩ := mapM_ok_mem h x hx
  cases e1 : eigenAt p k with
  | error f => rw [e1] at hk; cases hk
  | ok q =>
    rw [e1, ok_bind] at hk
    cases e2 : next k with
    | error f => rw [e2] at hk; cases hk
    | ok t =>
      rw [e2, ok_bind] at hk
      rw [← Except.ok.inj hk]
      exact ⟨k, e2⟩

theorem blockedDatum_keeps {K i rc : ℕ} {s s' : Alg G H Θ} (h : blockedDatum E K s i rc = .ok s')
    (hs : CacheIs Q s.clus) : s'.hyp = s.hyp ∧ CacheIs Q s'.clus := by
  have hget : ∀ (l : List (Hier G H Θ)) (j : ℕ) (q : Hier G H Θ), vget l j = .ok q →
      l[j]? = some q := by
    intro l j q h
    unfold vget at h
    split at h
    · rename_i x e
      rw [← Except.ok.inj h]
      exact e
    · cases h
  unfold blockedDatum at h
  split at h
  · cases h
  cases e1 : categorical K rc with
  | error f => rw [e1] at h; cases h
  | ok cNew =>
    rw [e1, ok_bind] at h
    cases e2 : vget s.alloc i with
    | error f => rw [e2] at h; cases h
    | ok cOld =>
      rw [e2, ok_bind] at h
      split at h
      · cases e3 : vset s.alloc i cNew with
        | error f => rw [e3] at h; cases h
        | ok al =>
          rw [e3, ok_bind] at h
          cases e4 : vget s.clus cOld with
          | error f => rw [e4] at h; cases h
          | ok o =>
            rw [e4, ok_bind] at h
            cases e5 : o.removeDatum E s.hyp false i with
            | error f => rw [e5] at h; cases h
            | ok o' =>
              rw [e5, ok_bind] at h
              simp only at h
              have ho' : o'.saved = o.saved ∧ o'.ph = o.ph := by
                unfold Hier.removeDatum at e5
                split at e5
                · cases e5
                · simp only [Bool.false_eq_true, if_false] at e5
                  rw [← Except.ok.inj e5]
                  exact ⟨rfl, rfl⟩
              have hs' := hs.set (hget _ _ _ e4) ho'.1 ho'.2
              cases e6 : vget (s.clus.set cOld o') cNew with
              | error f => rw [e6] at h; cases h
              | ok p =>
                rw [e6, ok_bind] at h
                cases e7 : p.addDatum E s.hyp false i with
                | error f => rw [e7] at h; cases h
                | ok p' =>
                  rw [e7, ok_bind] at h
                  have hp' : p'.saved = p.saved ∧ p'.ph = p.ph := by
                    unfold Hier.addDatum at e7
                    split at e7
                    · cases e7
                    · simp only [Bool.false_eq_true, if_false] at e7
                      rw [← Except.ok.inj e7]
                      exact ⟨rfl, rfl⟩
                  rw [← Except.ok.inj h]
                  exact ⟨rfl, hs'.set (hget _ _ _ e6) hp'.1 hp'.2⟩
      · rw [← Except.ok.inj h]
        exact ⟨rfl, hs⟩

theorem blockedLaw_keeps {like : Θ → ℕ → ℝ} {lw : ℕ → List EReal} {K n : ℕ} {s : Alg G H Θ}
    {l : Law (Alg G H Θ)} (h : blockedLaw E like lw K n s = .ok l)
    (hs : CacheIs Q s.clus) : ∀ x ∈ l, x.2.hyp = s.hyp ∧ CacheIs Q x.2.clus := by
  refine sweep_keeps (P := fun t => t.hyp = s.hyp ∧ CacheIs Q t.clus) ?_ _ s l h
    ⟨rfl, hs⟩
  intro i t m e ht x hx
  unfold blockedRow at e
  cases ep : blockedProbas like (lw i) K t i with
  | error f => rw [ep] at e; cases e
  | ok p =>
    rw [ep, ok_bind] at e
    obtain ⟨k, hk⟩ := drawThen_mem e x hx
    obtain ⟨a, b⟩ := blockedDatum_keeps hk ht.2
    exact ⟨a.trans ht.1, b⟩

theorem members_ofFn (c : Fin n → Fin K) (k : Fin K) :
    membersIn (Finset.range n) (List.ofFn fun i => (c i).val) k.val = rowsOf c k := by
  ext i
  simp only [membersIn, rowsOf, Finset.mem_filter, Finset.mem_range, Finset.mem_map, Finset.mem_univ,
    true_and, Fin.valEmbedding_apply, List.getElem?_ofFn]
  constructor
  · rintro ⟨hi, h⟩
    rw [dif_pos hi, Option.some_inj] at h
    exact ⟨⟨i, hi⟩, Fin.ext h, rfl⟩
  · rintro ⟨j, hj, rfl⟩
    refine ⟨j.isLt, ?_⟩
    rw [dif_pos j.isLt, hj]

theorem countP_ofFn {α : Type} (f : Fin n → α) (p : α → Bool) :
    (List.ofFn f).countP p = (Finset.univ.filter fun i => p (f i) = true).card := by
  induction n with
  | zero => simp
  | succ n ih =>
    rw [List.ofFn_succ, List.countP_cons, ih, Fin.univ_succ, Finset.filter_cons,]
    split
    · rename_i h
      rw [Finset.card_cons, Finset.filter_map, Finset.card_map]
      rfl
    · rename_i h
      rw [Finset.filter_map, Finset.card_map]
      rfl

theorem count_ofFn (c : Fin n → Fin K) (k : Fin K) :
    (List.ofFn fun i => (c i).val).count k.val = cnt c k := by
  rw [List.count, countP_ofFn, cnt]
  congr 1
  ext i
  simp [Fin.ext_iff]

theorem later_ofFn (c : Fin n → Fin K) (k : Fin K) :
    ((List.ofFn fun i => (c i).val).countP fun x => decide (k.val < x)) = later c k := by
  rw [countP_ofFn, later]
  congr 1
  ext i
  simp

/-- The sticks after the update of the mixing. -/
theorem sbUpdate_labels {prior : SBPrior} {mix : SBState} (hrun : SBRun prior false mix) (hK : 0 < K)
    (hnum : mix.num = K) {a b : Fin K → ℝ} (hs : ∀ k : Fin K, betaParams prior K k = .ok (a k, b k))
    (ha : ∀ k, 0 < a k) (hb : ∀ k, 0 < b k) (c : Fin n → Fin K) (draws : ℕ → ℝ → ℝ → ℝ) :
    ∃ mix', sbUpdate mix prior false (List.ofFn fun k => cnt c k) draws = .ok mix' ∧
      mix'.sticks = List.ofFn fun k : Fin K => if k.val + 1 = K then 1 else
        draws k (a k + cnt c k) (b k + later c k) := by
  have hsh : priorShapes prior mix.num = .ok (List.ofFn fun k => (a k, b k)) := by
    rw [hnum, priorShapes, Gibbs.mapM_ok _ (fun k => if h : k < K then (a ⟨k, h⟩, b ⟨k, h⟩) else (0, 0))]
    · congr 1
      refine List.ext_getElem (by simp) fun j h1 h2 => ?_
      simp only [List.length_map, List.length_range] at h1
      simp [h1]
    · intro k hk
      rw [List.mem_range] at hk
      rw [dif_pos hk]
      exact hs ⟨k, hk⟩
  have hcards : (List.ofFn fun k => cnt c k) =
      (List.range K).map fun j => (List.ofFn fun i => (c i).val).count j := by
    refine List.ext_getElem (by simp) fun j h1 h2 => ?_
    simp only [List.length_ofFn] at h1
    simp only [List.getElem_ofFn, List.getElem_map, List.getElem_range]
    exact (count_ofFn c ⟨j, h1⟩).symm
  have hdrop : ∀ j : ℕ, (hj : j < K) → ((List.ofFn fun k => cnt c k).drop (j + 1)).sum =
      later c ⟨j, hj⟩ := by
    intro j hj
    rw [hcards, sum_drop_count _ K (j + 1) (by
      intro x hx
      rw [List.mem_ofFn] at hx
      obtain ⟨i, rfl⟩ := hx
      exact (c i).isLt), ← later_ofFn c ⟨j, hj⟩]
    refine List.countP_congr fun x _ => ?_
    simp only [decide_eq_true_eq]
    omega
  have hnew : (List.range mix.num).mapM
      (drawStick (List.ofFn fun k => (a k, b k)) (List.ofFn fun k => cnt c k) draws) =
        .ok (List.ofFn fun k : Fin K => draws k (a k + cnt c k) (b k + later c k)) := by
    rw [hnum, Gibbs.mapM_ok _ (fun k => if h : k < K then
      draws k (a ⟨k, h⟩ + cnt c ⟨k, h⟩) (b ⟨k, h⟩ + later c ⟨k, h⟩) else 0)]
    · congr 1
      refine List.ext_getElem (by simp) fun j h1 h2 => ?_
      simp only [List.length_map, List.length_range] at h1
      simp [h1]
    · intro k hk
      rw [List.mem_range] at hk
      rw [dif_pos hk, drawStick, vget_ok (a := (a ⟨k, hk⟩, b ⟨k, hk⟩)) (by simp [hk]), ok_bind,
        vget_ok (a := cnt c ⟨k, hk⟩) (by simp [hk]), ok_bind]
      simp only
      rw [hdrop k hk, betaRng, if_pos]
      have h1 := ha ⟨k, hk⟩
      have h2 := hb ⟨k, hk⟩
      constructor <;> positivity
  have hinv := hrun.inv
  have hlen : mix.sticks.length = K := by rw [← hinv.1, hnum]
  have hset : ((List.ofFn fun k : Fin K => draws k (a k + cnt c k) (b k + later c k)) ++
      mix.sticks.drop mix.num).set (mix.num - 1) 1 = List.ofFn fun k : Fin K =>
        if k.val + 1 = K then 1 else draws k (a k + cnt c k) (b k + later c k) := by
    rw [List.drop_eq_nil_iff.mpr (by omega), List.append_nil]
    refine List.ext_getElem (by simp) fun j h1 h2 => ?_
    simp only [List.length_ofFn] at h2
    rw [List.getElem_set]
    simp only [List.getElem_ofFn]
    by_cases hj : j + 1 = K
    · rw [if_pos (by omega), if_pos hj]
    · rw [if_neg (by omega), if_neg hj]
  have hst : storeSticks mix false
      (List.ofFn fun k : Fin K => draws k (a k + cnt c k) (b k + later c k)) =
      .ok (List.ofFn fun k : Fin K => if k.val + 1 = K then 1 else
        draws k (a k + cnt c k) (b k + later c k)) := by
    rw [storeSticks, if_neg (by omega), if_neg (by simp), if_neg (by omega), hset]
  obtain ⟨lw, hlw, -⟩ := logweights_ok (List.ofFn fun k : Fin K => if k.val + 1 = K then 1 else
    draws k (a k + cnt c k) (b k + later c k))
  rw [List.length_ofFn] at hlw
  refine ⟨{ mix with
    sticks := List.ofFn fun k : Fin K => if k.val + 1 = K then 1 else
      draws k (a k + cnt c k) (b k + later c k)
    logweights := lw }, ?_, rfl⟩
  rw [sbUpdate, if_neg (by simp [hnum]), hsh, ok_bind, hnew, ok_bind, hst, ok_bind, hnum, hlw, ok_bind]

/-- What the rest of the iteration does with the labels. -/
theorem blockedRest_ok (hk : E.kind ≠ .other) {prior : SBPrior} {mix : SBState}
    (hrun : SBRun prior false mix) (hK : 0 < K) (hnum : mix.num = K) {a b : Fin K → ℝ}
    (hsh : ∀ k : Fin K, betaParams prior K k = .ok (a k, b k)) (ha : ∀ k, 0 < a k)
    (hb : ∀ k, 0 < b k) {c : Fin n → Fin K} {s : Alg G H Θ}
    (hl : s.alloc = List.ofFn fun i => (c i).val) (hlen : s.clus.length = K)
    (hc : Consistent E.contrib n s) (hu : CacheIs Q s.clus) (r : ℕ → ℕ) (rh : ℕ)
    (draws : ℕ → ℝ → ℝ → ℝ) :
    ∃ s' mix', blockedRest E prior false r rh draws mix s = .ok (s', mix') ∧
      BlockedState E prior Q c (fun k => E.sample (drawHyp E Q s.hyp c k) (r k))
        (fun k => if k.val + 1 = K then 1 else draws k (a k + cnt c k) (b k + later c k))
        (E.hyperUpdate s.hyp (inUse c fun k => E.sample (drawHyp E Q s.hyp c k) (r k)) rh) s' mix' := by
  obtain ⟨s2, e2, c2, -, a2, l2, hy2, v2⟩ :=
    sampleUniqueValues_ok (E := E) (upd := false) (r := r) hc hu.ok
  have hgood : ∀ (k : Fin K) (o : Hier G H Θ), s2.clus[k.val]? = some o →
      o.state = E.sample (drawHyp E Q s.hyp c k) (r k) ∧ o.card = (cnt c k : ℤ) ∧
        o.saved = (Q k).isSome ∧ ∀ p, Q k = some p → o.ph = some p := by
    intro k o' ho'
    obtain ⟨o, ho, hd, h1, -, -, h2⟩ := v2 k.val o' ho'
    have hcard : o.card = (cnt c k : ℤ) := by
      rw [hc.on.cards k.val o ho, hl, members_ofFn, rowsOf_card]
    have hss : o.ss = ∑ i ∈ rowsOf c k, E.contrib i := by
      rw [hc.on.stats k.val o ho, hl, members_ofFn]
    obtain ⟨hus, hup⟩ := hu k.val o ho
    suffices hx : o'.state = E.sample (drawHyp E Q s.hyp c k) (r k) ∧
        ∀ p, Q k = some p → o'.ph = some p from ⟨hx.1, h1.trans hcard, h2.trans hus, hx.2⟩
    rw [Hier.sampleFullCond, if_neg hk] at hd
    unfold drawHyp
    by_cases h0 : cnt c k = 0
    · rw [if_pos (by rw [hcard, h0]; rfl)] at hd
      rw [if_pos h0, ← Except.ok.inj hd]
      exact ⟨rfl, hup⟩
    · rw [if_neg (by rw [hcard]; exact_mod_cast h0), Hier.getPosterior] at hd
      rw [if_neg h0]
      cases hq : Q k.val with
      | none =>
        rw [hq] at hus
        rw [if_pos (by simp [hus]), ok_bind] at hd
        rw [← Except.ok.inj hd, hcard, hss]
        exact ⟨rfl, fun p hp => by cases hp⟩
      | some p =>
        rw [hq] at hus
        have hp := hup p hq
        rw [if_neg (by simp [hus]), if_neg (by simp [hus]), hp] at hd
        simp only [ok_bind] at hd
        rw [← Except.ok.inj hd]
        refine ⟨rfl, fun p' hp' => ?_⟩
        rw [← Option.some.inj hp']
        exact hp
  have hmap : ∀ {β : Type} (f : Hier G H Θ → β) (g : Fin K → β),
      (∀ (k : Fin K) (o : Hier G H Θ), s2.clus[k.val]? = some o → f o = g k) →
      s2.clus.map f = List.ofFn g := by
    intro β f g hfg
    refine List.ext_getElem (by simp [l2, hlen]) fun j h1 h2 => ?_
    simp only [List.length_ofFn] at h2
    simp only [List.getElem_map, List.getElem_ofFn]
    refine hfg ⟨j, h2⟩ _ ?_
    rw [List.getElem?_eq_getElem (by simpa using h1)]
  have hvals := hmap Hier.state (fun k => E.sample (drawHyp E Q s.hyp c k) (r k)) fun k o ho =>
    (hgood k o ho).1
  have hcards := hmap (fun o => o.card.toNat) (fun k => cnt c k) fun k o ho => by
    rw [(hgood k o ho).2.1, Int.toNat_natCast]
  have hocc : ((s2.clus.filter fun o => o.card > 0).map fun o => (o.state, o.card)) =
      inUse c fun k => E.sample (drawHyp E Q s.hyp c k) (r k) := by
    have h1 := hmap (fun o => (o.state, o.card)) (fun k =>
      (E.sample (drawHyp E Q s.hyp c k) (r k), (cnt c k : ℤ))) fun k o ho => by
        rw [(hgood k o ho).1, (hgood k o ho).2.1]
    have h2 : ((s2.clus.filter fun o => o.card > 0).map fun o => (o.state, o.card)) =
        (s2.clus.map fun o => (o.state, o.card)).filter fun x => x.2 > 0 := by
      rw [List.filter_map]
      rfl
    rw [h2, h1, inUse, List.ofFn_eq_map, List.filter_map, ← List.filterMap_eq_map,
      List.filterMap_filter]
    refine List.filterMap_congr fun k _ => ?_
    by_cases h0 : cnt c k = 0
    · simp [h0]
    · simp [h0, Nat.pos_of_ne_zero h0]
  obtain ⟨mix', em, hst⟩ := sbUpdate_labels (n := n) hrun hK hnum hsh ha hb c draws
  have e3 : updateHypers E rh s2 = .ok { s2 with
      hyp := E.hyperUpdate s.hyp (inUse c fun k => E.sample (drawHyp E Q s.hyp c k) (r k)) rh } := by
    unfold updateHypers
    rw [vget_ok (List.getElem?_eq_getElem (show 0 < s2.clus.length by omega)), ok_bind]
    rw [hocc, hy2]
  refine ⟨{ s2 with
      hyp := E.hyperUpdate s.hyp (inUse c fun k => E.sample (drawHyp E Q s.hyp c k) (r k)) rh }, mix', by
    simp only [blockedRest, e2, ok_bind, e3, hcards, em], ⟨a2.trans hl, hvals, hst, rfl, ⟨c2.len, ?_⟩,
      ?_, SBRun.update hrun em⟩⟩
  · exact consistentOn_congr c2.on rfl rfl fun k o ho => ⟨o, ho, rfl, rfl, rfl⟩
  · intro j o ho
    have hjK : j < K := by
      have : j < s2.clus.length := (List.getElem?_eq_some_iff.mp ho).1
      omega
    exact (hgood ⟨j, hjK⟩ o ho).2.2

/-- The labels drawn by the code. -/
theorem blocked_labels {like : Θ → ℕ → ℝ} (hK : 0 < K) {prior : SBPrior} {c : Fin n → Fin K}
    {θ : Fin K → Θ} {v : Fin K → ℝ} {h : H} {s : Alg G H Θ} {mix : SBState}
    (hs : BlockedState E prior Q c θ v h s mix) (hv : ∀ k, 0 < v k ∧ v k ≤ 1) :
    ∃ l, blockedLaw E like (fun _ => mix.logweights) K n s = .ok l ∧
      (∀ c' : Fin n → Fin K, l.prob (fun t => t.alloc = List.ofFn fun i => (c' i).val) =
        dataWeight like c' θ v / ∑ c'' : Fin n → Fin K, dataWeight like c'' θ v) ∧
      ∀ x ∈ l, ∃ c' : Fin n → Fin K, x.2.alloc = (List.ofFn fun i => (c' i).val) ∧
        x.2.clus.length = K ∧ Consistent E.contrib n x.2 ∧ x.2.hyp = h ∧
        CacheIs Q x.2.clus := by
  obtain ⟨l, e, h1, h2⟩ := c98_blocked_truncated_sb E like K n hK θ s hs.cons
    hs.cache.ok hs.values prior false mix hs.run v
    hs.sticks hv
  refine ⟨l, e, h2, fun x hx => ?_⟩
  obtain ⟨hx1, hx2⟩ := h1 x hx
  have hlen : x.2.clus.length = K := by
    have := congrArg List.length hx2
    simpa using this
  obtain ⟨hy, hu⟩ := blockedLaw_keeps e hs.cache x hx
  have hlab : ∀ i : Fin n, ∃ k : Fin K, x.2.alloc[i.val]? = some k.val := by
    intro i
    obtain ⟨k, hk, hlt⟩ := hx1.on.labelled i (by simp)
    exact ⟨⟨k, by omega⟩, hk⟩
  choose c' hc' using hlab
  refine ⟨c', ?_, hlen, hx1, hy.trans hs.hyp, hu⟩
  refine List.ext_getElem? fun j => ?_
  by_cases hj : j < n
  · rw [hc' ⟨j, hj⟩, List.getElem?_ofFn, dif_pos hj]
  · rw [List.getElem?_eq_none (by rw [hx1.len]; omega), List.getElem?_eq_none (by simp; omega)]

end lemmas

end Bayesmix.Cond
