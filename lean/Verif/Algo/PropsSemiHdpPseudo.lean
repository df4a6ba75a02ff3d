import Verif.Algo.SemiHdpPseudo
import Verif.Algo.SemiHdpRun
import Verif.Hier.ShareLemmas
import Mathlib.Algebra.BigOperators.Group.Finset.Basic
import Mathlib.Tactic.Linarith
import Mathlib.Tactic.FieldSimp

/-!
# C134: the pseudo-prior; C135: saving states
-/

namespace Bayesmix.SemiHdp

variable {g : ℕ} {T V P : Type}

/-! ## C134 -/

/-- A saved state has allocations, and they point to its clusters. -/
structure SavedOk (st : Saved P) : Prop where
  ne : st.allocs ≠ []
  range : ∀ a ∈ st.allocs, 0 ≤ a ∧ a < st.states.length

theorem sum_range_list (n : ℕ) (f : ℕ → ℤ) :
    ∑ k ∈ Finset.range n, f k = ((List.range n).map f).sum := rfl

theorem countCards_ok (n : ℕ) (allocs : List ℤ) (h : ∀ a ∈ allocs, 0 ≤ a ∧ a < n) :
    countCards n allocs = .ok ((List.range n).map fun k : ℕ => (allocs.count (k : ℤ) : ℤ)) := by
  have key : ∀ c : List ℤ, c.length = n → ∃ c', allocs.foldlM (fun c a =>
      if a < 0 ∨ (n : ℤ) ≤ a then (.error .assertFail : Except Fault (List ℤ))
      else .ok (c.set a.toNat (c.getD a.toNat 0 + 1))) c = .ok c' ∧ c'.length = n ∧
      ∀ k, k < n → c'.getD k 0 = c.getD k 0 + allocs.count (k : ℤ) := by
    induction allocs with
    | nil => exact fun c hc => ⟨c, rfl, hc, by simp⟩
    | cons a as ih =>
      intro c hc
      obtain ⟨h0, h1⟩ := h a (by simp)
      obtain ⟨c', e, hl, hk⟩ := ih (fun b hb => h b (by simp [hb]))
        (c.set a.toNat (c.getD a.toNat 0 + 1)) (by simpa using hc)
      refine ⟨c', ?_, hl, fun k hkn => ?_⟩
      · rw [List.foldlM_cons, if_neg (by omega), ok_bind, e]
      · rw [hk k hkn, List.count_cons]
        by_cases hka : a = (k : ℤ)
        · subst hka
          simp [List.getD_eq_getElem?_getD, hc, hkn]
          ring
        · have : a.toNat ≠ k := by omega
          simp [List.getD_eq_getElem?_getD, hka, this]
  obtain ⟨c', e, hl, hk⟩ := key (List.replicate n 0) (by simp)
  unfold countCards
  rw [e]
  congr 1
  refine List.ext_getElem (by simpa using hl) fun k h1 h2 => ?_
  have hkn : k < n := by omega
  have := hk k hkn
  rw [List.getD_eq_getElem?_getD, List.getElem?_eq_getElem h1] at this
  simp only [Option.getD_some] at this
  rw [this]
  simp [List.getD_eq_getElem?_getD, hkn]

theorem sum_cards (n : ℕ) (allocs : List ℤ) (h : ∀ a ∈ allocs, 0 ≤ a ∧ a < n) :
    ((List.range n).map fun k : ℕ => (allocs.count (k : ℤ) : ℤ)).sum = allocs.length := by
  induction allocs with
  | nil => simp
  | cons a as ih =>
    have e : ((List.range n).map fun k : ℕ => ((a :: as).count (k : ℤ) : ℤ)) =
        (List.range n).map fun k : ℕ => (as.count (k : ℤ) : ℤ) + if a = (k : ℤ) then 1 else 0 := by
      refine List.map_congr_left fun k _ => ?_
      rw [List.count_cons]
      by_cases hk : a = (k : ℤ) <;> simp [hk]
    rw [e, List.sum_map_add, ih fun b hb => h b (by simp [hb])]
    obtain ⟨h0, h1⟩ := h a (by simp)
    have h2 : ((List.range n).map fun k : ℕ => if a = (k : ℤ) then (1 : ℤ) else 0).sum = 1 := by
      rw [← sum_range_list]
      rw [Finset.sum_eq_single a.toNat]
      · rw [if_pos (by omega)]
      · intro k _ hk
        rw [if_neg (by omega)]
      · intro hn
        exact absurd (Finset.mem_range.mpr (by omega)) hn
    rw [h2]
    push_cast
    rw [List.length_cons]
    push_cast
    rfl

theorem cardsPerturb_ok (w : ℝ) {st : Saved P} (h : SavedOk st) :
    ∃ cards, countCards st.states.length st.allocs = .ok cards ∧
      cardsPerturb w cards = .ok ((List.range st.states.length).map fun k : ℕ =>
        w * ((st.allocs.count (k : ℤ) : ℝ) / st.allocs.length) + (1 - w) / st.states.length) := by
  refine ⟨_, countCards_ok _ _ h.range, ?_⟩
  unfold cardsPerturb
  rw [sum_cards _ _ h.range, if_neg (by simpa using h.ne), List.map_map]
  congr 1
  refine List.map_congr_left fun k _ => ?_
  simp

theorem perturb_sum (w : ℝ) {st : Saved P} (h : SavedOk st) :
    ((List.range st.states.length).map fun k : ℕ =>
      w * ((st.allocs.count (k : ℤ) : ℝ) / st.allocs.length) + (1 - w) / st.states.length).sum = 1 := by
  have hl : (0 : ℝ) < st.allocs.length := by
    exact_mod_cast List.length_pos_of_ne_nil h.ne
  have hs : (0 : ℝ) < st.states.length := by
    obtain ⟨a, as, e⟩ := List.exists_cons_of_ne_nil h.ne
    have := h.range a (by simp [e])
    have : 0 < st.states.length := by omega
    exact_mod_cast this
  have h1 := sum_cards _ _ h.range
  have h2 : ((List.range st.states.length).map fun k : ℕ => (st.allocs.count (k : ℤ) : ℝ)).sum =
      st.allocs.length := by
    have := congrArg (fun z : ℤ => (z : ℝ)) h1
    simp only [Int.cast_natCast] at this
    rw [← this, Int.cast_list_sum, List.map_map]
    congr 1
  rw [List.sum_map_add, List.sum_map_mul_left]
  simp only [div_eq_mul_inv]
  rw [List.sum_map_mul_right, h2, mul_inv_cancel₀ hl.ne']
  simp
  field_simp
  ring

/-- **C134, the probabilities.** For a weight between zero and one, the probabilities of the tables of
the pseudo-prior are the frequencies in the saved state, mixed with the uniform distribution; they are
nonnegative and sum to one. -/
theorem c134_probabilities {w : ℝ} (h0 : 0 ≤ w) (h1 : w ≤ 1) {st : Saved P} (h : SavedOk st) :
    ∃ cards p, countCards st.states.length st.allocs = .ok cards ∧ cardsPerturb w cards = .ok p ∧
      p.length = st.states.length ∧ p.sum = 1 ∧ (∀ x ∈ p, 0 ≤ x) ∧
      ∀ k : ℕ, k < st.states.length → p[k]? = some
        (w * ((st.allocs.count (k : ℤ) : ℝ) / st.allocs.length) + (1 - w) * (1 / st.states.length)) := by
  obtain ⟨cards, e1, e2⟩ := cardsPerturb_ok w h
  refine ⟨cards, _, e1, e2, by simp, perturb_sum w h, ?_, ?_⟩
  · intro x hx
    obtain ⟨k, -, rfl⟩ := List.mem_map.mp hx
    have : 0 ≤ 1 - w := by linarith
    positivity
  · intro k hk
    rw [List.getElem?_map, List.getElem?_range hk]
    simp [div_eq_mul_inv]

theorem sum_filter_labels (K N : ℕ) (hK : 0 < K) (label : ℕ → ℕ) :
    ((List.range K).map fun k =>
      (((List.range N).filter fun j => label j % K = k).length : ℤ)).sum = N := by
  induction N with
  | zero => simp
  | succ N ih =>
    have e : ((List.range K).map fun k =>
        (((List.range (N + 1)).filter fun j => label j % K = k).length : ℤ)) =
        (List.range K).map fun k => (((List.range N).filter fun j => label j % K = k).length : ℤ) +
          if label N % K = k then 1 else 0 := by
      refine List.map_congr_left fun k _ => ?_
      rw [List.range_succ, List.filter_append, List.length_append]
      by_cases hk : label N % K = k <;> simp [hk]
    rw [e, List.sum_map_add, ih]
    have h2 : ((List.range K).map fun k : ℕ => if label N % K = k then (1 : ℤ) else 0).sum = 1 := by
      rw [← sum_range_list]
      simp [Nat.mod_lt _ hK]
    rw [h2]
    push_cast
    rfl

/-- One restaurant. -/
theorem pseudoRest_ok {w : ℝ} (h0 : 0 ≤ w) (h1 : w ≤ 1) {setState : P → Except Fault T} {f : P → T}
    {st : Saved P} (h : SavedOk st) (hf : ∀ p ∈ st.states, setState p = .ok (f p)) {N : ℕ} (hN : 0 < N)
    (label : ℕ → ℕ) :
    ∃ n, pseudoRest w setState st N label = .ok (st.states.map f, n) ∧
      n.length = st.states.length ∧ (∀ x ∈ n, 0 ≤ x) ∧ n.sum = N := by
  obtain ⟨cards, p, e1, e2, hl, hs, hp, -⟩ := c134_probabilities h0 h1 h
  have hpos : 0 < st.states.length := by
    obtain ⟨a, as, e⟩ := List.exists_cons_of_ne_nil h.ne
    have := h.range a (by simp [e])
    omega
  have hm : st.states.mapM setState = .ok (st.states.map f) := by
    clear h e1 e2 hl hpos
    revert hf
    induction st.states with
    | nil => exact fun _ => rfl
    | cons a as ih =>
      intro hf
      rw [List.mapM_cons, hf a (by simp), ok_bind, ih fun q hq => hf q (by simp [hq])]
      rfl
  refine ⟨(List.range p.length).map fun k =>
    (((List.range N).filter fun j => label j % p.length = k).length : ℤ), ?_, by simpa using hl, ?_, ?_⟩
  · unfold pseudoRest
    rw [e1, ok_bind, e2, ok_bind, multinomialRng, if_neg, ok_bind, hm]
    · rfl
    · rintro (h | h | ⟨x, hx, h⟩ | h)
      · rw [h] at hl
        simp at hl
        omega
      · rw [hs] at h
        norm_num at h
      · have := hp x hx
        linarith
      · omega
  · intro x hx
    obtain ⟨k, -, rfl⟩ := List.mem_map.mp hx
    positivity
  · exact sum_filter_labels _ _ (by omega) label

/-- **C134.** If the collectors hold the same positive number of states, whose allocations point to
their clusters, and the weight is between zero and one, then the pseudo-prior is taken from one saved
iteration, the same for all restaurants: its tables are the clusters of the saved state with the values
they have there, and the counts, one for each table, sum to the number of observations of the group. -/
theorem c134_pseudo_prior {w : ℝ} (h0 : 0 ≤ w) (h1 : w ≤ 1) {setState : P → Except Fault T} {f : P → T}
    {coll : List (List (Saved P))} {K : ℕ} (hK : 0 < K) (hg : g ≤ coll.length) (hpos : 0 < g)
    (hlen : ∀ c ∈ coll, c.length = K) (hst : ∀ c ∈ coll, ∀ st ∈ c, SavedOk st)
    (hf : ∀ c ∈ coll, ∀ st ∈ c, ∀ p ∈ st.states, setState p = .ok (f p)) {nByGroup : Fin g → ℕ}
    (hN : ∀ r, 0 < nByGroup r) (draw : ℕ) (label : Fin g → ℕ → ℕ) :
    ∃ ps, samplePseudoPrior w setState coll nByGroup draw label = .ok ps ∧
      (∀ r, ps.tables r ≠ [] ∧ (ps.counts r).length = (ps.tables r).length) ∧
      ∃ k < K, ∀ r : Fin g, ∃ c st, coll[r.val]? = some c ∧ c[k]? = some st ∧
        ps.tables r = st.states.map f ∧ (∀ x ∈ ps.counts r, 0 ≤ x) ∧
        (ps.counts r).sum = nByGroup r := by
  have hc0 : coll[0]? = some coll[0] := List.getElem?_eq_getElem (by omega)
  have hl0 : coll[0].length = K := hlen _ (List.getElem_mem _)
  obtain ⟨k, hk⟩ : ∃ k, k = draw % K := ⟨_, rfl⟩
  have hkK : k < K := by rw [hk]; exact Nat.mod_lt _ hK
  have hr : ∀ r : Fin g, ∃ c st n, coll[r.val]? = some c ∧ c[k]? = some st ∧ SavedOk st ∧
      pseudoRest w setState st (nByGroup r) (label r) = .ok (st.states.map f, n) ∧
      n.length = st.states.length ∧ (∀ x ∈ n, 0 ≤ x) ∧ n.sum = nByGroup r := by
    intro r
    have hrl : r.val < coll.length := lt_of_lt_of_le r.isLt hg
    have hmem := List.getElem_mem hrl
    have hkl : k < coll[r.val].length := by rw [hlen _ hmem]; exact hkK
    obtain ⟨n, e, e1, e2, e3⟩ := pseudoRest_ok h0 h1 (hst _ hmem _ (List.getElem_mem hkl))
      (hf _ hmem _ (List.getElem_mem hkl)) (hN r) (label r)
    exact ⟨_, _, n, List.getElem?_eq_getElem hrl, List.getElem?_eq_getElem hkl,
      hst _ hmem _ (List.getElem_mem hkl), e, e1, e2, e3⟩
  choose c st n hc hs hok he hl hn hsum using hr
  have hmap : ((List.finRange g).mapM fun r : Fin g => do
      let c ← vget coll r.val
      let st ← vget c k
      pseudoRest w setState st (nByGroup r) (label r)) =
      .ok ((List.finRange g).map fun r => ((st r).states.map f, n r)) := by
    have : ∀ l : List (Fin g), (l.mapM fun r : Fin g => do
        let c ← vget coll r.val
        let st ← vget c k
        pseudoRest w setState st (nByGroup r) (label r)) =
        .ok (l.map fun r => ((st r).states.map f, n r)) := by
      intro l
      induction l with
      | nil => rfl
      | cons r l ih =>
        rw [List.mapM_cons, ih, vget_ok (hc r), ok_bind, vget_ok (hs r), ok_bind, he r]
        rfl
    exact this _
  have hget : ∀ r : Fin g, ((List.finRange g).map fun r => ((st r).states.map f, n r)).getD r.val
      ([], []) = ((st r).states.map f, n r) := by
    intro r
    rw [List.getD_eq_getElem?_getD, List.getElem?_map, List.getElem?_eq_getElem (by simp)]
    simp
  refine ⟨⟨fun r => (st r).states.map f, n⟩, ?_, fun r => ⟨?_, ?_⟩, k, hkK, fun r =>
    ⟨c r, st r, hc r, hs r, rfl, hn r, hsum r⟩⟩
  · unfold samplePseudoPrior
    rw [vget_ok hc0, ok_bind, hl0, categorical_ok _ hK, ok_bind, ← hk, hmap, ok_bind]
    simp only [hget]
  · obtain ⟨a, as, e⟩ := List.exists_cons_of_ne_nil (hok r).ne
    have := (hok r).range a (by simp [e])
    intro h
    have h2 := congrArg List.length h
    simp at h2
    simp [h2] at this
    omega
  · rw [hl r]
    simp

/-- **C134, weights above one.** `card_weight` is not checked: with a weight above one, a saved state
with a cluster that no observation has makes the draw throw. -/
theorem c134_weight_violated {w : ℝ} (h1 : 1 < w) {st : Saved P} (h : SavedOk st) {k : ℕ}
    (hk : k < st.states.length) (hk0 : (k : ℤ) ∉ st.allocs) (setState : P → Except Fault T) (N : ℕ)
    (label : ℕ → ℕ) : pseudoRest w setState st N label = .error .throw := by
  obtain ⟨cards, e1, e2⟩ := cardsPerturb_ok w h
  unfold pseudoRest
  rw [e1, ok_bind, e2, ok_bind, multinomialRng, if_pos]
  · rfl
  · refine .inr (.inr (.inl ⟨_, List.mem_map.mpr ⟨k, List.mem_range.mpr hk, rfl⟩, ?_⟩))
    rw [List.count_eq_zero_of_not_mem hk0]
    have hs : (0 : ℝ) < st.states.length := by
      have : 0 < st.states.length := by omega
      exact_mod_cast this
    simp only [Nat.cast_zero, zero_div, mul_zero, zero_add]
    exact div_neg_of_neg_of_pos (by linarith) hs

/-- **C134, collectors of different lengths.** The number of the iteration is drawn below the length of
the first collector; a shorter one is read out of range. -/
theorem c134_collectors_violated (w : ℝ) (setState : P → Except Fault T) (c0 : List (Saved P))
    (rest : List (List (Saved P))) (r : Fin g) (hr : ∃ c ∈ (c0 :: rest)[r.val]?, c.length < c0.length)
    (nByGroup : Fin g → ℕ) (label : Fin g → ℕ → ℕ) :
    ∃ draw, ∀ ps, samplePseudoPrior w setState (c0 :: rest) nByGroup draw label ≠ .ok ps := by
  obtain ⟨c, hc, hl⟩ := hr
  have hc' : (c0 :: rest)[r.val]? = some c := hc
  refine ⟨c.length, fun ps h => ?_⟩
  unfold samplePseudoPrior at h
  obtain ⟨x, e, h⟩ := Hierarchies.bind_eq_ok.mp h
  obtain rfl : c0 = x := Except.ok.inj e
  rw [categorical_ok _ (by omega), ok_bind, Nat.mod_eq_of_lt hl] at h
  obtain ⟨l, e, -⟩ := Hierarchies.bind_eq_ok.mp h
  have key : ∀ (rs : List (Fin g)) l, r ∈ rs → (rs.mapM fun r : Fin g => do
      let c1 ← vget (c0 :: rest) r.val
      let st ← vget c1 c.length
      pseudoRest w setState st (nByGroup r) (label r)) ≠ .ok l := by
    intro rs
    induction rs with
    | nil => simp
    | cons a rs ih =>
      intro l hm e
      rw [List.mapM_cons] at e
      obtain ⟨y, ey, e⟩ := Hierarchies.bind_eq_ok.mp e
      obtain ⟨z, ez, -⟩ := Hierarchies.bind_eq_ok.mp e
      rcases List.mem_cons.mp hm with rfl | hm
      · rw [vget_ok hc', ok_bind] at ey
        have : vget c c.length = .error .ub := by
          unfold vget
          rw [List.getElem?_eq_none le_rfl]
        rw [this] at ey
        cases ey
      · exact ih z hm ez
  exact key _ l (List.mem_finRange r) e

/-- **C134, perturbing a value.** With a fraction of at least one the variance stays positive and less
than twice what it was. -/
theorem c134_perturb_partial {sd frac z u : ℝ} (hsd : 0 < sd) (hf : 1 ≤ frac) (hu0 : 0 < u) (hu1 : u < 1)
    {s : ℝ × ℝ} (hs : 0 < s.2) :
    ∃ s', perturb sd frac z u s = .ok s' ∧ s'.1 = s.1 + sd * z ∧ 0 < s'.2 ∧ s'.2 < 2 * s.2 := by
  have hq : 0 < s.2 / frac := by positivity
  have hq1 : s.2 / frac ≤ s.2 := div_le_self hs.le hf
  have hneg : -s.2 / frac = -(s.2 / frac) := by ring
  refine ⟨(s.1 + sd * z, s.2 + (-s.2 / frac + u * (s.2 / frac - -s.2 / frac))), ?_, rfl, ?_, ?_⟩
  · unfold perturb
    rw [if_neg]
    rw [hneg]
    push Not
    exact ⟨hsd, by linarith⟩
  · dsimp only
    rw [hneg]
    nlinarith
  · dsimp only
    rw [hneg]
    nlinarith

/-- **C134, perturbing a value, violated.** With a fraction below one there are draws for which the
variance is negative. -/
theorem c134_perturb_violated {sd frac z : ℝ} (hsd : 0 < sd) (hf0 : 0 < frac) (hf : frac < 1)
    {s : ℝ × ℝ} (hs : 0 < s.2) :
    ∃ u, 0 < u ∧ u < 1 ∧ ∃ s', perturb sd frac z u s = .ok s' ∧ s'.2 < 0 := by
  have hq : 0 < s.2 / frac := by positivity
  have hneg : -s.2 / frac = -(s.2 / frac) := by ring
  refine ⟨(1 - frac) / 4, by linarith, by linarith,
    (s.1 + sd * z, s.2 + (-s.2 / frac + (1 - frac) / 4 * (s.2 / frac - -s.2 / frac))), ?_, ?_⟩
  · unfold perturb
    rw [if_neg]
    rw [hneg]
    push Not
    exact ⟨hsd, by linarith⟩
  · dsimp only
    rw [hneg]
    have hs' : s.2 = frac * (s.2 / frac) := by field_simp
    nlinarith

/-- Two groups whose collectors hold two states each. -/
example : ∃ ps : Pseudo 2 ℕ, samplePseudoPrior (1 / 2) (fun p : ℕ => .ok (p + 100))
    [[⟨[0], [0, 0]⟩, ⟨[1, 2], [0, 1, 1]⟩], [⟨[3], [0, 0]⟩, ⟨[4, 5], [1, 1, 1]⟩]] (fun _ => 7) 5
    (fun _ j => j) = .ok ps ∧ (ps.counts 0).length = (ps.tables 0).length := by
  obtain ⟨ps, e, h, -⟩ := c134_pseudo_prior (g := 2) (w := 1 / 2) (by norm_num) (by norm_num)
    (setState := fun p : ℕ => .ok (p + 100)) (f := fun p => p + 100)
    (coll := [[⟨[0], [0, 0]⟩, ⟨[1, 2], [0, 1, 1]⟩], [⟨[3], [0, 0]⟩, ⟨[4, 5], [1, 1, 1]⟩]]) (K := 2)
    (by norm_num) (by simp) (by norm_num) (by simp) (by
      intro c hc st hst
      simp only [List.mem_cons, List.not_mem_nil, or_false] at hc
      rcases hc with rfl | rfl <;> simp only [List.mem_cons, List.not_mem_nil, or_false] at hst <;>
        rcases hst with rfl | rfl <;> exact ⟨by simp, by simp⟩) (fun _ _ _ _ _ _ => rfl)
    (nByGroup := fun _ => 7) (fun _ => by norm_num) 5 fun _ j => j
  exact ⟨ps, e, (h 0).2⟩

/-! ## C135 -/

/-- **C135, violated.** The state of no sampler with a table can be saved: the messages that
`get_state_as_proto` passes are of another type than the one they are cast to. -/
theorem c135_save_violated (val : T → V) (s : State g T) (i : Fin g) (hi : s.rest i ≠ []) :
    getStateAsProto val s = .error .assertFail := by
  have hw : ∀ t : T, (do
      let _ ← writeState val .semiHdp t
      pure () : Except Fault Unit) = .error .assertFail := fun _ => rfl
  have hl : ∀ l : List T, l ≠ [] → (l.forM fun t => do
      let _ ← writeState val .semiHdp t
      pure ()) = (.error .assertFail : Except Fault Unit) := by
    intro l hl
    obtain ⟨a, as, rfl⟩ := List.exists_cons_of_ne_nil hl
    rfl
  unfold getStateAsProto
  rw [forM_error (List.finRange g) _ .assertFail (fun k _ => ?_) (List.mem_finRange i)]
  · rfl
  · rw [hl _ hi]
    rfl
  · by_cases hk : s.rest k = []
    · rw [hk]
      by_cases hs : s.shared = []
      · rw [hs]
        exact .inl rfl
      · exact .inr (hl _ hs)
    · rw [hl _ hk]
      exact .inr rfl

/-- **C135, runs.** No run that collects a state ends normally. -/
theorem c135_run_violated (val : T → V) (rows cols : Fin g → ℕ) (hrows : ∀ i, 5 ≤ rows i)
    (hcols : ∀ i, cols i = 1) (hg : 0 < g) (sh : ℕ → T) (pr : Fin g → ℕ → T) (draw : Fin g → ℕ → ℕ)
    (draws : ℕ → StepDraws g T) (adaptIter burnin iter thin : ℕ) (hthin : thin ≠ 0)
    (hps : ∀ k, adaptIter ≤ k → ∀ r, (draws k).pseudo.tables r ≠ [] ∧
      ((draws k).pseudo.counts r).length = ((draws k).pseudo.tables r).length)
    (hiter : 0 < iter) (hdvd : thin ∣ iter) :
    runSaved val rows cols sh pr draw draws adaptIter burnin iter thin = .error .assertFail := by
  obtain ⟨traj, -, h2, h3⟩ := run_ok rows cols hrows hcols sh pr draw draws adaptIter burnin iter
    thin hthin hps
  unfold runSaved
  rw [h3, ok_bind, if_pos hdvd]
  obtain ⟨m, rfl⟩ : ∃ m, iter = m + 1 := ⟨iter - 1, by omega⟩
  have hi := (h2 0).inv
  have h0 : (s0 : Fin g) → (traj 1).rest ((traj 1).restAllocs s0) ≠ [] := by
    intro s0 he
    have hl := hi.number s0
    have h5 := hrows s0
    obtain ⟨a, as, e⟩ := List.exists_cons_of_ne_nil (l := (traj 1).allocs s0) (by
      intro h
      rw [h] at hl
      simp at hl
      omega)
    have := (hi.wf _).seats s0 rfl a (by rw [e]; simp)
    rw [he] at this
    simp at this
    omega
  dsimp only
  rw [List.range_succ_eq_map, List.map_cons, List.mapM_cons,
    c135_save_violated val _ _ (h0 ⟨0, hg⟩)]
  rfl

/-- **C135, the part that holds.** A run that collects nothing, because thinning does not divide the
number of iterations, ends normally. -/
theorem c135_nothing_collected_partial (val : T → V) (rows cols : Fin g → ℕ) (hrows : ∀ i, 5 ≤ rows i)
    (hcols : ∀ i, cols i = 1) (sh : ℕ → T) (pr : Fin g → ℕ → T) (draw : Fin g → ℕ → ℕ)
    (draws : ℕ → StepDraws g T) (adaptIter burnin iter thin : ℕ) (hthin : thin ≠ 0)
    (hps : ∀ k, adaptIter ≤ k → ∀ r, (draws k).pseudo.tables r ≠ [] ∧
      ((draws k).pseudo.counts r).length = ((draws k).pseudo.tables r).length)
    (hdvd : ¬ thin ∣ iter) :
    runSaved val rows cols sh pr draw draws adaptIter burnin iter thin = .ok [] := by
  obtain ⟨traj, -, -, h3⟩ := run_ok rows cols hrows hcols sh pr draw draws adaptIter burnin iter
    thin hthin hps
  unfold runSaved
  rw [h3, ok_bind, if_neg hdvd]
  rfl

/-- Draws for the examples of C135: the pseudo-prior has one table per restaurant, with one
observation. -/
def exPseudoDraws (g : ℕ) : StepDraws g ℕ :=
  ⟨⟨fun _ => [7], fun _ => [1]⟩, id, fun _ _ => 0, fun _ _ => 0, fun _ k => k, fun _ k => ⟨k, true, k, k⟩⟩

/-- C135: two groups of five and six observations. -/
example : runSaved (g := 2) id ![5, 6] (fun _ => 1) id (fun _ k => k) (fun _ k => k)
      (fun _ => exPseudoDraws 2) 3 2 4 2 = .error .assertFail ∧
    runSaved (g := 2) id ![5, 6] (fun _ => 1) id (fun _ k => k) (fun _ k => k)
      (fun _ => exPseudoDraws 2) 3 2 4 3 = .ok [] :=
  ⟨c135_run_violated _ _ _ (fun i => by fin_cases i <;> simp) (fun _ => rfl) (by omega) _ _ _ _ _ _ _ _
    (by omega) (fun _ _ _ => ⟨by simp [exPseudoDraws], rfl⟩) (by omega) (by omega),
    c135_nothing_collected_partial _ _ _ (fun i => by fin_cases i <;> simp) (fun _ => rfl) _ _ _ _ _ _ _ _
    (by omega) (fun _ _ _ => ⟨by simp [exPseudoDraws], rfl⟩) (by omega)⟩

/-- C135: a state with one table in the second restaurant. -/
example (s : State 2 ℕ) (h : s.rest 1 = [7]) : getStateAsProto id s = .error .assertFail :=
  c135_save_violated _ _ 1 (by simp [h])

end Bayesmix.SemiHdp
