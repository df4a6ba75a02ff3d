import Verif.Algo.PropsCond

/-! # C143: the slice sampler with a finite stick-breaking mixture -/

namespace Bayesmix.Slice

open Bayesmix Mixing

variable {G H Θ : Type} [AddCommGroup G]

/-! ### The parts of `sample_weights` -/

theorem sampleWeights_parts {E : Env G H Θ} {prior : SBPrior} {inf : Bool} {fuel : ℕ} {z : Noise}
    {s s' : State G H Θ} (h : sampleWeights E prior inf fuel z s = .ok s') :
    ∃ mix1 mx mix2 mu,
      sbUpdate s.mix prior inf (s.alg.clus.map (fun o => o.card.toNat)) z.upd = .ok mix1 ∧
      maxElement s.alg.alloc = .ok mx ∧ mx + 1 ≤ mix1.sticks.length ∧
      sbSetSticks (mix1.sticks.take (mx + 1)) = .ok mix2 ∧ minCoeff s.u = .ok mu ∧
      breakLoop prior z.brk mu fuel 0 mix2 (sbWeights mix2).sum = .ok s'.mix := by
  unfold sampleWeights at h
  cases h1 : sbUpdate s.mix prior inf (s.alg.clus.map (fun o => o.card.toNat)) z.upd with
  | error e => rw [h1] at h; cases h
  | ok mix1 =>
  rw [h1, ok_bind] at h
  cases h2 : maxElement s.alg.alloc with
  | error e => rw [h2] at h; cases h
  | ok mx =>
  simp only [h2, ok_bind] at h
  by_cases hle : mx + 1 ≤ mix1.sticks.length
  swap
  · rw [if_neg hle] at h; cases h
  rw [if_pos hle] at h
  cases h3 : sbSetSticks (mix1.sticks.take (mx + 1)) with
  | error e => rw [h3] at h; cases h
  | ok mix2 =>
  rw [h3, ok_bind] at h
  cases h4 : minCoeff s.u with
  | error e => rw [h4] at h; cases h
  | ok mu =>
  rw [h4, ok_bind] at h
  cases h5 : breakLoop prior z.brk mu fuel 0 mix2 (sbWeights mix2).sum with
  | error e => rw [h5] at h; cases h
  | ok m =>
  rw [h5, ok_bind] at h
  refine ⟨mix1, mx, mix2, mu, rfl, rfl, hle, h3, rfl, ?_⟩
  rw [h5]
  split at h
  · cases h6 : pushNew E s.alg.hyp z.fresh (m.sticks.length - mix1.sticks.length)
      s.alg.clus with
    | error e => rw [h6] at h; cases h
    | ok cl => rw [h6, ok_bind] at h; cases h; rfl
  · cases h6 : popBacks (mix1.sticks.length - m.sticks.length) s.alg.clus with
    | error e => rw [h6] at h; cases h
    | ok cl => rw [h6, ok_bind] at h; cases h; rfl

/-- The mixing after an iteration is the one that `sample_weights` left. -/
theorem step_parts {E : Env G H Θ} {prior : SBPrior} {inf : Bool} {n fuel : ℕ} {z : Noise}
    {s s' : State G H Θ} (h : step E prior inf n fuel s z = .ok s') :
    ∃ a s1 s2, sampleUniqueValues E false z.uv s.alg = .ok a ∧
      sampleWeights E prior inf fuel z { s with alg := a } = .ok s1 ∧
      sampleSlice n z.unif s1 = .ok s2 ∧ sliceAllocations E n z.cat s2 = .ok s' ∧
      s2.alg = s1.alg ∧ s2.mix = s1.mix ∧ s'.mix = s1.mix := by
  unfold step at h
  cases h1 : sampleUniqueValues E false z.uv s.alg with
  | error e => rw [h1] at h; cases h
  | ok a =>
  rw [h1, ok_bind] at h
  cases h2 : sampleWeights E prior inf fuel z { s with alg := a } with
  | error e => rw [h2] at h; cases h
  | ok s1 =>
  rw [h2, ok_bind] at h
  cases h3 : sampleSlice n z.unif s1 with
  | error e => rw [h3] at h; cases h
  | ok s2 =>
  rw [h3, ok_bind] at h
  have e2 : s2.alg = s1.alg ∧ s2.mix = s1.mix := by
    unfold sampleSlice at h3
    cases h4 : (List.range n).mapM (sliceDatum s1.alg.alloc (sbWeights s1.mix) z.unif) with
    | error e => rw [h4] at h3; cases h3
    | ok u => rw [h4, ok_bind] at h3; cases h3; exact ⟨rfl, rfl⟩
  refine ⟨a, s1, s2, rfl, h2, h3, h, e2.1, e2.2, ?_⟩
  unfold sliceAllocations at h
  cases h5 : (List.range n).foldlM (fun a i => sliceAllocDatum E s2.mix s2.u a i (z.cat i))
      s2.alg with
  | error e => rw [h5] at h; cases h
  | ok a' => rw [h5, ok_bind] at h; cases h; exact e2.2

theorem breakLoop_stop {prior : SBPrior} {draws : ℕ → ℝ → ℝ → ℝ} {mu sumW : ℝ} {mix : SBState}
    (h : 1 - mu < sumW) (fuel iter : ℕ) : breakLoop prior draws mu fuel iter mix sumW = .ok mix := by
  have h' : ¬ sumW ≤ 1.0 - mu := by norm_num; linarith
  cases fuel <;> simp only [breakLoop, if_neg h']

/-! ### The last component is in use -/

/-- **C143, the last component is in use.** If some row is in the last component of a finite
mixture, an iteration keeps the number of components and leaves weights that sum to one.

Missing (`c143_violated`): iterations in which the last component is empty. -/
theorem c143_last_used_partial (E : Env G H Θ) (prior : SBPrior) (n : ℕ) (hn : 0 < n) (fuel : ℕ)
    (s s' : State G H Θ) (hs : StateOk E.contrib prior n s) (z : Noise)
    (hupd : ∀ j a b, 0 < a → 0 < b → 0 ≤ z.upd j a b ∧ z.upd j a b ≤ 1)
    (hlast : s.alg.clus.length - 1 ∈ s.alg.alloc)
    (h : step E prior false n fuel s z = .ok s') :
    s'.alg.clus.length = s.alg.clus.length ∧ (sbWeights s'.mix).sum = 1 := by
  have ha := stateOk_iff.mp hs
  obtain ⟨a, s1, s2, h1, h2, -, -, -, -, hm⟩ := step_parts h
  obtain ⟨a', ea, c1, c2, c4, c3, -, -⟩ :=
    sampleUniqueValues_ok (E := E) (upd := false) (r := z.uv) ha.cons ha.caches
  rw [h1] at ea
  cases Except.ok.inj ea
  have hb := step_benign (inf := false) hn fuel z ha
  rw [h] at hb
  obtain ⟨mix1, mx, mix2, mu, e1, e2, e3, e4, e5, e6⟩ := sampleWeights_parts h2
  obtain ⟨i1, shapes, new, -, em, est, enum, hne, -⟩ := sbUpdate_inv ha.inv e1
  have hne := hne rfl
  have hlen : new.length = s.mix.num := by simpa using mapM_ok_length em
  simp only [Bool.false_eq_true, if_false] at est
  have hclus := ha.num
  have hst : mix1.sticks.length = s.mix.num := by rw [est]; simpa using hlen
  have hmx : mx + 1 = s.mix.num := by
    have e2' : maxElement s.alg.alloc = .ok mx := by rw [← c4]; exact e2
    obtain ⟨m', em', -, hm'⟩ := maxElement_ok (List.length_pos_of_mem hlast)
    rw [e2'] at em'
    have := hm' _ hlast
    rw [← Except.ok.inj em'] at this
    omega
  rw [List.take_of_length_le (by omega)] at e4
  obtain ⟨i2, e7⟩ := sbSet_inv e4
  have hval : ∀ v ∈ mix1.sticks, 0 ≤ v ∧ v ≤ 1 := by
    intro v hv
    rcases sbUpdate_sticks ha.inv e1 v hv with h | ⟨j, a, b, ha, hb, h⟩
    · rw [h]; norm_num
    · rw [h]; exact hupd j a b ha hb
  have hone : (1 : ℝ) ∈ mix1.sticks := by
    rw [est]
    exact List.mem_of_getElem? (i := s.mix.num - 1) (by
      rw [List.getElem?_set_self (by omega)])
  have hsum : (sbWeights mix2).sum = 1 := by
    rw [i2.weights (by rw [e7]; exact hval), e7, stickWeights_sum]
    have : leftover mix1.sticks = 0 := by
      unfold leftover
      exact List.prod_eq_zero (List.mem_map.mpr ⟨1, hone, by norm_num⟩)
    rw [this]; norm_num
  have hmu : 0 < mu := by
    obtain ⟨m', em', hm', -⟩ := minCoeff_ok (l := s.u) (by rw [ha.uLen]; exact hn)
    have e5' : minCoeff s.u = .ok mu := e5
    rw [e5'] at em'
    rw [Except.ok.inj em']
    exact lt_of_lt_of_le (by norm_num) (ha.uPos _ hm')
  rw [breakLoop_stop (by rw [hsum]; linarith)] at e6
  have e8 := Except.ok.inj e6
  rw [hm, ← e8]
  refine ⟨?_, hsum⟩
  rw [hb.1.num, hm, ← e8, i2.1, e7, hst, ha.num]

/-! ### The last component is empty -/

theorem breakLoop_exact {prior : SBPrior} (hp : Proper prior) {q : ℕ → ℝ} {mu : ℝ} {N base : ℕ}
    (hq : ∀ k, 0 ≤ q k ∧ q k ≤ 1)
    (hstay : ∀ L < N, mu ≤ leftover ((List.range L).map q))
    (hstop : leftover ((List.range N).map q) < mu) (d : ℕ) :
    ∀ (L fuel : ℕ) (mix : SBState) (sumW : ℝ), L + d = N → base ≤ L → SBInv mix →
      mix.sticks = (List.range L).map q → sumW = (sbWeights mix).sum → d ≤ fuel →
      ∃ m, breakLoop prior (fun j _ _ => q (base + j)) mu fuel (L - base) mix sumW = .ok m ∧
        m.sticks = (List.range N).map q := by
  induction d with
  | zero =>
    intro L fuel mix sumW hL hb hi hst hsum hf
    have hLN : L = N := by omega
    subst hLN
    refine ⟨mix, breakLoop_stop ?_ _ _, hst⟩
    rw [hsum, hi.weights (by rw [hst]; simpa using fun a _ => hq a), hst, stickWeights_sum]
    linarith
  | succ d ih =>
    intro L fuel mix sumW hL hb hi hst hsum hf
    obtain ⟨f, rfl⟩ : ∃ f, fuel = f + 1 := ⟨fuel - 1, by omega⟩
    have hle : sumW ≤ 1.0 - mu := by
      rw [hsum, hi.weights (by rw [hst]; simpa using fun a _ => hq a), hst, stickWeights_sum]
      have := hstay L (by omega)
      norm_num; linarith
    unfold breakLoop
    rw [if_pos hle]
    obtain ⟨r, hk⟩ := keepBreaking_runs (d := fun _ _ _ => q (base + (L - base))) hp hi
    rw [hk, ok_bind]
    obtain ⟨i1, new, e1, e2, e3, e4, e5⟩ := keepBreaking_inv (s' := r.1) (r := r.2) hi hk
    have hnew : new = [q L] := by
      obtain ⟨v, rfl⟩ : ∃ v, new = [v] := List.length_eq_one_iff.mp e3
      obtain ⟨i, hi', e⟩ := mapM_ok_mem e1 v (by simp)
      obtain ⟨ab, e', p1, p2⟩ := hp.params mix.num (mix.num + i)
      rw [breakStick, e', ok_bind, betaRng, if_pos ⟨p1, p2⟩] at e
      have e := Except.ok.inj e
      rw [show base + (L - base) = L by omega] at e
      rw [e]
    obtain ⟨m, em, hm⟩ := ih (L + 1) f r.1 (sumW + r.2) (by omega) (by omega) i1
      (by rw [e2, hnew, hst, List.range_succ]; simp) (by rw [hsum, e5]; ring) (by omega)
    refine ⟨m, ?_, hm⟩
    rw [show L + 1 - base = L - base + 1 by omega] at em
    exact em

theorem stickWeights_getD (l : List ℝ) (c : ℕ) (hc : c < l.length) :
    (stickWeights l).getD c 0 = l.getD c 0 * leftover (l.take c) := by
  induction l generalizing c with
  | nil => simp at hc
  | cons v t ih =>
    cases c with
    | zero => simp [stickWeights, leftover]
    | succ c =>
      have hc' : c < t.length := by simpa using hc
      have := ih c hc'
      have hl : c < (stickWeights t).length := by rw [stickWeights_length]; exact hc'
      rw [List.getD_eq_getElem?_getD, List.getElem?_eq_getElem hl, Option.getD_some] at this
      rw [stickWeights, List.getD_eq_getElem?_getD, List.getElem?_cons_succ, List.getElem?_map,
        List.getElem?_eq_getElem hl, Option.map_some, Option.getD_some, this, List.take_succ_cons,
        leftover_cons, List.getD_cons_succ]
      ring

/-- The sticks of the counterexample: `N - 1` short ones and one that takes almost all the rest. -/
noncomputable def longLast (N : ℕ) (mu : ℝ) (k : ℕ) : ℝ :=
  if k + 1 = N then 1 - mu / 2 else 1 / (2 * N)

theorem longLast_head {N : ℕ} {mu : ℝ} {L : ℕ} (hN : 0 < N) (hL : L < N) :
    1 / 2 ≤ leftover ((List.range L).map (longLast N mu)) := by
  have hN' : (1 : ℝ) ≤ N := by exact_mod_cast hN
  have e : leftover ((List.range L).map (longLast N mu)) = (1 - 1 / (2 * N : ℝ)) ^ L := by
    clear hN'
    induction L with
    | zero => simp [leftover]
    | succ L ih =>
      rw [List.range_succ, List.map_append, leftover_append, ih (by omega), pow_succ]
      simp [leftover, longLast, show L + 1 ≠ N by omega]
  rw [e]
  have hb := one_add_mul_le_pow (a := -(1 / (2 * N : ℝ))) (by
    have : 1 / (2 * N : ℝ) ≤ 1 := by rw [div_le_one (by positivity)]; linarith
    linarith) L
  have hL' : (L : ℝ) ≤ N := by exact_mod_cast hL.le
  have : (L : ℝ) * (1 / (2 * N : ℝ)) ≤ 1 / 2 := by
    rw [mul_one_div, div_le_div_iff₀ (by positivity) (by norm_num)]; linarith
  rw [← sub_eq_add_neg] at hb
  linarith

theorem longLast_all {N : ℕ} {mu : ℝ} (hN : 0 < N) (hmu : 0 < mu) (hmu' : mu ≤ 1 / 2) :
    leftover ((List.range N).map (longLast N mu)) < mu ∧
      0 < leftover ((List.range N).map (longLast N mu)) := by
  obtain ⟨M, rfl⟩ : ∃ M, N = M + 1 := ⟨N - 1, by omega⟩
  have h1 := longLast_head (mu := mu) hN (by omega : M < M + 1)
  have h2 : leftover ((List.range M).map (longLast (M + 1) mu)) ≤ 1 := by
    have hv : ∀ v ∈ (List.range M).map (longLast (M + 1) mu), 0 ≤ v ∧ v ≤ 1 := by
      intro v hv
      obtain ⟨k, hk, rfl⟩ := List.mem_map.mp hv
      have hk := List.mem_range.mp hk
      rw [longLast, if_neg (by omega)]
      refine ⟨by positivity, ?_⟩
      rw [div_le_one (by positivity)]
      push_cast
      have : (0 : ℝ) ≤ M := by positivity
      linarith
    have h1 := stickWeights_sum ((List.range M).map (longLast (M + 1) mu))
    have h2 := List.sum_nonneg (stickWeights_nonneg hv)
    linarith
  have e : leftover ((List.range (M + 1)).map (longLast (M + 1) mu)) =
      leftover ((List.range M).map (longLast (M + 1) mu)) * (mu / 2) := by
    rw [List.range_succ, List.map_append, leftover_append]
    simp [leftover, longLast]
  rw [e]
  constructor
  · nlinarith
  · positivity

theorem longLast_mem {N : ℕ} {mu : ℝ} (hN : 0 < N) (hmu : 0 < mu) (hmu' : mu ≤ 1 / 2) (k : ℕ) :
    1 / (2 * N) ≤ longLast N mu k ∧ longLast N mu k < 1 := by
  have hN' : (1 : ℝ) ≤ N := by exact_mod_cast hN
  have h : 1 / (2 * N : ℝ) ≤ 1 / 2 := by
    rw [div_le_div_iff₀ (by positivity) (by norm_num)]; linarith
  unfold longLast
  split
  · constructor <;> linarith
  · constructor <;> linarith

/-- The row joins the last component if all weights exceed its level and the last one is drawn. -/
theorem sliceAllocDatum_last {E : Env G H Θ} {n N : ℕ} {mix : SBState} {u : List ℝ}
    {a : Alg G H Θ} {i : ℕ} (hi : i < n) (hN : 0 < N) (hc : Consistent E.contrib n a)
    (hca : CachesOk a) (hm : SBInv mix) (hnum : a.clus.length = mix.num) (hmN : mix.num = N)
    (hu : u.length = n) (hall : ∀ c < N, u.getD i 0 < (sbWeights mix).getD c 0) :
    ∃ a', sliceAllocDatum E mix u a i (N - 1) = .ok a' ∧ Consistent E.contrib n a' ∧
      CachesOk a' ∧ a'.clus.length = mix.num ∧ a'.alloc = a.alloc.set i (N - 1) := by
  unfold sliceAllocDatum
  have hiu : i < u.length := by omega
  simp only [eigenAt, List.getElem?_eq_getElem hiu, ok_bind]
  rw [if_pos (sbWeights_length hm).ge]
  have hel : eligible mix.num (sbWeights mix) u[i] = List.range N := by
    unfold eligible
    rw [hmN, List.filter_eq_self]
    intro c hc
    have := hall c (List.mem_range.mp hc)
    rw [List.getD_eq_getElem?_getD, List.getElem?_eq_getElem hiu, Option.getD_some] at this
    simpa using this
  rw [hel]
  obtain ⟨r, hr⟩ := mapM_all_ok (f := fun j => vget a.clus j) (l := List.range N) (fun j hj => by
      have := List.mem_range.mp hj
      exact ⟨_, vget_ok (List.getElem?_eq_getElem (by omega : j < a.clus.length))⟩)
  simp only [hr, ok_bind]
  rw [List.length_range, categorical_ok (N - 1) (by omega), ok_bind,
    Nat.mod_eq_of_lt (by omega : N - 1 < N)]
  rw [vget_ok (show (List.range N)[N - 1]? = some (N - 1) by
    rw [List.getElem?_range (by omega)]), ok_bind, moveTo_eq_blocked (by omega)]
  obtain ⟨a', e, b1, b2, b3, b4, b5⟩ := blockedDatum_ok (E := E) (N - 1) rfl hc hca hi
  refine ⟨a', e, b1, b2, by omega, ?_⟩
  rw [b5, Nat.mod_eq_of_lt (by omega)]

/-- The sticks up to the largest label after the update, if the last component is empty. -/
theorem sbUpdate_head {prior : SBPrior} {mix m : SBState} {cards : List ℕ} {q : ℕ → ℝ} {L : ℕ}
    (hi : SBInv mix) (h : sbUpdate mix prior false cards (fun j _ _ => q j) = .ok m)
    (hL : L < mix.num) : m.sticks.take L = (List.range L).map q := by
  obtain ⟨i1, shapes, new, -, em, est, enum, hne, -⟩ := sbUpdate_inv hi h
  have hlen : new.length = mix.num := by simpa using mapM_ok_length em
  simp only [Bool.false_eq_true, if_false] at est
  apply List.ext_getElem?
  intro k
  by_cases hk : k < L
  · rw [List.getElem?_take_of_lt hk, est, List.getElem?_set_ne (by omega)]
    obtain ⟨x, x1, x2⟩ := mapM_getElem? em k (by simp; omega)
    rw [x1, List.getElem?_map, List.getElem?_range hk, Option.map_some]
    rw [List.getElem_range] at x2
    unfold drawStick at x2
    cases h1 : vget shapes k with
    | error e' => rw [h1] at x2; cases x2
    | ok ab =>
      rw [h1, ok_bind] at x2
      cases h2 : vget cards k with
      | error e' => rw [h2] at x2; cases x2
      | ok ci =>
        rw [h2, ok_bind, betaRng] at x2
        split at x2
        · rw [← Except.ok.inj x2]
        · cases x2
  · rw [List.getElem?_eq_none (by rw [List.length_take]; omega),
      List.getElem?_eq_none (by simp; omega)]

/-- **C143 is violated.** If the last component of a finite mixture is empty and some slice level
is at most one half, then for every `N` above the labels in use (up to `10^15`) there are draws in
the ranges of their generators with which one iteration ends with `N` components, whose weights sum
to less than one, and with every row in component `N - 1`. So there can be fewer components than
configured and also more, with rows in components that the mixture does not have. -/
theorem c143_violated (E : Env G H Θ) (prior : SBPrior)
    (hp : (∃ m, 0 < m ∧ prior = .dp m) ∨ ∃ a b, 0 < a ∧ 0 ≤ b ∧ b < 1 ∧ prior = .py a b)
    (n : ℕ) (hn : 0 < n) (s : State G H Θ) (hs : StateOk E.contrib prior n s)
    (hempty : ∀ c ∈ s.alg.alloc, c + 1 < s.alg.clus.length) (hu : ∃ u ∈ s.u, u ≤ 1 / 2)
    (N : ℕ) (hN : ∀ c ∈ s.alg.alloc, c < N) (hN' : N ≤ 10 ^ 15) :
    ∃ z : Noise, (∀ j a b, 0 < z.upd j a b ∧ z.upd j a b < 1) ∧
      (∀ j a b, 0 < z.brk j a b ∧ z.brk j a b < 1) ∧
      (∀ i w, 0 < w → 0 < z.unif i w ∧ z.unif i w < w) ∧
      ∃ F, ∀ fuel ≥ F, ∃ s', step E prior false n fuel s z = .ok s' ∧
        s'.alg.clus.length = N ∧ (sbWeights s'.mix).sum < 1 ∧ s'.alg.alloc = List.replicate n (N - 1) := by
  have ha := stateOk_iff.mp hs
  have hnum := ha.num
  obtain ⟨mx, emx, hmem, hmax⟩ := maxElement_ok (l := s.alg.alloc) (by rw [ha.cons.len]; exact hn)
  obtain ⟨mu, emu, hmu, hmin⟩ := minCoeff_ok (l := s.u) (by rw [ha.uLen]; exact hn)
  have hmx := hempty mx hmem
  have hmxN := hN mx hmem
  have hN0 : 0 < N := by omega
  have hmu0 : 0 < mu := lt_of_lt_of_le (by norm_num) (ha.uPos mu hmu)
  have hmu1 : mu ≤ 1 / 2 := by
    obtain ⟨u, h1, h2⟩ := hu
    exact (hmin u h1).trans h2
  have hq := longLast_mem (N := N) hN0 hmu0 hmu1
  have hN1 : (1 : ℝ) ≤ N := by exact_mod_cast hN0
  have hNp : (N : ℝ) ≤ 10 ^ 15 := by exact_mod_cast hN'
  have hε : (0 : ℝ) < 1 / (2 * N) := by positivity
  have hε4 : (1e-16 : ℝ) < 1 / (2 * N) * (1 / 2) := by
    rw [show (1 / (2 * N) * (1 / 2) : ℝ) = 1 / (4 * N) by field_simp; norm_num,
      lt_div_iff₀ (by positivity)]
    nlinarith
  -- weights of lists of these sticks
  have hwt : ∀ L c, c < L → c < N →
      (1e-16 : ℝ) < (stickWeights ((List.range L).map (longLast N mu))).getD c 0 := by
    intro L c hcL hcN
    rw [stickWeights_getD _ _ (by simpa using hcL), ← List.map_take, List.take_range,
      min_eq_left hcL.le]
    have h1 := longLast_head (mu := mu) hN0 hcN
    have h2 : ((List.range L).map (longLast N mu)).getD c 0 = longLast N mu c := by
      simp [List.getD_eq_getElem?_getD, hcL]
    rw [h2]
    have h3 := (hq c).1
    refine lt_of_lt_of_le hε4 (mul_le_mul h3 h1 (by norm_num) (by linarith))
  let z : Noise := ⟨fun _ => 0, fun j _ _ => longLast N mu j,
    fun j _ _ => longLast N mu (mx + 1 + j), fun _ => 0, fun _ w => min (w / 2) 1e-17,
    fun _ => N - 1⟩
  have hz1 : ∀ i w, 0 < w → 0 < z.unif i w ∧ z.unif i w < w := by
    intro i w hw
    refine ⟨lt_min (by linarith) (by norm_num), lt_of_le_of_lt (min_le_left _ _) (by linarith)⟩
  refine ⟨z, fun j a b => ⟨hε.trans_le (hq j).1, (hq j).2⟩,
    fun j a b => ⟨hε.trans_le (hq _).1, (hq _).2⟩, hz1, ?_⟩
  obtain ⟨F, hF⟩ := c08_step_succeeds E prior false n hn hp s hs z (1 / (2 * N)) hε
    (fun j a b _ _ => ⟨hε.le.trans (hq j).1, (hq j).2.le⟩)
    (fun j a b _ _ => ⟨(hq _).1, (hq _).2.le⟩)
    (fun i w hw => ⟨(hz1 i w hw).1.le, (hz1 i w hw).2⟩) (by
      intro m em c hc
      have hcm := hmax c hc
      have hhead := sbUpdate_head (q := longLast N mu) (L := mx + 1) ha.inv em (by omega)
      have hsp : m.sticks = m.sticks.take (mx + 1) ++ m.sticks.drop (mx + 1) := by simp
      rw [hsp, stickWeights_append, hhead, List.getD_append _ _ _ _ (by
        rw [stickWeights_length]; simp; omega)]
      exact hwt _ _ (by omega) (by omega))
  refine ⟨max F N, fun fuel hfuel => ?_⟩
  obtain ⟨s', e, hok⟩ := hF fuel (le_trans (le_max_left _ _) hfuel)
  refine ⟨s', e, ?_⟩
  have ha' := stateOk_iff.mp hok
  obtain ⟨a, s1, s2, h1, h2, h3, h4, g1, g2, hm⟩ := step_parts e
  obtain ⟨a', ea, c1, c2, c4, c3, -, -⟩ :=
    sampleUniqueValues_ok (E := E) (upd := false) (r := z.uv) ha.cons ha.caches
  rw [h1] at ea
  cases Except.ok.inj ea
  obtain ⟨mix1, mx', mix2, mu', e1, e2, e3, e4, e5, e6⟩ := sampleWeights_parts h2
  have q1 : mx' = mx := by
    have e2' : maxElement s.alg.alloc = .ok mx' := by rw [← c4]; exact e2
    rw [emx] at e2'; exact (Except.ok.inj e2').symm
  have q2 : mu' = mu := by
    have e5' : minCoeff s.u = .ok mu' := e5
    rw [emu] at e5'; exact (Except.ok.inj e5').symm
  subst q1 q2
  obtain ⟨i2, e7⟩ := sbSet_inv e4
  rw [sbUpdate_head (q := longLast N mu') (L := mx' + 1) ha.inv e1 (by omega)] at e7
  obtain ⟨m, em, hms⟩ := breakLoop_exact (base := mx' + 1)
    hp (fun k => ⟨hε.le.trans (hq k).1, (hq k).2.le⟩)
    (fun L hL => hmu1.trans (longLast_head hN0 hL)) (longLast_all hN0 hmu0 hmu1).1
    (N - (mx' + 1)) (mx' + 1) fuel mix2 _ (by omega) le_rfl i2 e7 rfl
    (by have := le_trans (le_max_right F N) hfuel; omega)
  rw [Nat.sub_self] at em
  have e6' : breakLoop prior (fun j _ _ => longLast N mu' (mx' + 1 + j)) mu' fuel 0 mix2
    (sbWeights mix2).sum = .ok s1.mix := e6
  rw [em] at e6'
  have hst : s'.mix.sticks = (List.range N).map (longLast N mu') := by
    rw [hm, ← Except.ok.inj e6', hms]
  have hN2 : s'.mix.num = N := by rw [ha'.inv.1, hst]; simp
  have hw' : sbWeights s'.mix = stickWeights ((List.range N).map (longLast N mu')) := by
    rw [ha'.inv.weights (by
      rw [hst]
      intro v hv
      obtain ⟨k, -, rfl⟩ := List.mem_map.mp hv
      exact ⟨hε.le.trans (hq k).1, (hq k).2.le⟩), hst]
  refine ⟨ha'.num.trans hN2, ?_, ?_⟩
  · rw [hw', stickWeights_sum]
    linarith [(longLast_all hN0 hmu0 hmu1).2]
  -- the labels
  have hb1 := sampleWeights_benign (E := E) (inf := false) (s := { s with alg := a }) hn fuel z
    ⟨c1, c2, ha.inv, c3.trans ha.num, ha.covers, ha.uLen, ha.uPos⟩
  rw [h2] at hb1
  have hb1 := hb1.1
  have hb2 := sampleSlice_benign (E := E) (prior := prior) (n := n) z.unif hb1.cons hb1.caches
    hb1.inv hb1.num hb1.covers
  rw [h3] at hb2
  have hb2 := hb2.1
  have hlev : ∀ i < n, s2.u.getD i 0 = 1e-16 := by
    intro i hi
    have hiu : i < s2.u.length := by rw [hb2.uLen]; exact hi
    unfold sampleSlice at h3
    cases h5 : (List.range n).mapM (sliceDatum s1.alg.alloc (sbWeights s1.mix) z.unif) with
    | error e => rw [h5] at h3; cases h3
    | ok u =>
      rw [h5, ok_bind] at h3
      cases h3
      obtain ⟨x, x1, x2⟩ := mapM_getElem? h5 i (by simpa using hi)
      simp only [List.getElem_range] at x2
      unfold sliceDatum at x2
      cases h6 : vget s1.alg.alloc i with
      | error e => rw [h6] at x2; cases x2
      | ok c =>
        rw [h6, ok_bind] at x2
        cases h7 : eigenAt (sbWeights s1.mix) c with
        | error e => rw [h7] at x2; cases x2
        | ok w =>
          rw [h7, ok_bind, uniformRng] at x2
          split at x2
          · rw [ok_bind] at x2
            rw [List.getD_eq_getElem?_getD, x1, Option.getD_some, ← Except.ok.inj x2]
            refine max_eq_left ((min_le_right _ _).trans (by norm_num))
          · cases x2
  have hm2 : s2.mix = s'.mix := g2.trans hm.symm
  obtain ⟨a3, e8, -, -, -, hl3, hlab⟩ := foldlM_range_inv
    (fun a i => sliceAllocDatum E s2.mix s2.u a i (N - 1))
    (fun m a => Consistent E.contrib n a ∧ CachesOk a ∧ a.clus.length = s2.mix.num ∧
      a.alloc.length = n ∧ ∀ i < m, a.alloc[i]? = some (N - 1)) n (by
      rintro i a hi ⟨k1, k2, k3, k4, k5⟩
      obtain ⟨a', e, l1, l2, l3, l4⟩ := sliceAllocDatum_last (u := s2.u) hi hN0 k1 k2 hb2.inv k3
        (by rw [hm2]; exact hN2) hb2.uLen (by
          intro c hc
          rw [hlev i hi, hm2, hw']
          exact hwt N c hc hc)
      refine ⟨a', e, l1, l2, l3, by rw [l4]; simpa using k4, fun j hj => ?_⟩
      rw [l4]
      by_cases hij : i = j
      · subst hij; rw [List.getElem?_set_self (by omega)]
      · rw [List.getElem?_set_ne hij]; exact k5 j (by omega)) s2.alg
    ⟨hb2.cons, hb2.caches, hb2.num, hb2.cons.len, by intro i hi; omega⟩
  have h4' : s'.alg = a3 := by
    unfold sliceAllocations at h4
    have e8' : (List.range n).foldlM (fun a i => sliceAllocDatum E s2.mix s2.u a i (z.cat i))
      s2.alg = .ok a3 := e8
    rw [e8', ok_bind] at h4
    cases h4; rfl
  rw [h4']
  apply List.ext_getElem?
  intro i
  by_cases hi : i < n
  · rw [hlab i hi, List.getElem?_replicate_of_lt hi]
  · rw [List.getElem?_eq_none (by omega), List.getElem?_eq_none (by simp; omega)]

/-! ### Examples: the hypotheses of the theorems above can be met -/

/-- Two components, the row in the second one: an iteration ends with two components. -/
example : ∃ fuel s', step exEnv (.dp 1) false 1 fuel (Cond.pairState ![1 / 2, 1] 1) exNoise = .ok s' ∧
    s'.alg.clus.length = 2 ∧ (sbWeights s'.mix).sum = 1 := by
  obtain ⟨F, hF⟩ := c08_step_succeeds exEnv (.dp 1) false 1 one_pos (.inl ⟨1, one_pos, rfl⟩)
    (Cond.pairState ![1 / 2, 1] 1) (Cond.pairState_ok _ _) exNoise (1 / 2) (by norm_num)
    (by intro j a b _ _; constructor <;> norm_num [exNoise])
    (by intro j a b _ _; constructor <;> norm_num [exNoise])
    (by intro i w hw; exact ⟨by simp only [exNoise]; positivity, by simp only [exNoise]; linarith⟩)
    (by
      intro m hm c hc
      obtain ⟨-, shapes, new, -, em, est, -⟩ :=
        sbUpdate_inv (stateOk_iff.mp (Cond.pairState_ok ![1 / 2, 1] 1)).inv hm
      have hh := sbUpdate_head (q := fun _ => 3 / 5) (L := 1)
        (stateOk_iff.mp (Cond.pairState_ok ![1 / 2, 1] 1)).inv hm (by simp [Cond.pairState])
      have hlen : new.length = 2 := by simpa [Cond.pairState] using mapM_ok_length em
      have hc' : c = 1 := by simpa [Cond.pairState, Cond.pairAlg] using hc
      obtain ⟨x, y, rfl⟩ := List.length_eq_two.mp hlen
      simp [Cond.pairState] at est
      rw [est] at hh ⊢
      simp at hh
      subst hc' hh
      norm_num [stickWeights])
  obtain ⟨s', e, -⟩ := hF F le_rfl
  refine ⟨F, s', e, ?_⟩
  exact c143_last_used_partial exEnv (.dp 1) 1 one_pos F _ s' (Cond.pairState_ok _ _) exNoise
    (by intro j a b _ _; constructor <;> norm_num [exNoise])
    (by simp [Cond.pairState, Cond.pairAlg]) e

/-- Two components, the row in the first one: an iteration can end with one component, or with the
row in the third of three. -/
example : (∃ z fuel s', step exEnv (.dp 1) false 1 fuel (Cond.pairState ![1 / 2, 1] 0) z = .ok s' ∧
      s'.alg.clus.length = 1) ∧
    ∃ z fuel s', step exEnv (.dp 1) false 1 fuel (Cond.pairState ![1 / 2, 1] 0) z = .ok s' ∧
      s'.alg.clus.length = 3 ∧ s'.alg.alloc = [2] := by
  have key := c143_violated exEnv (.dp 1) (.inl ⟨1, one_pos, rfl⟩) 1 one_pos
    (Cond.pairState ![1 / 2, 1] 0) (Cond.pairState_ok _ _) (by simp [Cond.pairState, Cond.pairAlg])
    ⟨1 / 10, by simp [Cond.pairState], by norm_num⟩
  obtain ⟨z, -, -, -, F, hF⟩ := key 1 (by simp [Cond.pairState, Cond.pairAlg]) (by norm_num)
  obtain ⟨s', e, h, -⟩ := hF F le_rfl
  obtain ⟨z2, -, -, -, F2, hF2⟩ := key 3 (by simp [Cond.pairState, Cond.pairAlg]) (by norm_num)
  obtain ⟨s2, e2, h2, -, h3⟩ := hF2 F2 le_rfl
  exact ⟨⟨z, F, s', e, h⟩, z2, F2, s2, e2, h2, h3⟩

end Bayesmix.Slice
