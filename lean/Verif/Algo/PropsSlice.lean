import Verif.Algo.SliceLemmas
import Verif.Alloc.InitLemmas
import Mathlib.Algebra.Group.Int.Defs
import Mathlib.Data.List.GetD

/-! # C08: the slice sampler -/

namespace Bayesmix.Slice

open Bayesmix Mixing

variable {G H Θ : Type} [AddCommGroup G]

/-! ### Statements -/

/-- The state that the slice sampler must keep: the allocation is consistent, cached posteriors
are there when they are marked as saved, sticks and weights belong together, there is one
component object for each stick, there is one slice level for each row and none is below the
floor of the code, and a fixed list of Beta priors is long enough. -/
def StateOk (contrib : ℕ → G) (prior : SBPrior) (n : ℕ) (s : State G H Θ) : Prop :=
  Consistent contrib n s.alg ∧
  (∀ o ∈ s.alg.clus, o.saved = true → o.ph.isSome) ∧
  s.alg.clus.length = s.mix.sticks.length ∧
  s.mix.num = s.mix.sticks.length ∧
  logweightsFromSticks s.mix.sticks.length s.mix.sticks = .ok s.mix.logweights ∧
  (∀ l, prior = .betas l → s.mix.sticks.length ≤ l.length) ∧
  s.u.length = n ∧ ∀ x ∈ s.u, (1e-16 : ℝ) ≤ x

theorem stateOk_iff {contrib : ℕ → G} {prior : SBPrior} {n : ℕ} {s : State G H Θ} :
    StateOk contrib prior n s ↔ Aligned contrib prior n s := by
  constructor
  · rintro ⟨a, b, c, d, e, f, g, h⟩
    exact ⟨a, b, ⟨d, by rw [d]; exact e⟩, by omega, by intro l hl; rw [d]; exact f l hl, g, h⟩
  · rintro ⟨a, b, ⟨d, e⟩, c, f, g, h⟩
    exact ⟨a, b, by omega, d, by rw [← d]; exact e, fun l hl => by rw [← d]; exact f l hl, g, h⟩

/-- **C08, one iteration.** From a good state, whatever the draws, one iteration of the slice
sampler ends in a good state, throws, or does not end (its `while` loop keeps breaking sticks); it
never reads or writes out of range and fails no assertion. -/
theorem c08_step (E : Env G H Θ) (prior : SBPrior) (inf : Bool) (n : ℕ) (hn : 0 < n) (fuel : ℕ)
    (s : State G H Θ) (hs : StateOk E.contrib prior n s) (z : Noise) :
    (∃ s', step E prior inf n fuel s z = .ok s' ∧ StateOk E.contrib prior n s') ∨
      step E prior inf n fuel s z = .error .throw ∨
      step E prior inf n fuel s z = .error .outOfFuel := by
  have h := step_benign (inf := inf) hn fuel z (stateOk_iff.mp hs)
  cases hr : step E prior inf n fuel s z with
  | ok s' => rw [hr] at h; exact .inl ⟨s', rfl, stateOk_iff.mpr h.1⟩
  | error e =>
    rw [hr] at h
    rcases h with rfl | rfl
    · exact .inr (.inl rfl)
    · exact .inr (.inr rfl)

/-- **C08, any number of iterations.** -/
theorem c08_run (E : Env G H Θ) (prior : SBPrior) (inf : Bool) (n : ℕ) (hn : 0 < n) (fuel : ℕ)
    (s s' : State G H Θ) (hs : StateOk E.contrib prior n s) (zs : List Noise)
    (h : zs.foldlM (step E prior inf n fuel) s = .ok s') : StateOk E.contrib prior n s' := by
  have hb := Benign.foldlM (P := StateOk E.contrib prior n) zs (f := step E prior inf n fuel)
    (fun z _ s hs => (step_benign (inf := inf) hn fuel z (stateOk_iff.mp hs)).imp
      fun s' h' => stateOk_iff.mpr h'.1) s hs
  rw [h] at hb; exact hb

/-- **C08, labels.** After an iteration the weight of the component of each row exceeds the row's
slice level, and the label is that of an existing component. -/
theorem c08_labels_above_slice (E : Env G H Θ) (prior : SBPrior) (inf : Bool) (n : ℕ) (hn : 0 < n)
    (fuel : ℕ) (s s' : State G H Θ) (hs : StateOk E.contrib prior n s) (z : Noise)
    (h : step E prior inf n fuel s z = .ok s') (i : ℕ) (hi : i < n) :
    ∃ c u w, s'.alg.alloc[i]? = some c ∧ s'.u[i]? = some u ∧ (sbWeights s'.mix)[c]? = some w ∧
      u < w ∧ c < s'.alg.clus.length := by
  have hb := step_benign (inf := inf) hn fuel z (stateOk_iff.mp hs)
  rw [h] at hb
  obtain ⟨h1, _, h2⟩ := hb
  obtain ⟨c, e1, e2, e3⟩ := h2 i hi
  have hu : i < s'.u.length := by rw [h1.uLen]; exact hi
  have hw : c < (sbWeights s'.mix).length := by rw [sbWeights_length h1.inv]; exact e2
  refine ⟨c, s'.u[i], (sbWeights s'.mix)[c], e1, List.getElem?_eq_getElem hu,
    List.getElem?_eq_getElem hw, ?_, by rw [h1.num]; exact e2⟩
  simpa [List.getD_eq_getElem?_getD, List.getElem?_eq_getElem hu, List.getElem?_eq_getElem hw]
    using e3

/-- **C08, an iteration succeeds** for a Dirichlet process prior and for a Pitman-Yor prior with
positive strength, if Beta draws lie in the unit interval, the draws of new sticks stay away
from zero, uniform draws lie in `[0, w)`, and each occupied component has after the update of the
sticks a weight above the floor `1e-16` of the slice levels: the `while` loop ends and the
iteration returns a good state. -/
theorem c08_step_succeeds (E : Env G H Θ) (prior : SBPrior) (inf : Bool) (n : ℕ) (hn : 0 < n)
    (hp : (∃ m, 0 < m ∧ prior = .dp m) ∨ ∃ a b, 0 < a ∧ 0 ≤ b ∧ b < 1 ∧ prior = .py a b)
    (s : State G H Θ) (hs : StateOk E.contrib prior n s) (z : Noise) (ε : ℝ) (hε : 0 < ε)
    (hupd : ∀ j a b, 0 < a → 0 < b → 0 ≤ z.upd j a b ∧ z.upd j a b ≤ 1)
    (hbrk : ∀ j a b, 0 < a → 0 < b → ε ≤ z.brk j a b ∧ z.brk j a b ≤ 1)
    (hunif : ∀ i w, 0 < w → 0 ≤ z.unif i w ∧ z.unif i w < w)
    (hw : ∀ m, sbUpdate s.mix prior inf (s.alg.clus.map fun o => o.card.toNat) z.upd = .ok m →
      ∀ c ∈ s.alg.alloc, (1e-16 : ℝ) < (stickWeights m.sticks).getD c 0) :
    ∃ F, ∀ fuel ≥ F, ∃ s', step E prior inf n fuel s z = .ok s' ∧
      StateOk E.contrib prior n s' := by
  have ha := stateOk_iff.mp hs
  obtain ⟨a, ea, c1, c2, c4, c3, c5, c6⟩ :=
    sampleUniqueValues_ok (upd := false) (r := z.uv) ha.cons ha.caches
  have ha1 : Aligned E.contrib prior n { s with alg := a } :=
    ⟨c1, c2, ha.inv, c3.trans ha.num, ha.covers, ha.uLen, ha.uPos⟩
  obtain ⟨F, hF⟩ := sampleWeights_runs (inf := inf) hn hp z hε hupd hbrk ha1
  refine ⟨F, fun fuel hfuel => ?_⟩
  obtain ⟨s1, e1⟩ := hF fuel hfuel
  have hcards : (a.clus.map fun o => o.card.toNat) = s.alg.clus.map fun o => o.card.toNat := by
    apply List.ext_getElem?
    intro k
    simp only [List.getElem?_map]
    by_cases hk : k < a.clus.length
    · obtain ⟨o, ho, _, hcard, _⟩ := c6 k a.clus[k] (List.getElem?_eq_getElem hk)
      rw [ho, List.getElem?_eq_getElem hk]; simp [hcard]
    · rw [List.getElem?_eq_none (by omega), List.getElem?_eq_none (by omega)]
  obtain ⟨f1, f2, f3, f4, f5, mix1, g1, mx, g2, g3, app, g4, g5⟩ := sampleWeights_facts
    (s := { s with alg := a }) ha.inv e1
  simp only [hcards] at g1
  have hb1 := sampleWeights_benign (E := E) (inf := inf) hn fuel z ha1
  rw [e1] at hb1
  obtain ⟨hb1, -⟩ := hb1
  have hval : ∀ v ∈ s1.mix.sticks, 0 ≤ v ∧ v ≤ 1 := by
    intro v hv
    rcases f5 v hv with h | ⟨j, a, b, ha, hb, h | h⟩
    · rw [h]; norm_num
    · rw [h]; exact hupd j a b ha hb
    · rw [h]; exact ⟨hε.le.trans (hbrk j a b ha hb).1, (hbrk j a b ha hb).2⟩
  have hweights := f1.weights hval
  -- weights of the occupied components
  have hocc : ∀ c ∈ s1.alg.alloc, (1e-16 : ℝ) < (sbWeights s1.mix).getD c 0 := by
    intro c hc
    rw [f3] at hc
    obtain ⟨m', em, _, hm'⟩ := maxElement_ok (List.length_pos_of_mem hc)
    rw [show maxElement a.alloc = .ok mx from g2] at em
    have hcm := hm' c hc
    rw [← Except.ok.inj em] at hcm
    rw [show ({ s with alg := a } : State G H Θ).alg.alloc = a.alloc from rfl, c4] at hc
    have := hw mix1 g1 c hc
    have hsp : mix1.sticks = mix1.sticks.take (mx + 1) ++ mix1.sticks.drop (mx + 1) := by simp
    have hl : c < (stickWeights (mix1.sticks.take (mx + 1))).length := by
      rw [stickWeights_length, List.length_take]; omega
    rw [hsp, stickWeights_append, List.getD_append _ _ _ _ hl] at this
    rw [hweights, g4, stickWeights_append, List.getD_append _ _ _ _ hl]
    exact this
  -- the slice levels
  have hsl : ∃ u, (List.range n).mapM (sliceDatum s1.alg.alloc (sbWeights s1.mix) z.unif) = .ok u :=
    mapM_all_ok fun i hi => by
      have hi := List.mem_range.mp hi
      obtain ⟨c, q1, q2⟩ := hb1.cons.on.labelled i (by simpa using hi)
      have hcw : c < (sbWeights s1.mix).length := by
        rw [sbWeights_length hb1.inv, ← hb1.num]; exact q2
      have h := hocc c (List.mem_of_getElem? q1)
      rw [List.getD_eq_getElem?_getD, List.getElem?_eq_getElem hcw] at h
      unfold sliceDatum
      rw [vget_ok q1, ok_bind]
      simp only [eigenAt, List.getElem?_eq_getElem hcw, ok_bind, uniformRng]
      have h0 : 0 < (sbWeights s1.mix)[c] := lt_trans (by norm_num) h
      rw [if_pos h0]
      exact ⟨_, rfl⟩
  obtain ⟨u, eu⟩ := hsl
  have es : sampleSlice n z.unif s1 = .ok { s1 with u := u } := by
    rw [sampleSlice, eu, ok_bind]
  have hb2 := sampleSlice_benign (E := E) (prior := prior) (n := n) z.unif hb1.cons hb1.caches
    hb1.inv hb1.num hb1.covers
  rw [es] at hb2
  have hb2 := hb2.1
  have hlow : ∀ i < n, ∃ c, s1.alg.alloc[i]? = some c ∧ c < s1.mix.num ∧
      u.getD i 0 < (sbWeights s1.mix).getD c 0 := by
    intro i hi
    obtain ⟨c, q1, q2⟩ := hb1.cons.on.labelled i (by simpa using hi)
    refine ⟨c, q1, by rw [← hb1.num]; exact q2, ?_⟩
    have hcw : c < (sbWeights s1.mix).length := by
      rw [sbWeights_length hb1.inv, ← hb1.num]; exact q2
    have h := hocc c (List.mem_of_getElem? q1)
    obtain ⟨x, x1, x2⟩ := mapM_getElem? eu i (by simpa using hi)
    simp only [List.getElem_range] at x2
    unfold sliceDatum at x2
    rw [vget_ok q1, ok_bind] at x2
    simp only [eigenAt, List.getElem?_eq_getElem hcw, ok_bind, uniformRng] at x2
    rw [List.getD_eq_getElem?_getD, List.getElem?_eq_getElem hcw] at h
    have h0 : 0 < (sbWeights s1.mix)[c] := lt_trans (by norm_num) h
    rw [if_pos h0, ok_bind] at x2
    rw [List.getD_eq_getElem?_getD, x1, List.getD_eq_getElem?_getD, List.getElem?_eq_getElem hcw,
      ← Except.ok.inj x2]
    exact max_lt h (hunif i _ h0).2
  -- the allocations
  obtain ⟨a3, e3, -⟩ := foldlM_range_inv
    (fun a i => sliceAllocDatum E s1.mix u a i (z.cat i))
    (fun m a => (Consistent E.contrib n a ∧ CachesOk a ∧ a.clus.length = s1.mix.num) ∧
      ∀ i, m ≤ i → a.alloc[i]? = s1.alg.alloc[i]?) n (by
      rintro i a hi ⟨⟨h1, h2, h3⟩, h4⟩
      have hb := sliceAllocDatum_benign (E := E) (z.cat i) hi h1 h2 hb1.inv h3 hb2.uLen
      obtain ⟨c, q1, q2, q3⟩ := hlow i hi
      have hok : ∃ a', sliceAllocDatum E s1.mix u a i (z.cat i) = .ok a' := by
        unfold sliceAllocDatum
        have hiu : i < u.length := by rw [show u.length = n from hb2.uLen]; exact hi
        simp only [eigenAt, List.getElem?_eq_getElem hiu, ok_bind]
        rw [if_pos (sbWeights_length hb1.inv).ge]
        have hin : c ∈ eligible s1.mix.num (sbWeights s1.mix) u[i] := by
          rw [mem_eligible]
          refine ⟨q2, ?_⟩
          rw [List.getD_eq_getElem?_getD, List.getElem?_eq_getElem hiu] at q3
          exact q3
        obtain ⟨r, hr⟩ := mapM_all_ok (f := fun j => vget a.clus j)
          (l := eligible s1.mix.num (sbWeights s1.mix) u[i]) (fun j hj => by
            have := (mem_eligible.mp hj).1
            exact ⟨_, vget_ok (List.getElem?_eq_getElem (by omega : j < a.clus.length))⟩)
        simp only [hr, ok_bind]
        have hlen := List.length_pos_of_mem hin
        rw [categorical_ok (z.cat i) (by omega), ok_bind]
        have hlt := Nat.mod_lt (z.cat i) hlen
        rw [vget_ok (List.getElem?_eq_getElem hlt), ok_bind]
        have hcl := (mem_eligible.mp (List.getElem_mem hlt)).1
        rw [moveTo_eq_blocked (by omega)]
        obtain ⟨a', e, -⟩ := blockedDatum_ok (E := E)
          ((eligible s1.mix.num (sbWeights s1.mix) u[i])[z.cat i %
            (eligible s1.mix.num (sbWeights s1.mix) u[i]).length]) rfl h1 h2 hi
        exact ⟨a', e⟩
      obtain ⟨a', ea'⟩ := hok
      rw [ea'] at hb
      obtain ⟨b1, b2, b3, b4, c', b5, -⟩ := hb
      refine ⟨a', ea', ⟨b1, b2, b3⟩, fun j hj => ?_⟩
      rw [b5, List.getElem?_set_ne (by omega)]
      exact h4 j (by omega)) s1.alg ⟨⟨hb1.cons, hb1.caches, hb1.num⟩, fun _ _ => rfl⟩
  have hstep : step E prior inf n fuel s z = .ok { s1 with alg := a3, u := u } := by
    simp only [step, ea, ok_bind, e1, es, sliceAllocations, e3]
  refine ⟨_, hstep, ?_⟩
  have hfin := step_benign (inf := inf) hn fuel z ha
  rw [hstep] at hfin
  exact stateOk_iff.mpr hfin.1

/-- **C08, coverage at the levels the truncation was made for.** When `sample_weights` returns,
every component that could come after the sticks present, with further sticks broken in any way,
has a weight below every slice level that was in force in it.

Missing (`c08_truncation_violated`): an iteration draws new slice levels after that. -/
theorem c08_truncation_partial (E : Env G H Θ) (prior : SBPrior) (inf : Bool) (n fuel : ℕ)
    (s s' : State G H Θ) (hs : StateOk E.contrib prior n s) (z : Noise)
    (hupd : ∀ j a b, 0 < a → 0 < b → 0 ≤ z.upd j a b ∧ z.upd j a b ≤ 1)
    (hbrk : ∀ j a b, 0 < a → 0 < b → 0 ≤ z.brk j a b ∧ z.brk j a b ≤ 1)
    (h : sampleWeights E prior inf fuel z s = .ok s') (more : List ℝ)
    (hmore : ∀ v ∈ more, 0 ≤ v ∧ v ≤ 1) (k : ℕ) (w : ℝ) (hk : s'.alg.clus.length ≤ k)
    (hw : (stickWeights (s'.mix.sticks ++ more))[k]? = some w)
    (hn : 0 < n) (u : ℝ) (hu : u ∈ s.u) : w < u := by
  have ha := stateOk_iff.mp hs
  obtain ⟨f1, f2, f3, f4, f5, -⟩ := sampleWeights_facts ha.inv h
  have hb := sampleWeights_benign (E := E) (inf := inf) hn fuel z ha
  rw [h] at hb
  have hlen : s'.alg.clus.length = s'.mix.sticks.length := by rw [hb.1.num, hb.1.inv.1]
  have hval : ∀ v ∈ s'.mix.sticks, 0 ≤ v ∧ v ≤ 1 := by
    intro v hv
    rcases f5 v hv with h | ⟨j, a, b, ha, hb, h | h⟩
    · rw [h]; norm_num
    · rw [h]; exact hupd j a b ha hb
    · rw [h]; exact hbrk j a b ha hb
  have hsum := f4 u hu
  rw [f1.weights hval, stickWeights_sum] at hsum
  rw [stickWeights_append, List.getElem?_append_right (by rw [stickWeights_length]; omega)] at hw
  obtain ⟨x, hx, hxw⟩ := List.mem_map.mp (List.mem_of_getElem? hw)
  have hx0 := stickWeights_nonneg hmore x hx
  have hx1 : x ≤ 1 := by
    have h1 := List.single_le_sum (stickWeights_nonneg hmore) x hx
    rw [stickWeights_sum] at h1
    have h2 := leftover_nonneg (l := more) fun v hv => (hmore v hv).2
    linarith
  have hl := leftover_nonneg (l := s'.mix.sticks) fun v hv => (hval v hv).2
  rw [← hxw]
  nlinarith

/-- **C08, initialization.** With a mixing initialised with at least one and at most as many
components as rows, the initial state is good if no exception is thrown. -/
theorem c08_init (E : Env G H Θ) (prior : SBPrior) (K n : ℕ) (hK : 0 < K) (hKn : K ≤ n) (h0 : H)
    (θ0 : Θ) (zi : InitNoise) (o : Hier G H Θ) (hca : o.saved = true → o.ph.isSome)
    (mix : SBState) (hm : sbInit prior K = .ok mix) (draws : ℕ → ℝ → ℝ) :
    ∃ alg, initAlloc E false K n h0 θ0 zi [o] = .ok alg ∧
      ((∃ s, initSlice n draws alg mix = .ok s ∧ StateOk E.contrib prior n s ∧ s.alg = alg) ∨
        initSlice n draws alg mix = .error .throw) := by
  obtain ⟨alg, e, hok, hlen, -⟩ := initAlloc_ok (upd := false) (h0 := h0) (θ0 := θ0) zi (o := o)
    (E := E) (by intro h; cases h) hK hKn hca
  refine ⟨alg, e, ?_⟩
  obtain ⟨i1, shapes, i2, i3, i4, i5⟩ := sbInit_inv hm
  have hcov : Covers prior mix.num := by
    rintro l rfl
    rw [i5]
    simp only [sbCheck] at i2
    split at i2
    · cases i2
    · rename_i hne
      simp only [ne_eq, Decidable.not_not] at hne
      omega
  have hb := sampleSlice_benign (E := E) (prior := prior) (n := n)
    (s := ⟨alg, mix, List.replicate n 0⟩) draws hok.cons hok.caches i1 (by simp; omega) hcov
  unfold initSlice
  rw [if_neg (by omega)]
  cases hr : sampleSlice n draws ⟨alg, mix, List.replicate n 0⟩ with
  | ok s =>
    rw [hr] at hb
    exact .inl ⟨s, rfl, stateOk_iff.mpr hb.1, hb.2.1⟩
  | error f =>
    right
    rw [hr] at hb
    rcases hb with rfl | rfl
    · rfl
    · exfalso
      unfold sampleSlice at hr
      cases hq : (List.range n).mapM (sliceDatum alg.alloc (sbWeights mix) draws) with
      | ok u => simp only [hq, ok_bind] at hr; cases hr
      | error g =>
        simp only [hq, error_bind] at hr
        have hg : g = .outOfFuel := by injection hr
        subst hg
        have : Except.error Fault.outOfFuel ≠
            (List.range n).mapM (sliceDatum alg.alloc (sbWeights mix) draws) := by
          intro hne
          have key : ∀ l : List ℕ, l.mapM (sliceDatum alg.alloc (sbWeights mix) draws) ≠
              .error .outOfFuel := by
            intro l
            induction l with
            | nil => intro h; cases h
            | cons x l ih =>
              intro h
              rw [List.mapM_cons] at h
              cases h1 : sliceDatum alg.alloc (sbWeights mix) draws x with
              | error f' =>
                rw [h1] at h
                have hf : f' = .outOfFuel := by injection h
                subst hf
                unfold sliceDatum vget eigenAt uniformRng at h1
                cases h2 : alg.alloc[x]? with
                | none => simp [h2] at h1
                | some c =>
                  rw [h2] at h1
                  simp only [ok_bind] at h1
                  cases h3 : (sbWeights mix)[c]? with
                  | none => simp [h3] at h1
                  | some w =>
                    rw [h3] at h1
                    simp only [ok_bind] at h1
                    split at h1 <;> simp at h1
              | ok b =>
                rw [h1, ok_bind] at h
                cases h2 : l.mapM (sliceDatum alg.alloc (sbWeights mix) draws) with
                | ok bs => rw [h2] at h; cases h
                | error f' =>
                  rw [h2] at h
                  have hf : f' = .outOfFuel := by injection h
                  subst hf
                  exact ih h2
          exact key _ hne.symm
        exact this hq.symm

/-! ### Where the code departs from the property -/

/-- A weight vector without entries: the update of a mixing whose prior has no components. -/
theorem sbInit_zero (prior : SBPrior) (hp : (∃ m, 0 < m ∧ prior = .dp m) ∨
    ∃ a b, 0 < a ∧ 0 ≤ b ∧ b < 1 ∧ prior = .py a b) : sbInit prior 0 = .ok ⟨[], [], 0⟩ := by
  rcases hp with ⟨m, hm, rfl⟩ | ⟨a, b, ha, hb, hb', rfl⟩
  · have h : ¬ m ≤ 0 := by linarith
    simp [sbInit, sbCheck, h, priorShapes, logweightsFromSticks]
  · have h : ¬ a ≤ -b := by linarith
    have h' : ¬ (b < 0 ∨ b ≥ 1) := by rintro (h | h) <;> linarith
    simp only [sbInit, sbCheck, h, h', if_false, ok_bind, priorShapes, List.range_zero,
      List.mapM_nil, logweightsFromSticks]
    rfl

/-- **C08 fails when the number of components is left at zero.** The stick-breaking prior accepts
zero components (the algorithm then takes one per row), but no stick exists and the
initialization of the slice sampler reads a weight that is not there. -/
theorem c08_zero_components_violated (E : Env G H Θ) (prior : SBPrior)
    (hp : (∃ m, 0 < m ∧ prior = .dp m) ∨ ∃ a b, 0 < a ∧ 0 ≤ b ∧ b < 1 ∧ prior = .py a b)
    (n : ℕ) (hn : 0 < n) (h0 : H) (θ0 : Θ) (zi : InitNoise) (o : Hier G H Θ)
    (hca : o.saved = true → o.ph.isSome) (draws : ℕ → ℝ → ℝ) :
    ∃ mix alg, sbInit prior 0 = .ok mix ∧ initAlloc E false n n h0 θ0 zi [o] = .ok alg ∧
      initSlice n draws alg mix = .error .assertFail := by
  obtain ⟨alg, e, hok, hlen, -⟩ := initAlloc_ok (upd := false) (h0 := h0) (θ0 := θ0) zi (o := o)
    (E := E) (by intro h; cases h) hn (le_refl n) hca
  refine ⟨_, alg, sbInit_zero prior hp, e, ?_⟩
  obtain ⟨n, rfl⟩ : ∃ k, n = k + 1 := ⟨n - 1, by omega⟩
  obtain ⟨c, h1, -⟩ := hok.cons.on.labelled 0 (by simp)
  have hd : sliceDatum alg.alloc (sbWeights ⟨[], [], n + 1⟩) draws 0 = .error .assertFail := by
    simp [sliceDatum, vget_ok h1, eigenAt, sbWeights]
  simp only [initSlice, if_true, sampleSlice, List.range_succ_eq_map, List.mapM_cons, hd,
    error_bind]

/-- **C08 fails for a list of Beta priors.** As soon as an iteration needs one more stick, it
throws, although the state is good and the prior was accepted. -/
theorem c08_beta_priors_violated (E : Env G H Θ) (l : List (ℝ × ℝ)) (inf : Bool) (n : ℕ)
    (hn : 0 < n) (fuel : ℕ) (s : State G H Θ) (hs : StateOk E.contrib (.betas l) n s) (z : Noise)
    (hf : 0 < fuel) (mix : SBState)
    (h : sbUpdate s.mix (.betas l) inf (s.alg.clus.map fun o => o.card.toNat) z.upd = .ok mix)
    (hd : ∀ v ∈ mix.sticks, 0 ≤ v ∧ v ≤ 1) (c : ℕ) (hc : c ∈ s.alg.alloc)
    (hmax : ∀ c' ∈ s.alg.alloc, c' ≤ c) (u : ℝ) (hu : u ∈ s.u) (hmin : ∀ x ∈ s.u, u ≤ x)
    (hneed : u ≤ leftover (mix.sticks.take (c + 1))) :
    sampleWeights E (.betas l) inf fuel z s = .error .throw := by
  have ha := stateOk_iff.mp hs
  obtain ⟨i1, _, _, _, _, _, n1, _⟩ := sbUpdate_inv ha.inv h
  have i1' := i1.1
  obtain ⟨mx, emx, hmem, hmax'⟩ := maxElement_ok (List.length_pos_of_mem hc)
  have hmx : mx = c := le_antisymm (hmax mx hmem) (hmax' c hc)
  subst hmx
  obtain ⟨mu, emu, hmu, hmu'⟩ := minCoeff_ok (List.length_pos_of_mem hu)
  have hmueq : mu = u := le_antisymm (hmu' u hu) (hmin mu hmu)
  subst hmueq
  have hmlt : mx < s.alg.clus.length := by
    obtain ⟨i, hi⟩ := List.mem_iff_getElem?.mp hmem
    have hin : i < n := by rw [← ha.cons.len]; exact (List.getElem?_eq_some_iff.mp hi).1
    obtain ⟨c, h1, h2⟩ := ha.cons.on.labelled i (by simpa using hin)
    rw [hi] at h1; rw [Option.some.inj h1]; exact h2
  have hnum := ha.num
  obtain ⟨lw, elw, _⟩ := logweights_ok (mix.sticks.take (mx + 1))
  have eset : sbSetSticks (mix.sticks.take (mx + 1)) =
      .ok ⟨mix.sticks.take (mx + 1), lw, (mix.sticks.take (mx + 1)).length⟩ := by
    simp only [sbSetSticks, elw, ok_bind]
  have hsum : (sbWeights ⟨mix.sticks.take (mx + 1), lw, (mix.sticks.take (mx + 1)).length⟩).sum
      ≤ 1.0 - mu := by
    rw [(sbSet_inv eset).1.weights (fun v hv => hd v (List.mem_of_mem_take hv)), stickWeights_sum]
    norm_num
    linarith
  obtain ⟨f, rfl⟩ : ∃ f, fuel = f + 1 := ⟨fuel - 1, by omega⟩
  unfold sampleWeights
  simp only [h, ok_bind, emx]
  rw [if_pos (by omega)]
  simp only [eset, ok_bind, emu, breakLoop, if_pos hsum, keepBreaking_betas, error_bind]

/-- **C69 fails for the slice sampler**: an iteration leaves the hyperparameters alone, whatever
the hyperprior. -/
theorem c69_slice_violated (E : Env G H Θ) (prior : SBPrior) (inf : Bool) (n : ℕ) (hn : 0 < n)
    (fuel : ℕ) (s s' : State G H Θ) (hs : StateOk E.contrib prior n s) (z : Noise)
    (h : step E prior inf n fuel s z = .ok s') (hE : ∀ hy l r, E.hyperUpdate hy l r ≠ hy) :
    ∀ l r, s'.alg.hyp ≠ E.hyperUpdate s.alg.hyp l r := by
  have hb := step_benign (inf := inf) hn fuel z (stateOk_iff.mp hs)
  rw [h] at hb
  intro l r
  rw [hb.2.1]
  exact (hE _ _ _).symm

/-! ### A concrete run -/

/-- One row, a Dirichlet process with mass 1, one component. -/
def exEnv : Env ℤ ℕ ℕ where
  kind := .conjugate
  contrib _ := 1
  post h n ss := h + n.toNat + ss.toNat
  sample h r := h + r
  otherDraw t _ _ _ _ _ := t
  hyperUpdate h _ _ := h + 1

/-- One datum in one component, with a stick of one half. -/
noncomputable def exState : State ℤ ℕ ℕ :=
  ⟨⟨[0], [⟨7, 1, {0}, 1, false, none⟩], 3⟩, ⟨[1 / 2], [stdLog (1 / 2) + 0], 1⟩, [9 / 20]⟩

/-- Draws: the stick becomes 3/5, the new slice level 1/10. -/
noncomputable def exNoise : Noise where
  uv _ := 0
  upd _ _ _ := 3 / 5
  brk _ _ _ := 1 / 2
  fresh _ := 0
  unif _ w := w / 6
  cat _ := 0

theorem exState_ok : StateOk exEnv.contrib (.dp 1) 1 exState := by
  have hm : membersIn (Finset.range 1) [0] 0 = {0} := by decide
  have hcl : ∀ (k : ℕ) o, exState.alg.clus[k]? = some o → k = 0 ∧ o = ⟨7, 1, {0}, 1, false, none⟩ := by
    intro k o ho
    match k with
    | 0 => exact ⟨rfl, (Option.some.inj ho).symm⟩
    | k + 1 => simp [exState] at ho
  refine ⟨⟨rfl, ⟨?_, ?_, ?_, ?_⟩⟩, ?_, rfl, rfl, ?_, ?_, rfl, ?_⟩
  · intro i hi
    have : i = 0 := by simpa using hi
    subst this
    exact ⟨0, rfl, by simp [exState]⟩
  · intro k o ho
    obtain ⟨rfl, rfl⟩ := hcl k o ho
    exact hm.symm
  · intro k o ho
    obtain ⟨rfl, rfl⟩ := hcl k o ho
    simp only [exState, hm]; rfl
  · intro k o ho
    obtain ⟨rfl, rfl⟩ := hcl k o ho
    simp only [exState, hm]; rfl
  · intro o ho
    simp only [exState, List.mem_singleton] at ho
    subst ho; intro h; cases h
  · simp [exState, logweightsFromSticks, cumsum]
  · intro l hl; cases hl
  · intro x hx
    simp only [exState, List.mem_singleton] at hx
    subst hx; norm_num

theorem sbUpdate_example : ∃ m, sbUpdate exState.mix (.dp 1) true
    (exState.alg.clus.map fun o => o.card.toNat) exNoise.upd = .ok m ∧ m.sticks = [3 / 5] := by
  refine ⟨⟨[3 / 5], [stdLog (3 / 5) + 0], 1⟩, ?_, rfl⟩
  have h : (0 : ℝ) < 1.0 + 1 := by norm_num
  simp [sbUpdate, exState, exNoise, priorShapes, betaParams, drawStick, betaRng, storeSticks,
    logweightsFromSticks, cumsum, List.range_succ, vget, h]

/-- **C08, the hypotheses of `c08_step_succeeds` hold in a real run.** -/
theorem exStep : ∃ F, ∀ fuel ≥ F, ∃ s', step exEnv (.dp 1) true 1 fuel exState exNoise = .ok s' ∧
    StateOk exEnv.contrib (.dp 1) 1 s' := by
  refine c08_step_succeeds exEnv (.dp 1) true 1 one_pos (.inl ⟨1, one_pos, rfl⟩) exState exState_ok
    exNoise (1 / 2) (by norm_num) ?_ ?_ ?_ ?_
  · intro j a b _ _; constructor <;> norm_num [exNoise]
  · intro j a b _ _; constructor <;> norm_num [exNoise]
  · intro i w hw; exact ⟨by simp only [exNoise]; positivity, by simp only [exNoise]; linarith⟩
  · intro m hm c hc
    obtain ⟨m', e, hs⟩ := sbUpdate_example
    rw [hm] at e
    rw [Except.ok.inj e, hs]
    have : c = 0 := by simpa [exState] using hc
    subst this
    simp [stickWeights]
    norm_num

/-- The mixing after the iteration. -/
noncomputable def exMix : SBState := ⟨[3 / 5], [stdLog (3 / 5) + 0], 1⟩

theorem exWeights : sbWeights exMix = [3 / 5] := by
  have hi : SBInv exMix :=
    ⟨rfl, by simp [exMix, logweightsFromSticks, cumsum]⟩
  rw [hi.weights (by
    intro v hv; simp only [exMix, List.mem_singleton] at hv; subst hv; norm_num)]
  rfl

/-- The state after the iteration. -/
theorem exStep_eq (fuel : ℕ) : step exEnv (.dp 1) true 1 fuel exState exNoise =
    .ok ⟨⟨[0], [⟨5, 1, {0}, 1, false, some 5⟩], 3⟩, exMix,
      [1 / 10]⟩ := by
  obtain ⟨m, em, hm⟩ := sbUpdate_example
  have e1 : sampleUniqueValues exEnv false exNoise.uv exState.alg =
      .ok ⟨[0], [⟨5, 1, {0}, 1, false, some 5⟩], 3⟩ := by
    simp [sampleUniqueValues, drawAll, exState, Hier.sampleFullCond, exEnv, Hier.getPosterior,
      exNoise]
  have hset : sbSetSticks [3 / 5] = .ok exMix := by
    simp [exMix, sbSetSticks, logweightsFromSticks, cumsum]
  have hbl : breakLoop (.dp 1) exNoise.brk (9 / 20) fuel 0
      exMix (sbWeights exMix).sum =
      .ok exMix := by
    rw [exWeights]
    cases fuel with
    | zero => rw [breakLoop, if_neg (by norm_num)]
    | succ f => rw [breakLoop, if_neg (by norm_num)]
  have e2 : sampleWeights exEnv (.dp 1) true fuel exNoise
      { exState with alg := ⟨[0], [⟨5, 1, {0}, 1, false, some 5⟩], 3⟩ } =
      .ok ⟨⟨[0], [⟨5, 1, {0}, 1, false, some 5⟩], 3⟩, exMix,
        [9 / 20]⟩ := by
    have em' : sbUpdate exState.mix (.dp 1) true [1] exNoise.upd = .ok m := em
    have hmn : minCoeff exState.u = .ok (9 / 20) := rfl
    unfold sampleWeights
    simp only [List.map_cons, List.map_nil, Int.toNat_one, em', ok_bind, maxElement,
      List.foldl_nil, hm, List.length_cons, List.length_nil, Nat.zero_add, le_refl, if_true,
      List.take_succ_cons, List.take_zero, hset, hmn, hbl]
    rfl
  have e3 : sampleSlice 1 exNoise.unif (⟨⟨[0], [⟨5, 1, {0}, 1, false, some 5⟩], 3⟩,
      exMix, [9 / 20]⟩ : State ℤ ℕ ℕ) =
      .ok ⟨⟨[0], [⟨5, 1, {0}, 1, false, some 5⟩], 3⟩, exMix,
        [1 / 10]⟩ := by
    have h1 : (0 : ℝ) < 3 / 5 := by norm_num
    have h2 : max (1e-16 : ℝ) (3 / 5 / 6) = 1 / 10 := by
      rw [max_eq_right] <;> norm_num
    simp only [sampleSlice, exWeights, List.range_succ, List.range_zero, List.nil_append,
      List.mapM_cons, List.mapM_nil, sliceDatum, vget, eigenAt, List.getElem?_cons_zero, ok_bind,
      uniformRng, if_pos h1, exNoise, h2]
    rfl
  have h3 : eligible 1 [3 / 5] (1 / 10) = [0] := by
    have : (10 : ℝ)⁻¹ < 3 / 5 := by norm_num
    simp [eligible, List.range_succ, this]
  rw [step, e1, ok_bind, e2, ok_bind, e3, ok_bind]
  have h4 : exMix.num = 1 := rfl
  simp only [sliceAllocations, List.range_succ, List.range_zero, List.nil_append,
    List.foldlM_cons, List.foldlM_nil, sliceAllocDatum, exWeights, eigenAt, ok_bind, h4,
    List.getElem?_cons_zero, h3, List.length_cons, List.length_nil, le_refl, Nat.zero_add, if_true]
  simp [vget, categorical, Nat.mod_one, moveTo]

/-- **C08 fails: the truncation can miss a component.** `sample_weights` breaks sticks until no
further component can exceed the slice levels of the previous iteration; then the levels are
drawn anew. From the good state `exState` (that of a run just initialised, draw 9/20) the stick
becomes 3/5, no stick is added because 1 - 3/5 < 9/20, the new level is 1/10, and a second
component of weight up to 2/5 is never considered. -/
theorem c08_truncation_violated : ∃ (E : Env ℤ ℕ ℕ) (s s' : State ℤ ℕ ℕ) (z : Noise),
    StateOk E.contrib (.dp 1) 1 s ∧
    (∀ j a b, 0 < a → 0 < b → 0 < z.upd j a b ∧ z.upd j a b < 1) ∧
    (∀ j a b, 0 < a → 0 < b → 0 < z.brk j a b ∧ z.brk j a b < 1) ∧
    (∀ i w, 0 < w → 0 < z.unif i w ∧ z.unif i w < w) ∧
    (∀ fuel, step E (.dp 1) true 1 fuel s z = .ok s') ∧
    ∃ more : List ℝ, (∀ v ∈ more, 0 < v ∧ v < 1) ∧ ∃ k w, s'.alg.clus.length ≤ k ∧
      (stickWeights (s'.mix.sticks ++ more))[k]? = some w ∧ ∃ u ∈ s'.u, u < w := by
  refine ⟨exEnv, exState, _, exNoise, exState_ok, ?_, ?_, ?_, exStep_eq, [9 / 10], ?_, 1, 9 / 25, ?_, ?_,
    1 / 10, by simp, by norm_num⟩
  · intro j a b _ _; constructor <;> norm_num [exNoise]
  · intro j a b _ _; constructor <;> norm_num [exNoise]
  · intro i w hw; exact ⟨by simp only [exNoise]; positivity, by simp only [exNoise]; linarith⟩
  · intro v hv; simp only [List.mem_singleton] at hv; subst hv; norm_num
  · simp
  · simp [exMix, stickWeights]; norm_num

/-! ### Examples: the hypotheses of the theorems above can be met -/

/-- `c08_step`, `c08_run`, `c08_labels_above_slice`, `c69_slice_violated`: an iteration from a good
state that returns, here with a hyperprior that always moves. -/
example : StateOk exEnv.contrib (.dp 1) 1 exState ∧
    (∃ s', step exEnv (.dp 1) true 1 5 exState exNoise = .ok s') ∧
    (∃ s', [exNoise].foldlM (step exEnv (.dp 1) true 1 5) exState = .ok s') ∧
    ∀ hy l r, exEnv.hyperUpdate hy l r ≠ hy :=
  ⟨exState_ok, ⟨_, exStep_eq 5⟩, ⟨_, by rw [List.foldlM_cons, exStep_eq 5]; rfl⟩, by simp [exEnv]⟩

/-- `c08_truncation_partial`: an update of the weights that returns. -/
example : ∃ F, ∀ fuel ≥ F, ∃ s', sampleWeights exEnv (.dp 1) true fuel exNoise exState = .ok s' :=
  sampleWeights_runs one_pos (.inl ⟨1, one_pos, rfl⟩) exNoise (ε := 1 / 2) (by norm_num)
    (by intro j a b _ _; constructor <;> norm_num [exNoise])
    (by intro j a b _ _; constructor <;> norm_num [exNoise]) (stateOk_iff.mp exState_ok)

/-- `c08_init`: three rows, two components. -/
example : ∃ mix, sbInit (.py (1 / 2) (1 / 4)) 2 = .ok mix := by
  have h1 : ¬ ((1 : ℝ) / 2 ≤ -(1 / 4)) := by norm_num
  have h2 : ¬ ((1 : ℝ) / 4 < 0 ∨ (1 : ℝ) / 4 ≥ 1) := by norm_num
  simp only [sbInit, sbCheck, if_neg h1, if_neg h2, ok_bind, priorShapes, betaParams]
  exact ⟨_, rfl⟩

/-- `c08_beta_priors_violated`: one row, a uniform prior for each of two sticks, stick 3/5, slice
level 3/10. -/
example : ∃ mix, sbUpdate exState.mix (.betas [(1, 1), (1, 1)]) true
      (exState.alg.clus.map fun o => o.card.toNat) exNoise.upd = .ok mix ∧
    StateOk exEnv.contrib (.betas [(1, 1), (1, 1)]) 1 { exState with u := [3 / 10] } ∧
    (∀ v ∈ mix.sticks, 0 ≤ v ∧ v ≤ 1) ∧ (0 : ℕ) ∈ exState.alg.alloc ∧
    (3 / 10 : ℝ) ≤ leftover (mix.sticks.take 1) := by
  refine ⟨exMix, ?_, ?_, ?_, by simp [exState], ?_⟩
  · simp [sbUpdate, exState, exNoise, priorShapes, betaParams, drawStick, betaRng, storeSticks,
      logweightsFromSticks, cumsum, List.range_succ, vget, exMix]
  · obtain ⟨h1, h2, h3, h4, h5, -, h7, -⟩ := exState_ok
    refine ⟨h1, h2, h3, h4, h5, ?_, rfl, ?_⟩
    · intro l hl; cases hl; simp [exState]
    · intro x hx; simp only [List.mem_singleton] at hx; subst hx; norm_num
  · intro v hv; simp only [exMix, List.mem_singleton] at hv; subst hv; norm_num
  · simp [exMix, leftover]; norm_num

end Bayesmix.Slice
