import Verif.Algo.CondLemmas
import Verif.Algo.GibbsCore
import Verif.Algo.PropsDensity
import Mathlib.Data.List.Nodup

/-! # The law of one row in the conditional samplers -/

namespace Bayesmix.Cond
open Bayesmix Mixing Slice Gibbs

variable {G H Θ S : Type}

open Classical in
theorem drawThen_ok {p : List ℝ} {next : ℕ → Except Fault S} {t : ℕ → S}
    (h : ∀ k < p.length, next k = .ok (t k)) :
    ∃ l, drawThen p next = .ok l ∧ (∀ x ∈ l, ∃ k < p.length, x.2 = t k) ∧
      ∀ P : S → Prop, l.prob P = ∑ k ∈ Finset.range p.length, if P (t k) then p.getD k 0 else 0 := by
  refine ⟨(List.range p.length).map fun k => (p.getD k 0, t k), ?_, ?_, ?_⟩
  · refine Gibbs.mapM_ok _ _ _ fun k hk => ?_
    have hk' := List.mem_range.mp hk
    rw [eigenAt, List.getElem?_eq_getElem hk', ok_bind, h k hk', ok_bind,
      List.getD_eq_getElem?_getD, List.getElem?_eq_getElem hk']
    rfl
  · intro x hx
    obtain ⟨k, hk, rfl⟩ := List.mem_map.mp hx
    exact ⟨k, List.mem_range.mp hk, rfl⟩
  · intro P
    rw [Law.prob, List.map_map, Finset.sum_range, ← List.sum_ofFn]
    congr 1
    refine List.ext_getElem (by simp) fun k h1 h2 => ?_
    simp only [List.getElem_map, List.getElem_ofFn, List.getElem_range, Function.comp]

theorem stdExp_add {w : EReal} (hw : w ≠ ⊤) (x : ℝ) :
    stdExp (w + (x : ℝ)) = stdExp w * Real.exp x := by
  induction w with
  | bot => simp [stdExp]
  | top => exact absurd rfl hw
  | coe w =>
    rw [← EReal.coe_add]
    rw [stdExp, if_neg (EReal.coe_ne_bot _), stdExp, if_neg (EReal.coe_ne_bot _), EReal.toReal_coe,
      EReal.toReal_coe, Real.exp_add]

theorem stdExp_nonneg (w : EReal) : 0 ≤ stdExp w := by
  unfold stdExp
  split
  · exact le_rfl
  · exact (Real.exp_pos _).le

theorem stdExp_pos {w : EReal} (hw : w ≠ ⊥) : 0 < stdExp w := by
  rw [stdExp, if_neg hw]
  exact Real.exp_pos _

section
variable [AddCommGroup G]

theorem addDatum_state {E : Env G H Θ} {h : H} {i : ℕ} {o o' : Hier G H Θ}
    (e : o.addDatum E h false i = .ok o') : o'.state = o.state := by
  unfold Hier.addDatum at e
  split at e
  · cases e
  · simp only [Bool.false_eq_true, if_false] at e
    rw [← Except.ok.inj e]

theorem removeDatum_state {E : Env G H Θ} {h : H} {i : ℕ} {o o' : Hier G H Θ}
    (e : o.removeDatum E h false i = .ok o') : o'.state = o.state := by
  unfold Hier.removeDatum at e
  split at e
  · cases e
  · simp only [Bool.false_eq_true, if_false] at e
    rw [← Except.ok.inj e]

omit [AddCommGroup G] in
theorem map_set_state {cl : List (Hier G H Θ)} {k : ℕ} {o o' : Hier G H Θ} (ho : cl[k]? = some o)
    (h : o'.state = o.state) : (cl.set k o').map Hier.state = cl.map Hier.state := by
  rw [List.map_set, h]
  refine List.ext_getElem? fun j => ?_
  by_cases hj : k = j
  · subst hj
    have : k < cl.length := (List.getElem?_eq_some_iff.mp ho).1
    rw [List.getElem?_set_self (by simpa using this), List.getElem?_map, ho]
    rfl
  · rw [List.getElem?_set_ne hj]

theorem vget_some {α : Type} {v : List α} {i : ℕ} {a : α} (h : vget v i = .ok a) :
    v[i]? = some a := by
  unfold vget at h
  split at h
  · rename_i x hx
    rw [hx, Except.ok.inj h]
  · cases h

/-- Moving a row leaves the values of all components as they are. -/
theorem blockedDatum_states {E : Env G H Θ} {K : ℕ} {s s' : Alg G H Θ} {i rc : ℕ}
    (e : blockedDatum E K s i rc = .ok s') :
    s'.clus.map Hier.state = s.clus.map Hier.state := by
  unfold blockedDatum at e
  split at e
  · cases e
  cases h1 : categorical K rc with
  | error x => rw [h1] at e; cases e
  | ok cNew =>
    rw [h1, ok_bind] at e
    cases h2 : vget s.alloc i with
    | error x => rw [h2] at e; cases e
    | ok cOld =>
      rw [h2, ok_bind] at e
      split at e
      · cases h3 : vset s.alloc i cNew with
        | error x => rw [h3] at e; cases e
        | ok al =>
          rw [h3, ok_bind] at e
          cases h4 : vget s.clus cOld with
          | error x => rw [h4] at e; cases e
          | ok o =>
            rw [h4, ok_bind] at e
            cases h5 : o.removeDatum E s.hyp false i with
            | error x => rw [h5] at e; cases e
            | ok o' =>
              rw [h5, ok_bind] at e
              cases h6 : vget (s.clus.set cOld o') cNew with
              | error x => simp only [h6] at e; cases e
              | ok p =>
                simp only [h6, ok_bind] at e
                cases h7 : p.addDatum E s.hyp false i with
                | error x => rw [h7] at e; cases e
                | ok p' =>
                  rw [h7, ok_bind] at e
                  rw [← Except.ok.inj e]
                  show ((s.clus.set cOld o').set cNew p').map Hier.state = _
                  rw [map_set_state (vget_some h6) (addDatum_state h7),
                    map_set_state (vget_some h4) (removeDatum_state h5)]
      · rw [← Except.ok.inj e]

/-- A state of a conditional sampler: consistent labels, components with values `θ`. -/
structure Good (E : Env G H Θ) (n : ℕ) (θ : List Θ) (s : Alg G H Θ) : Prop where
  cons : Consistent E.contrib n s
  caches : CachesOk s
  vals : s.clus.map Hier.state = θ

theorem Good.len {E : Env G H Θ} {n : ℕ} {θ : List Θ} {s : Alg G H Θ} (h : Good E n θ s) :
    s.clus.length = θ.length := by rw [← h.vals, List.length_map]

theorem Good.val {E : Env G H Θ} {n : ℕ} {θ : List Θ} {s : Alg G H Θ} (h : Good E n θ s) {j : ℕ}
    (hj : j < θ.length) : ∃ o, s.clus[j]? = some o ∧ o.state = θ[j] := by
  have hj' : j < s.clus.length := by rw [h.len]; exact hj
  refine ⟨_, List.getElem?_eq_getElem hj', ?_⟩
  have := h.vals
  subst this
  simp

theorem set_inj {l : List ℕ} {i a b : ℕ} (hi : i < l.length) (h : l.set i a = l.set i b) :
    a = b := by
  have := congrArg (fun l => l[i]?) h
  simp only [List.getElem?_set_self hi] at this
  exact Option.some.inj this

theorem blocked_move {E : Env G H Θ} {n : ℕ} {θ : List Θ} {s : Alg G H Θ} (hs : Good E n θ s)
    {i k : ℕ} (hi : i < n) (hk : k < θ.length) :
    ∃ s', blockedDatum E θ.length s i k = .ok s' ∧ Good E n θ s' ∧
      s'.alloc = s.alloc.set i k := by
  obtain ⟨s', e, h1, h2, -, -, h5⟩ := blockedDatum_ok (E := E) k hs.len hs.cons hs.caches hi
  exact ⟨s', e, ⟨h1, h2, by rw [blockedDatum_states e, hs.vals]⟩,
    by rw [h5, Nat.mod_eq_of_lt hk]⟩

/-- The weights of the components for row `i`. -/
noncomputable def rowWeight (like : Θ → ℕ → ℝ) (θ : List Θ) (w : List ℝ) (i k : ℕ) : ℝ :=
  if h : k < θ.length then w.getD k 0 * Real.exp (like θ[k] i) else 0

theorem blockedProbas_ok {E : Env G H Θ} {like : Θ → ℕ → ℝ} {lw : List EReal} {n : ℕ} {θ : List Θ}
    (hl : lw.length = θ.length) (htop : ∀ x ∈ lw, x ≠ ⊤) (hbot : ∃ x ∈ lw, x ≠ ⊥)
    {s : Alg G H Θ} (hs : Good E n θ s) (i : ℕ) :
    ∃ p, blockedProbas like lw θ.length s i = .ok p ∧ p.length = θ.length ∧
      ∀ k < θ.length, p.getD k 0 = rowWeight like θ (lw.map stdExp) i k /
        ∑ j ∈ Finset.range θ.length, rowWeight like θ (lw.map stdExp) i j := by
  obtain ⟨l, hld⟩ : ∃ l : List EReal, l = (List.range θ.length).map fun j =>
      if h : j < θ.length then lw.getD j ⊥ + (like θ[j] i : ℝ) else ⊥ := ⟨_, rfl⟩
  have hm : ((List.range θ.length).mapM fun j => do
      let w ← logAt lw j
      let o ← vget s.clus j
      Except.ok (w + (like o.state i : ℝ)) : Except Fault (List EReal)) = .ok l := by
    rw [hld]
    refine Gibbs.mapM_ok _ _ _ fun j hj => ?_
    have hj' := List.mem_range.mp hj
    obtain ⟨o, ho, hst⟩ := hs.val hj'
    have hjl : j < lw.length := by omega
    simp only [logAt, List.getElem?_eq_getElem hjl, ok_bind, vget_ok ho, hst, hj', dif_pos,
      List.getD_eq_getElem?_getD, Option.getD_some]
  have hlen : l.length = θ.length := by rw [hld]; simp
  have hexp : ∀ k, ∀ hk : k < l.length, stdExp l[k] = rowWeight like θ (lw.map stdExp) i k := by
    intro k hk
    have hk' : k < θ.length := by omega
    have hkl : k < lw.length := by omega
    subst hld
    rw [rowWeight, dif_pos hk']
    simp only [List.getElem_map, List.getElem_range, dif_pos hk', List.getD_eq_getElem?_getD,
      List.getElem?_eq_getElem hkl, Option.getD_some, List.getElem?_map, Option.map_some]
    exact stdExp_add (htop _ (List.getElem_mem _)) _
  have hsum : (l.map stdExp).sum = ∑ j ∈ Finset.range θ.length,
      rowWeight like θ (lw.map stdExp) i j := by
    rw [Finset.sum_range, ← List.sum_ofFn]
    congr 1
    refine List.ext_getElem (by simp [hlen]) fun k h1 h2 => ?_
    simp only [List.getElem_map, List.getElem_ofFn]
    exact hexp k (by simpa using h1)
  have hpos : (l.map stdExp).sum ≠ 0 := by
    obtain ⟨x, hx, hne⟩ := hbot
    obtain ⟨k, hk, rfl⟩ := List.mem_iff_getElem.mp hx
    have hk' : k < θ.length := by omega
    have hnn : ∀ y ∈ l.map stdExp, 0 ≤ y := by
      intro y hy
      obtain ⟨z, -, rfl⟩ := List.mem_map.mp hy
      exact stdExp_nonneg z
    refine (lt_of_lt_of_le ?_ (List.single_le_sum hnn (stdExp (l[k]'(by omega)))
      (List.mem_map_of_mem (List.getElem_mem _)))).ne'
    · rw [hexp k (by omega), rowWeight, dif_pos hk']
      refine mul_pos ?_ (Real.exp_pos _)
      simp only [List.getD_eq_getElem?_getD, List.getElem?_map, List.getElem?_eq_getElem hk,
        Option.map_some, Option.getD_some]
      exact stdExp_pos hne
  refine ⟨l.map fun x => stdExp x / (l.map stdExp).sum, ?_, by simp [hlen], ?_⟩
  · unfold blockedProbas
    rw [hm, ok_bind, ← hl, List.drop_length, List.append_nil, softmaxLog, if_neg hpos]
  · intro k hk
    have hkl : k < l.length := by omega
    rw [← hsum, List.getD_eq_getElem?_getD, List.getElem?_map, List.getElem?_eq_getElem hkl,
      Option.map_some, Option.getD_some, hexp k hkl]

theorem blockedRow_ok {E : Env G H Θ} {like : Θ → ℕ → ℝ} {lw : ℕ → List EReal} {n : ℕ} {θ : List Θ}
    {i : ℕ} (hi : i < n) (hl : (lw i).length = θ.length) (htop : ∀ x ∈ lw i, x ≠ ⊤)
    (hbot : ∃ x ∈ lw i, x ≠ ⊥) {s : Alg G H Θ} (hs : Good E n θ s) :
    ∃ l, blockedRow E like lw θ.length i s = .ok l ∧
      (∀ x ∈ l, Good E n θ x.2 ∧ ∃ k, x.2.alloc = s.alloc.set i k) ∧
      ∀ k, l.prob (fun t => t.alloc = s.alloc.set i k) =
        rowWeight like θ ((lw i).map stdExp) i k /
          ∑ j ∈ Finset.range θ.length, rowWeight like θ ((lw i).map stdExp) i j := by
  obtain ⟨p, ep, hp, hpk⟩ := blockedProbas_ok (like := like) hl htop hbot hs i
  have : Nonempty (Alg G H Θ) := ⟨s⟩
  choose! t ht1 ht2 ht3 using fun k (hk : k < p.length) => blocked_move hs hi (hp ▸ hk)
  obtain ⟨l, el, h1, h2⟩ := drawThen_ok ht1
  have hil : i < s.alloc.length := by rw [hs.cons.len]; exact hi
  refine ⟨l, by unfold blockedRow; rw [ep, ok_bind]; exact el, ?_, ?_⟩
  · intro x hx
    obtain ⟨k, hk, e⟩ := h1 x hx
    rw [e]
    exact ⟨ht2 k hk, k, ht3 k hk⟩
  · intro k
    rw [h2]
    by_cases hk : k < θ.length
    · rw [Finset.sum_eq_single k]
      · rw [if_pos (ht3 k (by omega)), hpk k hk]
      · intro j hj hjk
        have hj' := Finset.mem_range.mp hj
        rw [if_neg]
        intro h
        rw [ht3 j hj'] at h
        exact hjk (set_inj hil h)
      · intro h
        exact absurd (Finset.mem_range.mpr (by omega)) h
    · rw [rowWeight, dif_neg hk, zero_div]
      refine Finset.sum_eq_zero fun j hj => if_neg fun h => ?_
      have hj' := Finset.mem_range.mp hj
      rw [ht3 j hj'] at h
      have := set_inj hil h
      omega

/-! ### The slice sampler -/

/-- The weights of the components for row `i` at level `u`. -/
noncomputable def sliceWeight (like : Θ → ℕ → ℝ) (θ : List Θ) (w : List ℝ) (i : ℕ) (u : ℝ) (k : ℕ) :
    ℝ :=
  if h : k < θ.length then if u < w.getD k 0 then Real.exp (like θ[k] i) else 0 else 0

theorem sliceProbas_ok {E : Env G H Θ} {like : Θ → ℕ → ℝ} {mix : SBState} (hm : SBInv mix)
    {u : List ℝ} {n : ℕ} {θ : List Θ} (hnum : mix.num = θ.length) {i : ℕ} (hi : i < u.length)
    (hex : ∃ j < θ.length, u.getD i 0 < (sbWeights mix).getD j 0) {s : Alg G H Θ}
    (hs : Good E n θ s) :
    ∃ p, sliceProbas like mix u s i = .ok p ∧
      p.length = (eligible θ.length (sbWeights mix) (u.getD i 0)).length ∧
      ∀ (k : ℕ) c, (eligible θ.length (sbWeights mix) (u.getD i 0))[k]? = some c →
        p.getD k 0 = sliceWeight like θ (sbWeights mix) i (u.getD i 0) c /
          ∑ j ∈ Finset.range θ.length, sliceWeight like θ (sbWeights mix) i (u.getD i 0) j := by
  obtain ⟨el, hel⟩ : ∃ el, el = eligible θ.length (sbWeights mix) (u.getD i 0) := ⟨_, rfl⟩
  have hmem : ∀ c, c ∈ el ↔ c < θ.length ∧ u.getD i 0 < (sbWeights mix).getD c 0 := by
    intro c; rw [hel]; exact mem_eligible
  have hval : ∀ c ∈ el, sliceWeight like θ (sbWeights mix) i (u.getD i 0) c =
      Real.exp (if h : c < θ.length then like θ[c] i else 0) := by
    intro c hc
    obtain ⟨h1, h2⟩ := (hmem c).mp hc
    rw [sliceWeight, dif_pos h1, if_pos h2, dif_pos h1]
  have hm2 : (el.mapM fun j => do
      let o ← vget s.clus j
      Except.ok (like o.state i) : Except Fault (List ℝ)) =
      .ok (el.map fun c => if h : c < θ.length then like θ[c] i else 0) := by
    refine Gibbs.mapM_ok _ _ _ fun j hj => ?_
    have hj' := ((hmem j).mp hj).1
    obtain ⟨o, ho, hst⟩ := hs.val hj'
    simp only [vget_ok ho, ok_bind, hst, dif_pos hj']
  have hne : el.length ≠ 0 := by
    obtain ⟨j, h1, h2⟩ := hex
    intro h0
    have := (hmem j).mpr ⟨h1, h2⟩
    rw [List.length_eq_zero_iff.mp h0] at this
    cases this
  have hsum : ((el.map fun c => if h : c < θ.length then like θ[c] i else 0).map Real.exp).sum =
      ∑ j ∈ Finset.range θ.length, sliceWeight like θ (sbWeights mix) i (u.getD i 0) j := by
    have hnd : el.Nodup := by rw [hel]; exact List.nodup_range.filter _
    rw [List.map_map]
    have e1 : el.map (Real.exp ∘ fun c => if h : c < θ.length then like θ[c] i else 0) =
        el.map (sliceWeight like θ (sbWeights mix) i (u.getD i 0)) :=
      List.map_congr_left fun c hc => (hval c hc).symm
    rw [e1, ← List.sum_toFinset _ hnd]
    refine Finset.sum_subset ?_ ?_
    · intro c hc
      exact Finset.mem_range.mpr ((hmem c).mp (List.mem_toFinset.mp hc)).1
    · intro c hc hcn
      have h1 := Finset.mem_range.mp hc
      rw [sliceWeight, dif_pos h1, if_neg]
      exact fun h2 => hcn (List.mem_toFinset.mpr ((hmem c).mpr ⟨h1, h2⟩))
  have hui : u[i] = u.getD i 0 := by
    rw [List.getD_eq_getElem?_getD, List.getElem?_eq_getElem hi]; rfl
  refine ⟨softmax (el.map fun c => if h : c < θ.length then like θ[c] i else 0), ?_, ?_, ?_⟩
  · unfold sliceProbas
    simp only [eigenAt, List.getElem?_eq_getElem hi, ok_bind]
    rw [if_pos (sbWeights_length hm).ge, hnum, hui, ← hel, hm2, ok_bind, if_neg (by simpa using hne)]
  · rw [softmax_length, List.length_map, hel]
  · intro k c hc
    rw [← hel] at hc
    have hcm := List.mem_of_getElem? hc
    simp only [softmax]
    rw [hsum, List.getD_eq_getElem?_getD, List.getElem?_map, List.getElem?_map, hc, hval c hcm]
    rfl

theorem slice_move {E : Env G H Θ} {mix : SBState} (hm : SBInv mix) {u : List ℝ} {n : ℕ}
    {θ : List Θ} (hnum : mix.num = θ.length) {i : ℕ} (hin : i < n) (hi : i < u.length)
    {s : Alg G H Θ} (hs : Good E n θ s) {k c : ℕ}
    (hc : (eligible θ.length (sbWeights mix) (u.getD i 0))[k]? = some c) :
    ∃ s', sliceAllocDatum E mix u s i k = .ok s' ∧ Good E n θ s' ∧ s'.alloc = s.alloc.set i c := by
  obtain ⟨el, hel⟩ : ∃ el, el = eligible θ.length (sbWeights mix) (u.getD i 0) := ⟨_, rfl⟩
  rw [← hel] at hc
  have hk : k < el.length := (List.getElem?_eq_some_iff.mp hc).1
  have hcl : c < θ.length := by
    have := List.mem_of_getElem? hc
    rw [hel] at this
    exact (mem_eligible.mp this).1
  have hui : u[i] = u.getD i 0 := by
    rw [List.getD_eq_getElem?_getD, List.getElem?_eq_getElem hi]; rfl
  obtain ⟨r, hr⟩ := mapM_all_ok (f := fun j => vget s.clus j) (l := el) (fun j hj => by
    rw [hel] at hj
    obtain ⟨o, ho, -⟩ := hs.val (mem_eligible.mp hj).1
    exact ⟨_, vget_ok ho⟩)
  obtain ⟨s', e, h1, h2⟩ := blocked_move hs hin hcl
  refine ⟨s', ?_, h1, h2⟩
  unfold sliceAllocDatum
  simp only [eigenAt, List.getElem?_eq_getElem hi, ok_bind]
  rw [if_pos (sbWeights_length hm).ge, hnum, hui, ← hel, hr, ok_bind,
    categorical_ok k (by omega), ok_bind, Nat.mod_eq_of_lt hk, vget_ok hc, ok_bind,
    moveTo_eq_blocked (by rw [hs.len]; exact hcl), hs.len, e]

theorem sliceRow_ok {E : Env G H Θ} {like : Θ → ℕ → ℝ} {mix : SBState} (hm : SBInv mix)
    {u : List ℝ} {n : ℕ} {θ : List Θ} (hnum : mix.num = θ.length) {i : ℕ} (hin : i < n)
    (hi : i < u.length) (hex : ∃ j < θ.length, u.getD i 0 < (sbWeights mix).getD j 0)
    {s : Alg G H Θ} (hs : Good E n θ s) :
    ∃ l, sliceRow E like mix u i s = .ok l ∧
      (∀ x ∈ l, Good E n θ x.2 ∧ ∃ k, x.2.alloc = s.alloc.set i k) ∧
      ∀ k, l.prob (fun t => t.alloc = s.alloc.set i k) =
        sliceWeight like θ (sbWeights mix) i (u.getD i 0) k /
          ∑ j ∈ Finset.range θ.length, sliceWeight like θ (sbWeights mix) i (u.getD i 0) j := by
  obtain ⟨p, ep, hp, hpk⟩ := sliceProbas_ok (like := like) hm hnum hi hex hs
  obtain ⟨el, hel⟩ : ∃ el, el = eligible θ.length (sbWeights mix) (u.getD i 0) := ⟨_, rfl⟩
  rw [← hel] at hp
  have hnd : el.Nodup := by rw [hel]; exact List.nodup_range.filter _
  have hget : ∀ k < p.length, el[k]? = some (el.getD k 0) := by
    intro k hk
    rw [List.getD_eq_getElem?_getD, List.getElem?_eq_getElem (by omega)]; rfl
  have : Nonempty (Alg G H Θ) := ⟨s⟩
  choose! t ht1 ht2 ht3 using fun k (hk : k < p.length) =>
    slice_move hm hnum hin hi hs (by rw [← hel]; exact hget k hk)
  obtain ⟨l, e, h1, h2⟩ := drawThen_ok ht1
  have hil : i < s.alloc.length := by rw [hs.cons.len]; exact hin
  refine ⟨l, by unfold sliceRow; rw [ep, ok_bind]; exact e, ?_, ?_⟩
  · intro x hx
    obtain ⟨k, hk, e⟩ := h1 x hx
    rw [e]
    exact ⟨ht2 k hk, _, ht3 k hk⟩
  · intro c
    rw [h2]
    by_cases hc : c ∈ el
    · obtain ⟨k, hk, hkc⟩ := List.mem_iff_getElem.mp hc
      have hkp : k < p.length := by omega
      have hkc' : el[k]? = some c := by rw [List.getElem?_eq_getElem hk, hkc]
      have hkd : el.getD k 0 = c := by rw [List.getD_eq_getElem?_getD, hkc']; rfl
      rw [Finset.sum_eq_single k]
      · rw [if_pos (by rw [ht3 k hkp, hkd]), hpk k c (by rw [← hel]; exact hkc')]
      · intro j hj hjk
        have hj' := Finset.mem_range.mp hj
        rw [if_neg]
        intro h
        rw [ht3 j hj'] at h
        have h3 := set_inj hil h
        have h4 : el[j]? = some c := by rw [hget j hj', h3]
        have h5 := (List.getElem?_eq_some_iff.mp h4).2
        exact hjk ((hnd.getElem_inj_iff).mp (h5.trans hkc.symm))
      · intro h
        exact absurd (Finset.mem_range.mpr hkp) h
    · have h0 : sliceWeight like θ (sbWeights mix) i (u.getD i 0) c = 0 := by
        unfold sliceWeight
        split
        · rw [if_neg]
          intro h
          refine hc ?_
          rw [hel]
          exact mem_eligible.mpr ⟨by assumption, h⟩
        · rfl
      rw [h0, zero_div]
      refine Finset.sum_eq_zero fun j hj => if_neg fun h => ?_
      have hj' := Finset.mem_range.mp hj
      rw [ht3 j hj'] at h
      have h3 := set_inj hil h
      refine hc ?_
      rw [← h3]
      exact List.mem_of_getElem? (hget j hj')

end

end Bayesmix.Cond
