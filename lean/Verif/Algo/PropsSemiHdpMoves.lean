import Verif.Algo.SemiHdpMoves
import Verif.Algo.PropsDensity
import Verif.Algo.CondRows
import Verif.Hier.PropsMixDist
import Verif.Hier.PropsMixDistMulti
import Verif.Hier.ShareLemmas

/-!
# C133: which distribution the moves of a group between restaurants leave as it is
-/

namespace Bayesmix.SemiHdp
open Bayesmix Cond Density Mixing Hierarchies MeasureTheory

variable {g d : ℕ} {T Y : Type}

/-- The state in which group `i` eats in restaurant `c`. -/
def placed (s : State g T) (i c : Fin g) : State g T :=
  { s with
    restAllocs := Function.update s.restAllocs i c
    isUsedRest := fun r => decide (∃ k, Function.update s.restAllocs i c k = r) }

/-- The weight of restaurant `r` for group `i`: its concentration times the product over the rows of
the mixture of its tables. -/
noncomputable def groupTarget (M : ℝ) (like : T → Y → ℝ) (data : Fin g → List Y) (conc : Fin g → ℝ)
    (s : State g T) (i r : Fin g) : ℝ :=
  conc r * ((data i).map fun y => (List.zipWith (fun t (n : ℤ) =>
    (n : ℝ) / (M + ((s.nByTable r).sum : ℤ)) * Real.exp (like t y)) (s.rest r) (s.nByTable r)).sum).prod

/-- The masses are positive, the counts are counts, and a restaurant in which no other group eats has
the tables of the pseudo-prior (as it has after the group has moved there). -/
structure Ready (M : ℝ) (conc : Fin g → ℝ) (ps : Pseudo g T) (s : State g T) (i : Fin g) : Prop where
  mass : 0 < M
  conc : ∀ r, 0 ≤ conc r
  counts : ∀ r, ∀ n ∈ s.nByTable r, 0 ≤ n
  length : ∀ r, (s.rest r).length ≤ (s.nByTable r).length
  pseudo : ∀ r, (∀ k, k ≠ i → s.restAllocs k ≠ r) → ps.tables r = s.rest r ∧ ps.counts r = s.nByTable r

theorem seenTables_placed {M : ℝ} {conc : Fin g → ℝ} {ps : Pseudo g T} {s : State g T} {i : Fin g}
    (h : Ready M conc ps s i) (c r : Fin g) :
    seenTables ps (placed s i c) r = (s.rest r, s.nByTable r) := by
  unfold seenTables
  by_cases hu : (placed s i c).isUsedRest r
  · rw [if_pos hu]; rfl
  · rw [if_neg hu]
    obtain ⟨e1, e2⟩ := h.pseudo r fun k hk hr => hu (by
      simp only [placed, decide_eq_true_eq]
      exact ⟨k, by rw [Function.update_of_ne hk, hr]⟩)
    rw [e1, e2]

theorem rowLpdf_isLogOf {M : ℝ} (hM : 0 < M) (like : T → Y → ℝ) (ts : List T) (ns : List ℤ)
    (hn : ∀ n ∈ ns, 0 ≤ n) (hl : ts.length ≤ ns.length) (y : Y) :
    ∃ l, rowLpdf M like (ts, ns) y = .ok l ∧ IsLogOf l (List.zipWith (fun t (n : ℤ) =>
      (n : ℝ) / (M + (ns.sum : ℤ)) * Real.exp (like t y)) ts ns).sum := by
  have hs : (0 : ℝ) ≤ (ns.sum : ℤ) := by exact_mod_cast List.sum_nonneg hn
  refine ⟨logSumExp (List.zipWith (fun t (n : ℤ) =>
    stdLog ((n : ℝ) / (M + (ns.sum : ℤ))) + ((like t y : ℝ) : EReal)) ts ns), ?_, ?_⟩
  · unfold rowLpdf
    have e : ((List.range ts.length).mapM fun h => do
        let t ← vget ts h
        let n ← vget ns h
        (.ok (stdLog ((n : ℝ) / (M + (ns.sum : ℤ))) + ((like t y : ℝ) : EReal)) : Except Fault EReal)) =
        .ok ((List.range ts.length).map fun h => (List.zipWith (fun t (n : ℤ) =>
          stdLog ((n : ℝ) / (M + (ns.sum : ℤ))) + ((like t y : ℝ) : EReal)) ts ns).getD h 0) := by
      refine Gibbs.mapM_ok _ _ _ fun h hh => ?_
      have h1 := List.mem_range.mp hh
      have h2 : h < ns.length := by omega
      rw [vget, List.getElem?_eq_getElem h1, vget, List.getElem?_eq_getElem h2]
      simp only [ok_bind]
      rw [List.getD_eq_getElem?_getD, List.getElem?_zipWith, List.getElem?_eq_getElem h1,
        List.getElem?_eq_getElem h2]
      rfl
    rw [e, ok_bind]
    congr 2
    refine List.ext_getElem (by simp; omega) fun k h1 h2 => ?_
    rw [List.getElem_map, List.getElem_range, List.getD_eq_getElem?_getD,
      List.getElem?_eq_getElem h2, Option.getD_some]
  · refine logSumExp_isLogOf ?_
    generalize hS : M + ((ns.sum : ℤ) : ℝ) = S
    have hS0 : 0 < S := by rw [← hS]; linarith
    clear hS hs hl
    induction ts generalizing ns with
    | nil => simp
    | cons t ts ih =>
      cases ns with
      | nil => simp
      | cons n ns =>
        simp only [List.zipWith_cons_cons]
        refine List.Forall₂.cons (isLogOf_mul (isLogOf_stdLog ?_) (Or.inl ⟨Real.exp_pos _, ?_⟩))
          (ih ns fun m hm => hn m (by simp [hm]))
        · have : (0 : ℝ) ≤ n := by exact_mod_cast hn n (by simp)
          positivity
        · rw [Real.log_exp]

theorem restLogWeight_isLogOf {M : ℝ} {conc : Fin g → ℝ} {ps : Pseudo g T} {s : State g T} {i : Fin g}
    (h : Ready M conc ps s i) (like : T → Y → ℝ) (data : Fin g → List Y) (r : Fin g) :
    ∃ l, (∀ c, restLogWeight M like data conc ps (placed s i c) i r = .ok l) ∧
      IsLogOf l (groupTarget M like data conc s i r) := by
  have key : ∀ ys : List Y, ∃ l, ys.mapM (rowLpdf M like (s.rest r, s.nByTable r)) = .ok l ∧
      IsLogOf l.sum (ys.map fun y => (List.zipWith (fun t (n : ℤ) =>
        (n : ℝ) / (M + ((s.nByTable r).sum : ℤ)) * Real.exp (like t y)) (s.rest r)
          (s.nByTable r)).sum).prod := by
    intro ys
    induction ys with
    | nil => exact ⟨[], rfl, by simpa using isLogOf_one⟩
    | cons y ys ih =>
      obtain ⟨l, e, hl⟩ := ih
      obtain ⟨a, ea, ha⟩ := rowLpdf_isLogOf h.mass like (s.rest r) (s.nByTable r) (h.counts r)
        (h.length r) y
      refine ⟨a :: l, by rw [List.mapM_cons, ea, ok_bind, e]; rfl, ?_⟩
      rw [List.sum_cons, List.map_cons, List.prod_cons]
      exact isLogOf_mul ha hl
  obtain ⟨l, e, hl⟩ := key (data i)
  refine ⟨l.sum + stdLog (conc r), fun c => ?_, ?_⟩
  · unfold restLogWeight lpdfForGroup
    rw [seenTables_placed h c r, e]
    rfl
  · unfold groupTarget
    rw [mul_comm]
    exact isLogOf_mul hl (isLogOf_stdLog (h.conc r))

theorem groupTarget_nonneg {M : ℝ} {conc : Fin g → ℝ} {ps : Pseudo g T} {s : State g T} {i : Fin g}
    (h : Ready M conc ps s i) (like : T → Y → ℝ) (data : Fin g → List Y) (r : Fin g) :
    0 ≤ groupTarget M like data conc s i r := by
  obtain ⟨l, -, hl⟩ := restLogWeight_isLogOf h like data r
  rw [← stdExp_of_isLogOf hl]
  exact stdExp_nonneg _

/-! ### The laws of the moves -/

/-- The decision accepts with probability `min(1, W / V)`. -/
theorem acceptProb_eq {num den : EReal} {W V : ℝ} (hn : IsLogOf num W) (hd : IsLogOf den V)
    (hV : 0 < V) : acceptProb num den = min 1 (W / V) := by
  have hd' : den = ((Real.log V : ℝ) : EReal) := by
    rcases hd with ⟨-, e⟩ | ⟨e, -⟩
    · exact e
    · exact absurd e hV.ne'
  unfold acceptProb
  rcases hn with ⟨hW, rfl⟩ | ⟨rfl, rfl⟩
  · have e : {u : ℝ | 0 ≤ u ∧ u < 1 ∧ stdLog u < ((Real.log W : ℝ) : EReal) - den} =
        Set.Ico 0 (min 1 (W / V)) := by
      ext u
      simp only [Set.mem_setOf_eq, Set.mem_Ico, lt_min_iff]
      refine and_congr_right fun hu => and_congr_right fun _ => ?_
      rw [hd', ← EReal.coe_sub, ← Real.log_div hW.ne' hV.ne']
      rcases hu.eq_or_lt with rfl | hu
      · rw [stdLog_zero]
        exact ⟨fun _ => by positivity, fun _ => EReal.bot_lt_coe _⟩
      · rw [stdLog_pos hu, EReal.coe_lt_coe_iff, Real.log_lt_log_iff hu (by positivity)]
    rw [e, Real.volume_Ico, sub_zero, ENNReal.toReal_ofReal (by positivity)]
  · have e : {u : ℝ | 0 ≤ u ∧ u < 1 ∧ stdLog u < ⊥ - den} = ∅ := by
      ext u
      simp [hd', ← EReal.coe_neg, sub_eq_add_neg]
    rw [e]
    simp

theorem acceptProb_mem (num den : EReal) : 0 ≤ acceptProb num den ∧ acceptProb num den ≤ 1 := by
  refine ⟨ENNReal.toReal_nonneg, ?_⟩
  have h : volume {u : ℝ | 0 ≤ u ∧ u < 1 ∧ stdLog u < num - den} ≤ volume (Set.Ico (0 : ℝ) 1) :=
    measure_mono fun u hu => ⟨hu.1, hu.2.1⟩
  rw [Real.volume_Ico, sub_zero, ENNReal.ofReal_one] at h
  exact ENNReal.toReal_le_of_le_ofReal zero_le_one (by simpa using h)

theorem mul_acceptProb {num den : EReal} {W V : ℝ} (hn : IsLogOf num W) (hd : IsLogOf den V)
    (hW : 0 ≤ W) (hV : 0 ≤ V) : V * acceptProb num den = min V W := by
  rcases hV.eq_or_lt with rfl | hV
  · rw [zero_mul, min_eq_left hW]
  · rw [acceptProb_eq hn hd hV, mul_min_of_nonneg _ _ hV.le, mul_one, mul_div_cancel₀ _ hV.ne']

theorem finRange_map_prob (p : Fin g → ℝ) (P : Fin g → Prop) [DecidablePred P] :
    Law.prob ((List.finRange g).map fun r => (p r, r)) P = ∑ r, if P r then p r else 0 := by
  classical
  rw [Law.prob, List.map_map, ← List.sum_ofFn, List.ofFn_eq_map]
  congr 1
  refine List.map_congr_left fun r _ => ?_
  simp only [Function.comp]

/-- The law of a move with a proposal. -/
theorem metroMove_law {w : Fin g → Except Fault EReal} {L : Fin g → EReal} (hw : ∀ r, w r = .ok (L r))
    (c : Fin g) (q : Fin g → ℝ) :
    ∃ l, metroMove w c ((List.finRange g).map fun r => (q r, r)) = .ok l ∧
      (∀ r, r ≠ c → l.prob (fun x => x = r) = q r * acceptProb (L r) (L c)) ∧
      l.prob (fun x => x = c) =
        ∑ r, q r - ∑ r ∈ Finset.univ.erase c, q r * acceptProb (L r) (L c) := by
  classical
  have hp : ∀ (rs : List (Fin g)) (P : Fin g → Prop),
      Law.prob (rs.map fun r => [(q r * acceptProb (L r) (L c), r),
        (q r * (1 - acceptProb (L r) (L c)), c)]).flatten P =
      (rs.map fun r => (if P r then q r * acceptProb (L r) (L c) else 0) +
        if P c then q r * (1 - acceptProb (L r) (L c)) else 0).sum := by
    intro rs P
    induction rs with
    | nil => simp [Law.prob]
    | cons r rs ih =>
      rw [List.map_cons, List.flatten_cons, Law.prob_append, ih, List.map_cons, List.sum_cons]
      congr 1
      simp [Law.prob]
  refine ⟨((List.finRange g).map fun r => [(q r * acceptProb (L r) (L c), r),
    (q r * (1 - acceptProb (L r) (L c)), c)]).flatten, ?_, fun r hr => ?_, ?_⟩
  · unfold metroMove
    rw [Gibbs.mapM_ok _ (fun x : ℝ × Fin g => [(x.1 * acceptProb (L x.2) (L c), x.2),
      (x.1 * (1 - acceptProb (L x.2) (L c)), c)]) _ (fun x _ => by rw [hw, hw]; rfl), ok_bind,
      List.map_map]
    rfl
  · rw [hp, ← List.ofFn_eq_map, List.sum_ofFn, Finset.sum_eq_single r]
    · simp [Ne.symm hr]
    · intro x _ hx
      simp [hx, Ne.symm hr]
    · simp
  · rw [hp, ← List.ofFn_eq_map, List.sum_ofFn, eq_sub_iff_add_eq]
    simp only [if_true]
    rw [← Finset.add_sum_erase _ _ (Finset.mem_univ c), if_pos rfl]
    rw [← Finset.add_sum_erase _ q (Finset.mem_univ c)]
    rw [Finset.sum_congr rfl (g := fun r => q r * (1 - acceptProb (L r) (L c))) (fun r hr => by
      rw [if_neg (Finset.ne_of_mem_erase hr), zero_add])]
    rw [add_assoc, ← Finset.sum_add_distrib]
    congr 1
    · ring
    · exact Finset.sum_congr rfl fun r _ => by ring

/-- A symmetric proposal leaves the target as it is. -/
theorem metro_invariant {W : Fin g → ℝ} (hW : ∀ r, 0 ≤ W r) {L : Fin g → EReal}
    (hL : ∀ r, IsLogOf (L r) (W r)) {q : Fin g → Fin g → ℝ} (hq : ∀ c r, q c r = q r c)
    (h1 : ∀ c, ∑ r, q c r = 1) {K : Fin g → Fin g → ℝ}
    (hK : ∀ c r, r ≠ c → K c r = q c r * acceptProb (L r) (L c))
    (hKc : ∀ c, K c c = ∑ r, q c r - ∑ r ∈ Finset.univ.erase c, q c r * acceptProb (L r) (L c))
    (r : Fin g) : ∑ c, W c * K c r = W r := by
  have hb : ∀ c, c ≠ r → W c * K c r = W r * (q r c * acceptProb (L c) (L r)) := by
    intro c hc
    rw [hK c r (Ne.symm hc), mul_left_comm, mul_acceptProb (hL r) (hL c) (hW r) (hW c),
      mul_left_comm, mul_acceptProb (hL c) (hL r) (hW c) (hW r), hq c r, min_comm]
  rw [← Finset.add_sum_erase _ _ (Finset.mem_univ r),
    Finset.sum_congr rfl fun c hc => hb c (Finset.ne_of_mem_erase hc), ← Finset.mul_sum, hKc, h1]
  ring

/-- **C133, the move `full`.** Wherever the group is, its new restaurant has the target
distribution. -/
theorem c133_full {M : ℝ} {conc : Fin g → ℝ} {ps : Pseudo g T} {s : State g T} {i : Fin g}
    (h : Ready M conc ps s i) (like : T → Y → ℝ) (data : Fin g → List Y)
    (toState : T → ClusterState d) (hpos : 0 < ∑ r, groupTarget M like data conc s i r) :
    ∃ l, (∀ c, choiceLaw "full" M like data conc toState ps (placed s i c) i = .ok l) ∧
      ∀ r, l.prob (fun x => x = r) =
        groupTarget M like data conc s i r / ∑ x, groupTarget M like data conc s i x := by
  classical
  choose L hL hlog using restLogWeight_isLogOf h like data
  have hsum : (((List.finRange g).map L).map stdExp).sum = ∑ r, groupTarget M like data conc s i r := by
    rw [List.map_map, ← List.ofFn_eq_map, List.sum_ofFn]
    exact Finset.sum_congr rfl fun r _ => stdExp_of_isLogOf (hlog r)
  refine ⟨(List.finRange g).map fun r => (groupTarget M like data conc s i r /
    ∑ x, groupTarget M like data conc s i x, r), fun c => ?_, fun r => ?_⟩
  · unfold choiceLaw
    simp only [if_true]
    unfold fullMove softmaxLog
    rw [Gibbs.mapM_ok _ L _ fun r _ => hL r c, ok_bind, hsum, if_neg hpos.ne', ok_bind, List.map_map]
    congr 1
    refine List.ext_getElem (by simp) fun k h1 h2 => ?_
    simp [stdExp_of_isLogOf (hlog _)]
  · rw [finRange_map_prob]
    simp

/-- **C133, the move `metro_base`.** The target distribution stays as it is: another restaurant is
reached with probability `min(1, ratio of the weights) / ngroups`. -/
theorem c133_metro_base {M : ℝ} {conc : Fin g → ℝ} {ps : Pseudo g T} {s : State g T} {i : Fin g}
    (h : Ready M conc ps s i) (like : T → Y → ℝ) (data : Fin g → List Y)
    (toState : T → ClusterState d) :
    ∃ l : Fin g → Law (Fin g),
      (∀ c, choiceLaw "metro_base" M like data conc toState ps (placed s i c) i = .ok (l c)) ∧
      (∀ c, ∑ r, (l c).prob (fun x => x = r) = 1) ∧
      (∀ c r, r ≠ c → 0 < groupTarget M like data conc s i c → (l c).prob (fun x => x = r) =
        min 1 (groupTarget M like data conc s i r / groupTarget M like data conc s i c) / g) ∧
      ∀ r, ∑ c, groupTarget M like data conc s i c * (l c).prob (fun x => x = r) =
        groupTarget M like data conc s i r := by
  choose L hL hlog using restLogWeight_isLogOf h like data
  have hg : (g : ℝ) ≠ 0 := by
    have := Fin.pos i
    positivity
  have h1 : ∀ c : Fin g, ∑ r : Fin g, (fun _ _ => 1 / (g : ℝ) : Fin g → Fin g → ℝ) c r = 1 := by
    intro c
    simp [hg]
  choose l hl hne heq using fun c : Fin g =>
    metroMove_law (w := restLogWeight M like data conc ps (placed s i c) i) (fun r => hL r c) c
      fun _ => 1 / (g : ℝ)
  refine ⟨l, fun c => ?_, fun c => ?_, fun c r hr hc => ?_, fun r => ?_⟩
  · rw [← hl c]
    unfold choiceLaw uniformProposal
    simp [placed]
  · rw [← Finset.add_sum_erase _ _ (Finset.mem_univ c), heq,
      Finset.sum_congr rfl fun r hr => hne c r (Finset.ne_of_mem_erase hr)]
    have := h1 c
    dsimp only at this
    rw [this]
    ring
  · rw [hne c r hr, acceptProb_eq (hlog r) (hlog c) hc]
    ring
  · exact metro_invariant (fun r => groupTarget_nonneg h like data r) hlog (fun _ _ => rfl) h1 hne
      heq r

/-- The unnormalized proposal of `metro_dist`. -/
theorem distProposal_ok {toState : T → ClusterState d} {s : State g T} {c : Fin g} {D : Fin g → ℝ}
    (hD : ∀ r, mixtureDistance toState s c r = .ok (D r)) (h0 : ∀ r, 0 ≤ D r) :
    distProposal toState s c = .ok ((List.finRange g).map fun r =>
      ((1 + 0.1 / (0.0001 + D r)) / ∑ x, (1 + 0.1 / (0.0001 + D x)), r)) := by
  have hp : ∀ r, 0 < 1 + 0.1 / (0.0001 + D r) := by
    intro r
    have : 0 < 0.0001 + D r := by have := h0 r; norm_num; linarith
    positivity
  unfold distProposal
  rw [Gibbs.mapM_ok _ (fun r => (1 + 0.1 / (0.0001 + D r), r)) _ fun r _ => ?_, ok_bind, normalizedDraw]
  · have e : (((List.finRange g).map fun r => (1 + 0.1 / (0.0001 + D r), r)).map Prod.fst).sum =
        ∑ x, (1 + 0.1 / (0.0001 + D x)) := by
      rw [List.map_map, ← List.ofFn_eq_map, List.sum_ofFn]
      rfl
    have hZ : 0 < ∑ x, (1 + 0.1 / (0.0001 + D x)) :=
      Finset.sum_pos (fun r _ => hp r) ⟨c, Finset.mem_univ c⟩
    rw [e, if_neg, List.map_map]
    · rfl
    · rintro (h | ⟨x, hx, h⟩)
      · exact hZ.ne' h
      · obtain ⟨r, -, rfl⟩ := List.mem_map.mp hx
        have := div_pos (hp r) hZ
        dsimp only at h
        linarith
  · rw [hD r, ok_bind, if_neg]
    have := h0 r
    norm_num
    intro h
    linarith

/-- The laws of `metro_dist`. -/
theorem metro_dist_law {M : ℝ} {conc : Fin g → ℝ} {ps : Pseudo g T} {s : State g T} {i : Fin g}
    {like : T → Y → ℝ} {data : Fin g → List Y} {toState : T → ClusterState d} {D : Fin g → Fin g → ℝ}
    (hD : ∀ c r, mixtureDistance toState s c r = .ok (D c r)) (h0 : ∀ c r, 0 ≤ D c r) {L : Fin g → EReal}
    (hL : ∀ r c, restLogWeight M like data conc ps (placed s i c) i r = .ok (L r)) :
    ∃ l : Fin g → Law (Fin g),
      (∀ c, choiceLaw "metro_dist" M like data conc toState ps (placed s i c) i = .ok (l c)) ∧
      (∀ c r, r ≠ c → (l c).prob (fun x => x = r) = (1 + 0.1 / (0.0001 + D c r)) /
        (∑ x, (1 + 0.1 / (0.0001 + D c x))) * acceptProb (L r) (L c)) ∧
      ∀ c, (l c).prob (fun x => x = c) = ∑ r, (1 + 0.1 / (0.0001 + D c r)) /
        (∑ x, (1 + 0.1 / (0.0001 + D c x))) - ∑ r ∈ Finset.univ.erase c,
          (1 + 0.1 / (0.0001 + D c r)) / (∑ x, (1 + 0.1 / (0.0001 + D c x))) *
            acceptProb (L r) (L c) := by
  choose l hl hne heq using fun c : Fin g =>
    metroMove_law (w := restLogWeight M like data conc ps (placed s i c) i) (fun r => hL r c) c
      fun r => (1 + 0.1 / (0.0001 + D c r)) / (∑ x, (1 + 0.1 / (0.0001 + D c x)))
  refine ⟨l, fun c => ?_, hne, heq⟩
  rw [← hl c]
  unfold choiceLaw
  have e : distProposal toState (placed s i c) ((placed s i c).restAllocs i) =
      distProposal toState s c := by
    simp only [placed, Function.update_self]
    rfl
  simp only [e, distProposal_ok (hD c) (h0 c), ok_bind]
  simp [placed]

/-- **C133, the move `metro_dist`, the part that holds.** If the proposals from all restaurants are
normalized by the same number, the target distribution stays as it is. This is so for two
restaurants. -/
theorem c133_metro_dist_partial {M : ℝ} {conc : Fin g → ℝ} {ps : Pseudo g T} {s : State g T}
    {i : Fin g} (h : Ready M conc ps s i) (like : T → Y → ℝ) (data : Fin g → List Y)
    (toState : T → ClusterState d) (D : Fin g → Fin g → ℝ)
    (hD : ∀ c r, mixtureDistance toState s c r = .ok (D c r)) (h0 : ∀ c r, 0 ≤ D c r)
    (hsym : ∀ c r, D c r = D r c)
    (hZ : ∀ c c', ∑ r, (1 + 0.1 / (0.0001 + D c r)) = ∑ r, (1 + 0.1 / (0.0001 + D c' r))) :
    ∃ l : Fin g → Law (Fin g),
      (∀ c, choiceLaw "metro_dist" M like data conc toState ps (placed s i c) i = .ok (l c)) ∧
      ∀ r, ∑ c, groupTarget M like data conc s i c * (l c).prob (fun x => x = r) =
        groupTarget M like data conc s i r := by
  choose L hL hlog using restLogWeight_isLogOf h like data
  obtain ⟨l, hl, hne, heq⟩ := metro_dist_law hD h0 hL
  have hp : ∀ c r, 0 < 1 + 0.1 / (0.0001 + D c r) := by
    intro c r
    have : 0 < 0.0001 + D c r := by have := h0 c r; norm_num; linarith
    positivity
  refine ⟨l, hl, fun r => metro_invariant (fun r => groupTarget_nonneg h like data r) hlog
    (q := fun c r => (1 + 0.1 / (0.0001 + D c r)) / (∑ x, (1 + 0.1 / (0.0001 + D c x))))
    (fun c r => ?_) (fun c => ?_) hne heq r⟩
  · rw [hZ c r, hsym c r]
  · rw [← Finset.sum_div, div_self]
    exact (Finset.sum_pos (fun r _ => hp c r) ⟨i, Finset.mem_univ i⟩).ne'

/-- **C133, the move `metro_dist`, two restaurants.** With a distance that is symmetric and zero for
equal restaurants, the target distribution stays as it is. -/
theorem c133_metro_dist_two_partial {M : ℝ} {conc : Fin 2 → ℝ} {ps : Pseudo 2 T} {s : State 2 T}
    {i : Fin 2} (h : Ready M conc ps s i) (like : T → Y → ℝ) (data : Fin 2 → List Y)
    (toState : T → ClusterState d) (D : Fin 2 → Fin 2 → ℝ)
    (hD : ∀ c r, mixtureDistance toState s c r = .ok (D c r)) (h0 : ∀ c r, 0 ≤ D c r)
    (hsym : ∀ c r, D c r = D r c) (hself : ∀ c, D c c = 0) :
    ∃ l : Fin 2 → Law (Fin 2),
      (∀ c, choiceLaw "metro_dist" M like data conc toState ps (placed s i c) i = .ok (l c)) ∧
      ∀ r, ∑ c, groupTarget M like data conc s i c * (l c).prob (fun x => x = r) =
        groupTarget M like data conc s i r := by
  refine c133_metro_dist_partial h like data toState D hD h0 hsym ?_
  have key : ∀ c, ∑ r, (1 + 0.1 / (0.0001 + D c r)) =
      1 + 0.1 / (0.0001 + 0) + (1 + 0.1 / (0.0001 + D 0 1)) := by
    intro c
    rw [Fin.sum_univ_two]
    fin_cases c
    · simp only [Fin.zero_eta]
      rw [hself]
    · simp only [Fin.mk_one]
      rw [hself, hsym 1 0]
      ring
  intro c c'
  rw [key, key]

/-- A restaurant with one table, which is a normal distribution with variance one half. -/
theorem mixtureDistance_single {s : State g (ℝ × ℝ)} {m : Fin g → ℝ} (hr : ∀ r, s.rest r = [(m r, 1 / 2)])
    (hn : ∀ r, s.nByTable r = [1]) (c r : Fin g) :
    mixtureDistance (d := 1) (fun t => .uniLs t.1 t.2) s c r =
      .ok (2 * (Real.exp (normalLpdf 0 0 1) - Real.exp (normalLpdf (m c) (m r) 1))) := by
  have e : ∀ r, restMixture (d := 1) (fun t => .uniLs t.1 t.2) s r =
      .ok ([.uniLs (m r) (1 / 2)], [1]) := by
    intro r
    unfold restMixture
    rw [hr, hn]
    simp [vget, List.range_succ]
  unfold mixtureDistance
  rw [e, e]
  have := c111_univariate (d := 1) (k := 0) (l := 1) ⟨fun _ => m c, fun _ => 1 / 2, fun _ => 1⟩
    ⟨fun _ => m r, fun _ => 1 / 2, fun _ => 1⟩ (fun _ => by norm_num) (fun _ => by norm_num)
  simp only [List.ofFn_succ, List.ofFn_zero] at this
  simp only [ok_bind]
  rw [this]
  congr 1
  simp only [gaussianMixtureDist, mixCross, Finset.univ_unique, Finset.sum_singleton]
  have h1 : ∀ x : ℝ, normalLpdf x x 1 = normalLpdf 0 0 1 := by
    intro x
    unfold normalLpdf
    simp
  norm_num
  rw [h1 (m c), h1 (m r)]
  ring

/-- Three restaurants with one table each, two of them equal. -/
noncomputable def threeRest : State 3 (ℝ × ℝ) :=
  { rest := fun r => [(if r = 2 then -1 else 1, 1 / 2)]
    priv := fun r => [(if r = 2 then -1 else 1, 1 / 2)]
    shared := []
    nByTable := fun _ => [1]
    allocs := fun _ => [0]
    restAllocs := fun k => k
    isUsedRest := fun _ => true
    toShared := fun _ => [-1]
    toPrivate := fun _ => [0]
    cntShared := [] }

/-- **C133, the move `metro_dist`, violated.** The proposal is normalized by a number that depends on
the restaurant, and the acceptance does not correct for it. With three restaurants with one table each,
the same in two of them, and one observation that is as likely in all of them, the uniform
distribution is the target and does not stay. -/
theorem c133_metro_dist_violated :
    ∃ (ps : Pseudo 3 (ℝ × ℝ)) (s : State 3 (ℝ × ℝ)) (l : Fin 3 → Law (Fin 3)),
      Ready 1 (fun _ => 1 / 3) ps s 0 ∧
      (∀ c, choiceLaw (d := 1) "metro_dist" 1 (fun t (y : ℝ) => normalLpdf y t.1 (Real.sqrt t.2))
        (fun _ => [0]) (fun _ => 1 / 3) (fun t => .uniLs t.1 t.2) ps (placed s 0 c) 0 = .ok (l c)) ∧
      ∑ c, groupTarget 1 (fun t (y : ℝ) => normalLpdf y t.1 (Real.sqrt t.2)) (fun _ => [0])
          (fun _ => 1 / 3) s 0 c * (l c).prob (fun x => x = 2) ≠
        groupTarget 1 (fun t (y : ℝ) => normalLpdf y t.1 (Real.sqrt t.2)) (fun _ => [0])
          (fun _ => 1 / 3) s 0 2 := by
  have hR : Ready 1 (fun _ => 1 / 3) ⟨threeRest.rest, threeRest.nByTable⟩ threeRest 0 :=
    ⟨one_pos, fun _ => by norm_num, fun r n hn => by
      simp only [threeRest, List.mem_singleton] at hn
      omega, fun r => by simp [threeRest], fun r _ => ⟨rfl, rfl⟩⟩
  choose L hL hlog using restLogWeight_isLogOf hR (fun t (y : ℝ) => normalLpdf y t.1 (Real.sqrt t.2))
    (fun _ => [0])
  have hD := mixtureDistance_single (s := threeRest) (m := fun r => if r = 2 then -1 else 1)
    (fun _ => rfl) (fun _ => rfl)
  have hlt : Real.exp (normalLpdf 1 (-1) 1) < Real.exp (normalLpdf 0 0 1) := by
    apply Real.exp_lt_exp.mpr
    unfold normalLpdf
    norm_num
  have h11 : normalLpdf 1 1 1 = normalLpdf 0 0 1 := by unfold normalLpdf; simp
  have h22 : normalLpdf (-1) (-1) 1 = normalLpdf 0 0 1 := by unfold normalLpdf; simp
  have h21 : normalLpdf (-1) 1 1 = normalLpdf 1 (-1) 1 := by unfold normalLpdf; norm_num
  have h0 : ∀ c r : Fin 3, 0 ≤ 2 * (Real.exp (normalLpdf 0 0 1) -
      Real.exp (normalLpdf (if c = 2 then -1 else 1) (if r = 2 then -1 else 1) 1)) := by
    intro c r
    split <;> split
    · rw [h22]; simp
    · rw [h21]; linarith
    · linarith
    · rw [h11]; simp
  obtain ⟨l, hl, hne, heq⟩ := metro_dist_law (i := (0 : Fin 3)) hD h0 hL
  refine ⟨_, threeRest, l, hR, hl, ?_⟩
  -- all weights are equal
  obtain ⟨W, hW⟩ : ∃ W : ℝ, W = groupTarget 1 (fun t (y : ℝ) => normalLpdf y t.1 (Real.sqrt t.2))
    (fun _ => [0]) (fun _ => 1 / 3) threeRest (0 : Fin 3) 2 := ⟨_, rfl⟩
  have hWr : ∀ r, groupTarget 1 (fun t (y : ℝ) => normalLpdf y t.1 (Real.sqrt t.2))
      (fun _ => [0]) (fun _ => 1 / 3) threeRest (0 : Fin 3) r = W := by
    intro r
    rw [hW]
    unfold groupTarget
    by_cases hr : r = 2
    · rw [hr]
    · simp only [threeRest, if_neg hr, if_true, List.map_cons, List.map_nil, List.zipWith_cons_cons,
        List.zipWith_nil_right]
      congr 6
      unfold normalLpdf
      norm_num
  have hW0 : 0 < W := by
    rw [hW]
    unfold groupTarget threeRest
    simp only [List.map_cons, List.map_nil, List.zipWith_cons_cons, List.zipWith_nil_right,
      List.sum_cons, List.sum_nil, List.prod_cons, List.prod_nil]
    have := Real.exp_pos (normalLpdf 0 (if (2 : Fin 3) = 2 then -1 else 1) (Real.sqrt (1 / 2)))
    norm_num at this ⊢
    exact this
  have hA : ∀ c r, acceptProb (L r) (L c) = 1 := by
    intro c r
    have h1 := hlog r
    have h2 := hlog c
    rw [hWr] at h1 h2
    rw [acceptProb_eq h1 h2 hW0, div_self hW0.ne', min_self]
  obtain ⟨b, hb⟩ : ∃ b : ℝ, b = 1 + 0.1 / (0.0001 + 2 * (Real.exp (normalLpdf 0 0 1) -
    Real.exp (normalLpdf 1 (-1) 1))) := ⟨_, rfl⟩
  have hb0 : 0 < b := by
    rw [hb]
    have : 0 < 0.0001 + 2 * (Real.exp (normalLpdf 0 0 1) - Real.exp (normalLpdf 1 (-1) 1)) := by
      norm_num
      linarith
    positivity
  have hb1 : b < 1001 := by
    rw [hb]
    have h1 : (0.0001 : ℝ) < 0.0001 + 2 * (Real.exp (normalLpdf 0 0 1) -
        Real.exp (normalLpdf 1 (-1) 1)) := by linarith
    have h2 : (0.1 : ℝ) / (0.0001 + 2 * (Real.exp (normalLpdf 0 0 1) -
        Real.exp (normalLpdf 1 (-1) 1))) < 0.1 / 0.0001 :=
      div_lt_div_of_pos_left (by norm_num) (by norm_num) h1
    norm_num at h2 ⊢
    linarith
  have hA1 : (1 : ℝ) + 0.1 / (0.0001 + 2 * (Real.exp (normalLpdf 0 0 1) -
      Real.exp (normalLpdf 0 0 1))) = 1001 := by norm_num
  rw [Fin.sum_univ_three, hWr, hWr, hWr, hne 0 2 (by decide), hne 1 2 (by decide), heq 2,
    show (Finset.univ.erase (2 : Fin 3)) = {0, 1} by decide, Finset.sum_pair (by decide)]
  simp only [Fin.sum_univ_three, hA, if_true, if_neg (show (0 : Fin 3) ≠ 2 by decide),
    if_neg (show (1 : Fin 3) ≠ 2 by decide), h11, h22, h21, hA1, ← hb, mul_one]
  intro h
  have h3 : W * (b / (1001 + 1001 + b)) + W * (b / (1001 + 1001 + b)) +
      W * (1001 / (b + b + 1001)) = W := by
    linear_combination h
  have h4 : W ≠ 0 := hW0.ne'
  field_simp at h3
  nlinarith [mul_pos hb0 (sub_pos.mpr hb1)]

/-- **C133, what a move leaves.** Moving the group from one restaurant to another changes neither the
tables of any restaurant nor their counts, and leads to the state in which the group eats there: the
weights of the next move are the same. -/
theorem c133_move {M : ℝ} {conc : Fin g → ℝ} {ps : Pseudo g T} {s : State g T} {i : Fin g}
    (h : Ready M conc ps s i) (c r : Fin g) (hcr : r ≠ c) (seat : ℕ → ℕ) {s' : State g T}
    (e : reassignGroup ps (placed s i c) i r seat = .ok s') :
    s'.rest = s.rest ∧ s'.nByTable = s.nByTable ∧ s'.restAllocs = (placed s i r).restAllocs ∧
      s'.isUsedRest = (placed s i r).isUsedRest := by
  have hra : Function.update (placed s i c).restAllocs i r = Function.update s.restAllocs i r := by
    simp [placed]
  have hc : (placed s i c).restAllocs i = c := by simp [placed]
  have huse : ∀ x, x ≠ c → x ≠ r → ((∃ k, Function.update s.restAllocs i c k = x) ↔
      ∃ k, Function.update s.restAllocs i r k = x) := by
    intro x h1 h2
    constructor
    · rintro ⟨k, hk⟩
      have hki : k ≠ i := by
        rintro rfl
        rw [Function.update_self] at hk
        exact h1 hk.symm
      exact ⟨k, by rw [Function.update_of_ne hki] at hk ⊢; exact hk⟩
    · rintro ⟨k, hk⟩
      have hki : k ≠ i := by
        rintro rfl
        rw [Function.update_self] at hk
        exact h2 hk.symm
      exact ⟨k, by rw [Function.update_of_ne hki] at hk ⊢; exact hk⟩
  unfold reassignGroup at e
  simp only [hra, hc, Function.update_of_ne hcr] at e
  have hfin : ∀ used : Fin g → Bool, (∀ x, x ≠ c → x ≠ r → used x = (placed s i c).isUsedRest x) →
      used r = true → used c = decide (∃ k, Function.update s.restAllocs i r k = c) →
      used = (placed s i r).isUsedRest := by
    intro used h1 h2 h3
    funext x
    simp only [placed]
    by_cases hxr : x = r
    · rw [hxr, h2]
      exact (decide_eq_true ⟨i, Function.update_self ..⟩).symm
    · by_cases hxc : x = c
      · rw [hxc, h3]
      · rw [h1 x hxc hxr]
        simp only [placed]
        exact decide_eq_decide.mpr (huse x hxc hxr)
  by_cases hu : (placed s i c).isUsedRest r
  · simp only [if_pos hu] at e
    obtain ⟨al, -, e⟩ := bind_eq_ok.mp e
    obtain rfl := Except.ok.inj e
    refine ⟨rfl, rfl, rfl, hfin _ (fun x h1 h2 => ?_) ?_ ?_⟩
    · exact Function.update_of_ne h1 ..
    · dsimp only
      rw [Function.update_of_ne hcr, hu]
    · exact Function.update_self ..
  · simp only [if_neg hu] at e
    obtain ⟨al, -, e⟩ := bind_eq_ok.mp e
    obtain rfl := Except.ok.inj e
    obtain ⟨e1, e2⟩ := h.pseudo r fun k hk hr => hu (by
      simp only [placed, decide_eq_true_eq]
      exact ⟨k, by rw [Function.update_of_ne hk, hr]⟩)
    refine ⟨?_, ?_, rfl, hfin _ (fun x h1 h2 => ?_) ?_ ?_⟩
    · dsimp only
      rw [e1]
      exact Function.update_eq_self r s.rest
    · dsimp only
      rw [e2]
      exact Function.update_eq_self r s.nByTable
    · dsimp only
      rw [Function.update_of_ne h2, Function.update_of_ne h1]
    · exact Function.update_self ..
    · dsimp only
      rw [Function.update_of_ne (Ne.symm hcr), Function.update_self]

/-- **C133, unknown names.** A value of `rest_allocs_update` that is none of the three is not rejected:
the group never moves. -/
theorem c133_unknown_name_violated {M : ℝ} {conc : Fin g → ℝ} {ps : Pseudo g T} {s : State g T}
    {i : Fin g} (h : Ready M conc ps s i) (like : T → Y → ℝ) (data : Fin g → List Y)
    (toState : T → ClusterState d) (upd : String) (h1 : upd ≠ "full") (h2 : upd ≠ "metro_base")
    (h3 : upd ≠ "metro_dist") (c : Fin g) :
    ∃ l, choiceLaw upd M like data conc toState ps (placed s i c) i = .ok l ∧
      ∀ x ∈ l, x.2 = c := by
  obtain ⟨L, hL, -⟩ := restLogWeight_isLogOf h like data c
  have hc : (placed s i c).restAllocs i = c := by simp [placed]
  refine ⟨[(1 * acceptProb L L, c), (1 * (1 - acceptProb L L), c)], ?_, ?_⟩
  · unfold choiceLaw
    simp only [if_neg h1, if_neg h2, if_neg h3, hc]
    unfold metroMove
    rw [List.mapM_cons, hL, ok_bind]
    rfl
  · simp

/-- The hypotheses are met by three restaurants in which three groups eat: the first group moves to
the third restaurant with probability one third. -/
example : ∃ l, choiceLaw (d := 1) "full" 1 (fun t (y : ℝ) => normalLpdf y t.1 (Real.sqrt t.2))
    (fun _ => [0]) (fun _ => 1 / 3) (fun t => .uniLs t.1 t.2)
    ⟨threeRest.rest, threeRest.nByTable⟩ (placed threeRest 0 1) 0 = .ok l ∧
    l.prob (fun x => x = 2) = 1 / 3 := by
  have hR : Ready 1 (fun _ => 1 / 3) ⟨threeRest.rest, threeRest.nByTable⟩ threeRest 0 :=
    ⟨one_pos, fun _ => by norm_num, fun r n hn => by
      simp only [threeRest, List.mem_singleton] at hn
      omega, fun r => by simp [threeRest], fun r _ => ⟨rfl, rfl⟩⟩
  have hW : ∀ r, groupTarget 1 (fun t (y : ℝ) => normalLpdf y t.1 (Real.sqrt t.2))
      (fun _ => [0]) (fun _ => 1 / 3) threeRest (0 : Fin 3) r =
      1 / 6 * Real.exp (normalLpdf 0 1 (Real.sqrt (1 / 2))) := by
    intro r
    unfold groupTarget
    have h1 : normalLpdf 0 (-1) (Real.sqrt (1 / 2)) = normalLpdf 0 1 (Real.sqrt (1 / 2)) := by
      unfold normalLpdf
      norm_num
    by_cases hr : r = 2
    · simp only [threeRest, if_pos hr, List.map_cons, List.map_nil, List.zipWith_cons_cons,
        List.zipWith_nil_right, h1, List.sum_cons, List.sum_nil, List.prod_cons, List.prod_nil]
      norm_num
      ring
    · simp only [threeRest, if_neg hr, List.map_cons, List.map_nil, List.zipWith_cons_cons,
        List.zipWith_nil_right, List.sum_cons, List.sum_nil, List.prod_cons, List.prod_nil]
      norm_num
      ring
  have hpos := Real.exp_pos (normalLpdf 0 1 (Real.sqrt (1 / 2)))
  obtain ⟨l, hl, hp⟩ := c133_full (d := 1) hR (fun t (y : ℝ) => normalLpdf y t.1 (Real.sqrt t.2))
    (fun _ => [0]) (fun t => .uniLs t.1 t.2) (by
      simp only [hW, Fin.sum_univ_three]
      positivity)
  refine ⟨l, hl 1, ?_⟩
  rw [hp]
  simp only [hW, Fin.sum_univ_three]
  field_simp
  norm_num

/-- Two restaurants with one table each. -/
example : ∃ l : Fin 2 → Law (Fin 2), (∀ c, choiceLaw (d := 1) "metro_dist" 1
      (fun t (y : ℝ) => normalLpdf y t.1 (Real.sqrt t.2)) (fun _ => [3]) (fun _ => 1 / 2)
      (fun t => .uniLs t.1 t.2) ⟨fun r => [(((r : ℕ) : ℝ), 1 / 2)], fun _ => [1]⟩
      (placed (⟨fun r => [(((r : ℕ) : ℝ), 1 / 2)], fun r => [(((r : ℕ) : ℝ), 1 / 2)], [], fun _ => [1],
        fun _ => [0], fun k => k, fun _ => true, fun _ => [-1], fun _ => [0], []⟩ : State 2 (ℝ × ℝ))
        0 c) 0 = .ok (l c)) := by
  have hD := mixtureDistance_single (s := (⟨fun r => [(((r : ℕ) : ℝ), 1 / 2)],
    fun r => [(((r : ℕ) : ℝ), 1 / 2)], [], fun _ => [1], fun _ => [0], fun k => k, fun _ => true,
    fun _ => [-1], fun _ => [0], []⟩ : State 2 (ℝ × ℝ))) (m := fun r => ((r : ℕ) : ℝ))
    (fun _ => rfl) (fun _ => rfl)
  have hs : ∀ a b : ℝ, normalLpdf a b 1 = normalLpdf b a 1 := by
    intro a b
    unfold normalLpdf
    ring
  have h0 : ∀ a b : ℝ, normalLpdf a b 1 ≤ normalLpdf 0 0 1 := by
    intro a b
    unfold normalLpdf
    norm_num
    positivity
  obtain ⟨l, hl, -⟩ := c133_metro_dist_two_partial (d := 1) (M := 1) (conc := fun _ => 1 / 2) (i := 0)
    (ps := ⟨fun r : Fin 2 => [(((r : ℕ) : ℝ), 1 / 2)], fun _ => [1]⟩)
    ⟨one_pos, fun _ => by norm_num, fun r n hn => by
      simp only [List.mem_singleton] at hn
      omega, fun r => by simp, fun r _ => ⟨rfl, rfl⟩⟩
    (fun t (y : ℝ) => normalLpdf y t.1 (Real.sqrt t.2)) (fun _ => [3]) _ _ hD
    (fun c r => mul_nonneg two_pos.le (sub_nonneg.mpr (Real.exp_le_exp.mpr (h0 _ _))))
    (fun c r => by rw [hs ((c : ℕ) : ℝ)]) (fun c => by
      have : normalLpdf ((c : ℕ) : ℝ) ((c : ℕ) : ℝ) 1 = normalLpdf 0 0 1 := by
        unfold normalLpdf
        simp
      rw [this]
      ring)
  exact ⟨l, hl⟩

end Bayesmix.SemiHdp
