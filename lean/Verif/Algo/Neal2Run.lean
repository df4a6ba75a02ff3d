import Verif.Algo.PartState
import Verif.Algo.DiscKernel

/-!
# Iterations of Neal2

Means over all draws of `BaseAlgorithm::step` with Neal2 and fixed hyperparameters, and what they are
in terms of partition, values of the rows and stale clusters.
-/

namespace Bayesmix.Chain
open Bayesmix Cond Gibbs SplitMerge Slice MeasureTheory ENNReal

variable {G H Θ : Type} [AddCommGroup G] {n : ℕ}

/-! ### The states that a move can lead to -/

/-- Taking out a row of a state. -/
theorem Seen.detach {E : Env G H Θ} {h : H} {σ : Setoid (Fin n)} {A : Finset (Fin n)} {x : Fin n → Θ}
    {s : Alg G H Θ} (hs : Seen E h σ A x s) (i : Fin n) :
    ∃ s1 o, detach E false s i = .ok (s1, o, decide (o.card ≤ 1)) ∧
      Reduced n i s1.clus.length s1.alloc ∧ s1.hyp = h ∧ CachesOk s1 ∧
      Detached E.contrib (Finset.range n) i s s1 ∧ SameOff i.val σ (partOf n s1.alloc) ∧
      (∀ j : Fin n, j ≠ i → infoOf s1 j = some (x j, if j ∈ A then some h else none)) ∧
      ∀ j : Fin n, j ≠ i → ((s1.alloc[j.val]?).bind fun c => (valuesOf s1)[c]?) = some (x j) := by
  obtain ⟨s1, o, hdet, hR, hh, hca, hd, -, -, -⟩ := detach_place (canSave_false E) hs.ok i.isLt
  have hinf : ∀ j : Fin n, j ≠ i → infoOf s1 j = some (x j, if j ∈ A then some h else none) := by
    intro j hj
    rw [detach_info hs.ok.cons.on (Finset.mem_range.mpr i.isLt) hdet j
      (Finset.mem_erase.mpr ⟨fun e => hj (Fin.ext e), Finset.mem_range.mpr j.isLt⟩), hs.info j]
  refine ⟨s1, o, hdet, hR, hh.trans hs.hyp, hca, hd, ?_, hinf, ?_⟩
  · intro a b ha hb
    rw [← hs.part, partOf_rel, partOf_rel]
    exact (hd.co a (Finset.mem_erase.mpr ⟨ha, Finset.mem_range.mpr a.isLt⟩) b
      (Finset.mem_erase.mpr ⟨hb, Finset.mem_range.mpr b.isLt⟩)).symm
  · intro j hj
    rw [← valueOf_eq, valueOf_info, hinf j hj]
    rfl

/-- The row joins a cluster. -/
theorem seen_old {E : Env G H Θ} {h : H} {A : Finset (Fin n)} {x : Fin n → Θ} {s1 s' : Alg G H Θ}
    {i : Fin n} {c : ℕ} {o : Hier G H Θ} (hR : Reduced n i s1.clus.length s1.alloc)
    (hinf : ∀ j : Fin n, j ≠ i → infoOf s1 j = some (x j, if j ∈ A then some h else none))
    (hok : MarginalOk E.contrib n s') (hh : s'.hyp = h) (ho : s1.clus[c]? = some o)
    (hal : s'.alloc = s1.alloc.set i c) (hcl : s'.clus = s1.clus.set c (o.added E s1.hyp false i)) :
    Seen E h (partOf n (s1.alloc.set i c)) (mark i (partOf n (s1.alloc.set i c)) A)
      (Function.update x i (((valuesOf s1)[c]?).getD (x i))) s' := by
  have hl : i.val < s1.alloc.length := by rw [hR.len]; exact i.isLt
  have hclt : c < s1.clus.length := (List.getElem?_eq_some_iff.mp ho).1
  have hst : staleOf (o.added E s1.hyp false i) = staleOf o := by simp [staleOf, Hier.added]
  have hget : ∀ d : ℕ, (s'.clus[d]?).map (fun o => (o.state, staleOf o)) =
      (s1.clus[d]?).map fun o => (o.state, staleOf o) := by
    intro d
    rw [hcl, List.getElem?_set]
    by_cases hd : c = d
    · subst hd
      rw [if_pos rfl, if_pos hclt, ho]
      simp only [Option.map_some]
      rw [hst]
      rfl
    · rw [if_neg hd]
  have hother : ∀ j : Fin n, j ≠ i → infoOf s' j = some (x j, if j ∈ A then some h else none) := by
    intro j hj
    rw [← hinf j hj]
    unfold infoOf
    rw [hal, List.getElem?_set_ne (fun e => hj (Fin.ext e.symm))]
    congr 1
    funext d
    exact hget d
  have hi : infoOf s' i = some (((valuesOf s1)[c]?).getD (x i), staleOf o) := by
    unfold infoOf
    rw [hal, List.getElem?_set_self hl, Option.bind_some, hget, ho]
    simp [valuesOf, ho]
  refine ⟨hok, hh, by rw [hal], fun j => ?_⟩
  have := mark_info hother hi (fun hno => by
    obtain ⟨y, hy, hyi, e⟩ := hR.used c hclt
    refine absurd ?_ (hno ⟨y, hy⟩ fun e => hyi (by rw [← e]))
    rw [together, hal, List.getElem?_set_self hl, List.getElem?_set_ne (Ne.symm hyi), e]) j
  rwa [hal] at this

/-- The row starts a cluster. -/
theorem seen_new {E : Env G H Θ} {h : H} {A : Finset (Fin n)} {x : Fin n → Θ} {s1 s' : Alg G H Θ}
    {i : Fin n} {o : Hier G H Θ} (hR : Reduced n i s1.clus.length s1.alloc)
    (hinf : ∀ j : Fin n, j ≠ i → infoOf s1 j = some (x j, if j ∈ A then some h else none))
    (hok : MarginalOk E.contrib n s') (hh : s'.hyp = h) (ho : o.saved = false)
    (hal : s'.alloc = s1.alloc.set i s1.clus.length) (hcl : s'.clus = s1.clus ++ [o]) :
    Seen E h (partOf n (s1.alloc.set i s1.clus.length))
      (mark i (partOf n (s1.alloc.set i s1.clus.length)) A) (Function.update x i o.state) s' := by
  have hl : i.val < s1.alloc.length := by rw [hR.len]; exact i.isLt
  have hother : ∀ j : Fin n, j ≠ i → infoOf s' j = some (x j, if j ∈ A then some h else none) := by
    intro j hj
    rw [← hinf j hj]
    unfold infoOf
    obtain ⟨d, hd, e⟩ := hR.lab j j.isLt fun e => hj (Fin.ext e)
    rw [hal, List.getElem?_set_ne (fun e => hj (Fin.ext e.symm)), e, Option.bind_some,
      Option.bind_some, hcl, List.getElem?_append_left hd]
  have hi : infoOf s' i = some (o.state, none) := by
    unfold infoOf
    rw [hal, List.getElem?_set_self hl, Option.bind_some, hcl, List.getElem?_append_right le_rfl]
    simp [staleOf, ho]
  refine ⟨hok, hh, by rw [hal], fun j => ?_⟩
  have := mark_info hother hi (fun _ => rfl) j
  rwa [hal] at this

/-- The moves of Neal2. -/
theorem Seen.neal2 {E : Env G H Θ} (hk : E.kind ≠ .other) (hn : 2 ≤ n) {h : H} {σ : Setoid (Fin n)}
    {A : Finset (Fin n)} {x : Fin n → Θ} {s : Alg G H Θ} (hs : Seen E h σ A x s) {i : Fin n}
    {s1 : Alg G H Θ} {y : Hier G H Θ × Bool} (hdet : Bayesmix.detach E false s i = .ok (s1, y)) :
    (∀ c < s1.clus.length, ∀ rd, ∃ s', neal2Datum E false s i c rd = .ok s' ∧
      Seen E h (partOf n (s1.alloc.set i c)) (mark i (partOf n (s1.alloc.set i c)) A)
        (Function.update x i (((valuesOf s1)[c]?).getD (x i))) s') ∧
    ∀ rd, ∃ s', neal2Datum E false s i s1.clus.length rd = .ok s' ∧
      Seen E h (partOf n (s1.alloc.set i s1.clus.length))
        (mark i (partOf n (s1.alloc.set i s1.clus.length)) A)
        (Function.update x i (E.sample (E.post h 1 (E.contrib i)) rd)) s' := by
  obtain ⟨y1, y2⟩ := y
  obtain ⟨t1, o, hdet', hR, hh, hca, hd, hoff, hinf, -⟩ := hs.detach i
  rw [hdet] at hdet'
  obtain ⟨rfl, -⟩ := Prod.mk.inj (Except.ok.inj hdet')
  have hcs := canSave_false E
  have hpos := hR.pos hn
  have hlen1 : i.val < s1.alloc.length := by rw [hR.len]; exact i.isLt
  obtain ⟨first, hf⟩ : ∃ f, f = s1.clus[0] := ⟨_, rfl⟩
  have hfirst := List.getElem?_eq_getElem hpos
  rw [← hf] at hfirst
  have hok : ∀ c rd s', neal2Datum E false s i c rd = .ok s' → MarginalOk E.contrib n s' ∧ s'.hyp = h := by
    intro c rd s' e
    obtain ⟨s'', e', hr, hne⟩ := neal2Datum_ok (upd := false) c rd hn hcs hs.ok.cons hs.ok.noEmpty
      hs.ok.caches i.isLt
    rw [e] at e'
    cases e'
    exact ⟨⟨hr.cons, hne, hr.caches⟩, hr.hyp.trans hs.hyp⟩
  constructor
  · intro c hc rd
    obtain ⟨s', p, hs', ha, -, hp, hcl⟩ := attach_ok hcs hd.cons (by simp) hlen1 hc hca
    have hmod : c % (s1.clus.length + 1) = c := Nat.mod_eq_of_lt (by omega)
    have hne : c ≠ s1.clus.length := by omega
    have e : neal2Datum E false s i c rd = .ok s' := by
      simp only [neal2Datum, hdet, ok_bind, vget_ok hfirst, categorical_ok _ (Nat.succ_pos _), hmod,
        hne, if_false]
      exact hs'
    obtain ⟨h1, h2⟩ := hok c rd s' e
    exact ⟨s', e, seen_old hR hinf h1 h2 hp ha.alloc hcl⟩
  · intro rd
    have hmod : s1.clus.length % (s1.clus.length + 1) = s1.clus.length :=
      Nat.mod_eq_of_lt (by omega)
    obtain ⟨o', ho'⟩ : ∃ o', o' = ({ first.clone.added E s1.hyp false i with
        state := E.sample (E.post h 1 (E.contrib i)) rd
        ph := some (E.post h 1 (E.contrib i)) } : Hier G H Θ) := ⟨_, rfl⟩
    have hfull : (first.clone.added E s1.hyp false i).sampleFullCond E s1.hyp (!false) rd = .ok o' := by
      rw [ho', ← hh]
      simp [Hier.sampleFullCond, Hier.added, Hier.clone, Hier.getPosterior, hk]
    have e : neal2Datum E false s i s1.clus.length rd = .ok
        { s1 with alloc := s1.alloc.set i s1.clus.length, clus := s1.clus ++ [o'] } := by
      simp only [neal2Datum, hdet, ok_bind, vget_ok hfirst, categorical_ok _ (Nat.succ_pos _), hmod,
        if_true]
      rw [Hier.addDatum_eq (by simp [Hier.clone]) hcs, ok_bind, hfull, ok_bind]
      simp only [List.length_append, List.length_singleton, Nat.add_sub_cancel, vset_ok hlen1, ok_bind]
    obtain ⟨h1, h2⟩ := hok _ rd _ e
    have := seen_new hR hinf h1 h2 (o := o') (by rw [ho']; simp [Hier.added, Hier.clone]) rfl rfl
    refine ⟨_, e, ?_⟩
    rwa [ho'] at this ⊢

/-! ### Means over the draws -/

section means

variable [MeasurableSpace Θ] [Nonempty Θ]

/-- The mean of `g` after Neal2 updated row `i` (`src/algorithms/neal2_algorithm.cc` 29-61): the
label is drawn with the probabilities computed in lines 41-45, the value of a new cluster (line 52)
from the law of a draw with its hyperparameters. Infinite if something fails. -/
noncomputable def neal2RowMean (E : Env G H Θ) (like : Θ → ℕ → ℝ) (S : Scores H) (ν : H → Measure Θ)
    (n i : ℕ) (g : Alg G H Θ → ℝ≥0∞) (s : Alg G H Θ) : ℝ≥0∞ :=
  match (do let (s1, _, _) ← detach E false s i; neal2Probas like S n s1 i) with
  | .error _ => ∞
  | .ok p => ∑ c ∈ Finset.range p.length, ENNReal.ofReal (p.getD c 0) *
      ∫⁻ draw, (match neal2Datum (withDraw E draw) false s i c 0 with
        | .error _ => ∞
        | .ok t => g t) ∂valueDraws ν

/-- The mean of `g` after Neal2 updated the given rows one after the other
(`src/algorithms/neal2_algorithm.cc` 24-62). -/
noncomputable def neal2SweepMean (E : Env G H Θ) (like : Θ → ℕ → ℝ) (S : Scores H)
    (ν : H → Measure Θ) (n : ℕ) : List ℕ → (Alg G H Θ → ℝ≥0∞) → Alg G H Θ → ℝ≥0∞
  | [], g => g
  | i :: is, g => neal2RowMean E like S ν n i (neal2SweepMean E like S ν n is g)

/-- The mean of `g` after the unique values were drawn and the hyperparameters updated
(`src/algorithms/neal2_algorithm.cc` 64-68, `src/algorithms/base_algorithm.cc` 157-168). -/
noncomputable def valuesMean (E : Env G H Θ) (ν : H → Measure Θ) (g : Alg G H Θ → ℝ≥0∞)
    (s : Alg G H Θ) : ℝ≥0∞ :=
  ∫⁻ draw, (match (do
      let s ← sampleUniqueValues (withDraw E draw) false id s
      updateHypers E 0 s) with
    | .error _ => ∞
    | .ok t => g t) ∂valueDraws ν

/-- The mean of `g` after an iteration of Neal2 (`src/algorithms/base_algorithm.h` 179-184); the
mixing is not updated. -/
noncomputable def neal2IterMean (E : Env G H Θ) (like : Θ → ℕ → ℝ) (S : Scores H)
    (ν : H → Measure Θ) (n : ℕ) (g : Alg G H Θ → ℝ≥0∞) : Alg G H Θ → ℝ≥0∞ :=
  neal2SweepMean E like S ν n (List.range n) (valuesMean E ν g)

/-- Places of the chain: the partition and the rows of stale clusters. -/
abbrev Spot (n : ℕ) := Setoid (Fin n) × Finset (Fin n)

/-- The update of row `i` in terms of partition, marks and values. -/
noncomputable def rowOp (w : Setoid (Fin n) → ℝ) (like : Θ → ℕ → ℝ) (ν : Measure Θ) (i : Fin n)
    (Ψ : Spot n → (Fin n → Θ) → ℝ≥0∞) : Spot n → (Fin n → Θ) → ℝ≥0∞ :=
  fun z => rowKernel w like ν i (fun τ y => Ψ (τ, mark i τ z.2) y) z.1

/-- `g` is the function `Ψ` of partition, marks and values. -/
def Reads (E : Env G H Θ) (h : H) (g : Alg G H Θ → ℝ≥0∞) (Ψ : Spot n → (Fin n → Θ) → ℝ≥0∞) : Prop :=
  ∀ σ A x s, Seen E h σ A x s → g s = Ψ (σ, A) x

theorem likOn_ne (like : Θ → ℕ → ℝ) (D : Finset (Fin n)) (x : Fin n → Θ) :
    likOn like D x ≠ 0 ∧ likOn like D x ≠ ∞ := by
  unfold likOn
  exact ⟨(ENNReal.ofReal_pos.mpr (Finset.prod_pos fun _ _ => Real.exp_pos _)).ne',
    ENNReal.ofReal_ne_top⟩

theorem valueDraws_one {ν : H → Measure Θ} {h : H} (hp : IsProbabilityMeasure (ν h)) (r : ℕ)
    {F : Θ → ℝ≥0∞} (hF : Measurable F) :
    ∫⁻ d, F (d (h, r)) ∂valueDraws ν = ∫⁻ t, F t ∂ν h := by
  have e : (valueDraws ν).map (fun d => d (h, r)) = ν h := by
    rw [valueDraws, Measure.infinitePi_map_eval]
    exact properLaw_eq hp
  rw [← e, lintegral_map hF (measurable_pi_apply _)]

theorem neal2Row_reads {E : Env G H Θ} {like : Θ → ℕ → ℝ} {S : Scores H} {ν : H → Measure Θ} {h : H}
    {π : List ℕ → ℝ} (hk : E.kind ≠ .other) (hn : 2 ≤ n) (hlike : ∀ i, Measurable fun θ => like θ i)
    (hπ : ∀ al al' : List ℕ, al.length = n → al'.length = n → SamePart n al al' → π al = π al')
    (hpos : ∀ al : List ℕ, al.length = n → 0 < π al)
    (hpost : ∀ i < n, IsProbabilityMeasure (ν (E.post h 1 (E.contrib i))))
    (hcond : ∀ s, MarginalOk E.contrib n s → s.hyp = h → ∀ i < n, ∃ s1 pl p,
      Neal2Conditional E like S n s i ν π s1 pl p)
    {g : Alg G H Θ → ℝ≥0∞} {Ψ : Spot n → (Fin n → Θ) → ℝ≥0∞} (hΨ : MeasX Ψ) (hg : Reads E h g Ψ)
    (i : Fin n) :
    Reads E h (neal2RowMean E like S ν n i g) (rowOp (weight π) like (ν h) i Ψ) := by
  intro σ A x s hs
  have hpr := hpost i i.isLt
  have hvd : IsProbabilityMeasure (valueDraws ν) := by unfold valueDraws; infer_instance
  obtain ⟨s1, o, hdet, hR, hh, hca, hd, hoff, hinf, hval⟩ := hs.detach i
  obtain ⟨s1', pl, p, hc⟩ := hcond s hs.ok hs.hyp i i.isLt
  obtain ⟨o', sing, htk, -⟩ := hc.taken
  rw [hdet] at htk
  obtain ⟨rfl, -⟩ := Prod.mk.inj (Except.ok.inj htk)
  obtain ⟨Φ, hΦd⟩ : ∃ Φ : Setoid (Fin n) → (Fin n → Θ) → ℝ≥0∞,
    Φ = fun τ y => Ψ (τ, mark i τ A) y := ⟨_, rfl⟩
  have hΦ : MeasP Φ := fun τ => by rw [hΦd]; exact hΨ _
  have hcomp : (do let (s1, _, _) ← detach E false s i; neal2Probas like S n s1 i) = .ok p := by
    rw [hdet]
    exact hc.computed
  have hupd : Measurable fun t : Θ => Function.update x i t := by
    refine measurable_pi_iff.mpr fun j => ?_
    by_cases hj : j = i
    · subst hj
      simpa using measurable_id'
    · simp only [Function.update_of_ne hj]
      exact measurable_const
  have hmove : ∀ draw : H × ℕ → Θ, _ := fun draw =>
    ((Seen.withDraw (E := E) draw).mpr hs).neal2 (E := withDraw E draw) hk hn
      (show detach (withDraw E draw) false s i = .ok (s1, o, decide (o.card ≤ 1)) from hdet)
  have hold : ∀ c < s1.clus.length, (∫⁻ draw, (match neal2Datum (withDraw E draw) false s i c 0 with
        | .error _ => ∞
        | .ok t => g t) ∂valueDraws ν) = atPlace Φ x s1 i (.inl c) := by
    intro c hcl
    have e : ∀ draw : H × ℕ → Θ, (match neal2Datum (withDraw E draw) false s i c 0 with
        | .error _ => ∞
        | .ok t => g t) = atPlace Φ x s1 i (.inl c) := by
      intro draw
      obtain ⟨s', e, hs'⟩ := (hmove draw).1 c hcl 0
      rw [e]
      dsimp only
      rw [hg _ _ _ _ ((Seen.withDraw draw).mp hs'), atPlace, hΦd]
    rw [lintegral_congr e, lintegral_const, measure_univ, mul_one]
  have hnew : (∫⁻ draw, (match neal2Datum (withDraw E draw) false s i s1.clus.length 0 with
        | .error _ => ∞
        | .ok t => g t) ∂valueDraws ν) =
      ∫⁻ t, atPlace Φ x s1 i (.inr t) ∂ν (E.post h 1 (E.contrib i)) := by
    have e : ∀ draw : H × ℕ → Θ, (match neal2Datum (withDraw E draw) false s i s1.clus.length 0 with
        | .error _ => ∞
        | .ok t => g t) = atPlace Φ x s1 i (.inr (draw (E.post h 1 (E.contrib i), 0))) := by
      intro draw
      obtain ⟨s', e, hs'⟩ := (hmove draw).2 0
      rw [e]
      dsimp only
      rw [hg _ _ _ _ ((Seen.withDraw draw).mp hs'), atPlace, hΦd]
      rfl
    rw [lintegral_congr e]
    exact valueDraws_one hpr 0 (F := fun t => atPlace Φ x s1 i (.inr t)) ((hΦ _).comp hupd)
  have hsum : neal2RowMean E like S ν n i g s =
      neal2Kernel s1.clus.length p (ν (E.post h 1 (E.contrib i))) (atPlace Φ x s1 i) := by
    unfold neal2RowMean
    rw [hcomp]
    dsimp only
    rw [hc.length, Finset.sum_range_succ, hnew, neal2Kernel]
    congr 1
    exact Finset.sum_congr rfl fun c hcl => by rw [hold c (Finset.mem_range.mp hcl)]
  have hcd := hc.cond (atPlace Φ x s1 i) ((hΦ _).comp hupd)
  rw [hs.hyp] at hcd
  have hone : (fun _ : Place Θ => (1 : ℝ≥0∞)) = atPlace (fun _ _ => 1) x s1 i := by
    funext q
    cases q <;> rfl
  have hfin := hc.finite
  rw [hs.hyp] at hfin
  rw [hone, target_rowFlow hlike hπ hpos hR hoff hval (Φ := fun _ _ => 1) fun _ => measurable_const] at hfin hcd
  rw [target_rowFlow hlike hπ hpos hR hoff hval hΦ] at hcd
  obtain ⟨l0, l1⟩ := likOn_ne like (Finset.univ.erase i) x
  rw [hsum, rowOp, rowKernel]
  change neal2Kernel _ p _ _ = rowFlow (weight π) like (ν h) i (fun τ y => Ψ (τ, mark i τ A) y) σ x / _
  rw [← hΦd, ENNReal.eq_div_iff (right_ne_zero_of_mul hfin.1) (fun e => hfin.2 (by
    rw [e, ENNReal.mul_top l0]))]
  have : likOn like (Finset.univ.erase i) x * (rowFlow (weight π) like (ν h) i (fun _ _ => 1) σ x *
      neal2Kernel s1.clus.length p (ν (E.post h 1 (E.contrib i))) (atPlace Φ x s1 i)) =
      likOn like (Finset.univ.erase i) x * rowFlow (weight π) like (ν h) i Φ σ x := by
    rw [← hcd]
    ring
  exact (ENNReal.mul_right_inj l0 l1).mp this

end means

end Bayesmix.Chain
