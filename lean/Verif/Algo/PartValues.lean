import Verif.Algo.Neal2Run
import Verif.Algo.BlockedKernel

/-!
# Drawing the unique values, seen through the partition
-/

namespace Bayesmix.Chain
open Bayesmix Cond Gibbs SplitMerge Slice MeasureTheory ENNReal

variable {G H Θ : Type} [AddCommGroup G] {n : ℕ}

open Classical in
/-- The rows of a block. -/
noncomputable def blockRows (σ : Setoid (Fin n)) (q : Quotient σ) : Finset ℕ :=
  (Finset.univ.filter fun j : Fin n => Quotient.mk σ j = q).map Fin.valEmbedding

theorem mem_blockRows {σ : Setoid (Fin n)} {q : Quotient σ} {j : Fin n} :
    j.val ∈ blockRows σ q ↔ Quotient.mk σ j = q := by
  classical
  unfold blockRows
  rw [Finset.mem_map]
  constructor
  · rintro ⟨k, hk, e⟩
    rw [show j = k from (Fin.ext e).symm]
    exact (Finset.mem_filter.mp hk).2
  · exact fun h => ⟨j, Finset.mem_filter.mpr ⟨Finset.mem_univ j, h⟩, rfl⟩

theorem blockRows_nonempty (σ : Setoid (Fin n)) (q : Quotient σ) : (blockRows σ q).Nonempty :=
  ⟨q.out, mem_blockRows.mpr q.out_eq⟩

/-- The hyperparameters from which the value of a block is drawn: those of the prior if its rows are
marked, the posterior ones of its rows otherwise. -/
noncomputable def blockHyp (E : Env G H Θ) (h : H) (z : Spot n) (q : Quotient z.1) : H :=
  if q.out ∈ z.2 then h
  else E.post h (blockRows z.1 q).card (∑ i ∈ blockRows z.1 q, E.contrib i)

variable [MeasurableSpace Θ]

/-- The law of the values of the rows after `sample_unique_values`. -/
noncomputable def valueLaw (E : Env G H Θ) (ν : H → Measure Θ) (h : H) (z : Spot n) :
    Measure (Fin n → Θ) :=
  (Measure.pi fun q : Quotient z.1 => ν (blockHyp E h z q)).map fun θ j => θ (Quotient.mk z.1 j)

omit [AddCommGroup G] in
theorem measurable_rows (σ : Setoid (Fin n)) :
    Measurable fun (θ : Quotient σ → Θ) (j : Fin n) => θ (Quotient.mk σ j) :=
  measurable_pi_iff.mpr fun _ => measurable_pi_apply _

theorem blockHyp_prob {E : Env G H Θ} {like : Θ → ℕ → ℝ} {ν : H → Measure Θ} {h : H}
    (hB : BayesClusters E like ν h) (z : Spot n) (q : Quotient z.1) :
    IsProbabilityMeasure (ν (blockHyp E h z q)) := by
  unfold blockHyp
  split
  · exact hB.prior
  · exact hB.post _ (blockRows_nonempty _ _)

theorem valueLaw_prob {E : Env G H Θ} {like : Θ → ℕ → ℝ} {ν : H → Measure Θ} {h : H}
    (hB : BayesClusters E like ν h) (z : Spot n) : IsProbabilityMeasure (valueLaw E ν h z) := by
  have := blockHyp_prob hB z
  unfold valueLaw
  exact Measure.isProbabilityMeasure_map (measurable_rows z.1).aemeasurable

variable [Nonempty Θ]

theorem values_reads {E : Env G H Θ} {like : Θ → ℕ → ℝ} {ν : H → Measure Θ} {h : H}
    (hk : E.kind ≠ .other) (hn : 0 < n) (hB : BayesClusters E like ν h)
    (hfix : ∀ l r, E.hyperUpdate h l r = h)
    {g : Alg G H Θ → ℝ≥0∞} {Ψ : Spot n → (Fin n → Θ) → ℝ≥0∞} (hΨ : MeasX Ψ) (hg : Reads E h g Ψ) :
    Reads E h (valuesMean E ν g) fun z _ => ∫⁻ y, Ψ z y ∂valueLaw E ν h z := by
  intro σ A x s hs
  obtain ⟨K, hK⟩ : ∃ K, K = s.clus.length := ⟨_, rfl⟩
  -- labels of the rows
  have hlab : ∀ j : Fin n, ∃ c : Fin K, s.alloc[j.val]? = some c.val := by
    intro j
    obtain ⟨c, hc, hlt⟩ := hs.ok.cons.on.labelled j (Finset.mem_range.mpr j.isLt)
    exact ⟨⟨c, by rw [hK]; exact hlt⟩, hc⟩
  choose lab hlabs using hlab
  have hget : ∀ k : Fin K, ∃ o, s.clus[k.val]? = some o := fun k =>
    ⟨_, List.getElem?_eq_getElem (by rw [← hK]; exact k.isLt)⟩
  choose ob hob using hget
  have hrel : ∀ a b, lab a = lab b ↔ σ a b := by
    intro a b
    rw [← hs.part, partOf_rel, together, hlabs, hlabs]
    constructor
    · exact fun e => by rw [e]
    · exact fun e => Fin.ext (Option.some.inj e)
  -- hyperparameters of the draws
  obtain ⟨hy, hhy⟩ : ∃ hy : Fin K → H, hy = fun k =>
    (staleOf (ob k)).getD (E.post h (ob k).card (ob k).ss) := ⟨_, rfl⟩
  obtain ⟨e, he⟩ : ∃ e : Quotient σ → Fin K,
    e = Quotient.lift lab fun a b h => (hrel a b).mpr h := ⟨_, rfl⟩
  have hinj : Function.Injective e := by
    rw [he]
    intro p q
    refine Quotient.inductionOn₂ p q fun a b h => ?_
    exact Quotient.sound ((hrel a b).mp h)
  have hmk : ∀ j, e (Quotient.mk σ j) = lab j := fun j => by rw [he]; rfl
  have hmem : ∀ q : Quotient σ, membersIn (Finset.range n) s.alloc (e q).val = blockRows σ q := by
    intro q
    ext y
    rw [mem_membersIn, Finset.mem_range]
    constructor
    · rintro ⟨hy, hl⟩
      rw [show y = (⟨y, hy⟩ : Fin n).val from rfl, mem_blockRows]
      refine hinj ?_
      rw [hmk]
      have := hlabs ⟨y, hy⟩
      rw [hl] at this
      exact Fin.ext (Option.some.inj this).symm
    · intro hy
      have hyn : y < n := by
        unfold blockRows at hy
        obtain ⟨k, -, rfl⟩ := Finset.mem_map.mp hy
        exact k.isLt
      rw [show y = (⟨y, hyn⟩ : Fin n).val from rfl, mem_blockRows] at hy
      refine ⟨hyn, ?_⟩
      rw [← hy, hmk]
      exact hlabs ⟨y, hyn⟩
  have hinfo : ∀ j : Fin n, (ob (lab j)).state = x j ∧
      staleOf (ob (lab j)) = if j ∈ A then some h else none := by
    intro j
    have := hs.info j
    unfold infoOf at this
    rw [hlabs j, Option.bind_some, hob, Option.map_some] at this
    exact Prod.mk.inj (Option.some.inj this)
  have hhye : ∀ q : Quotient σ, hy (e q) = blockHyp E h (σ, A) q := by
    intro q
    have hq : e q = lab q.out := by rw [← hmk, Quotient.out_eq]
    rw [hhy]
    dsimp only
    rw [blockHyp, ← hmem q, ← hs.ok.cons.on.stats _ _ (hob (e q)),
      ← hs.ok.cons.on.cards _ _ (hob (e q)), hq, (hinfo q.out).2]
    split <;> rfl
  have hsurj : ∀ k : Fin K, ∃ q, e q = k := by
    intro k
    obtain ⟨y, hy, hl⟩ := hs.ok.noEmpty k.val (by rw [← hK]; exact k.isLt)
    refine ⟨Quotient.mk σ ⟨y, Finset.mem_range.mp hy⟩, ?_⟩
    rw [hmk]
    have := hlabs ⟨y, Finset.mem_range.mp hy⟩
    rw [hl] at this
    exact Fin.ext (Option.some.inj this).symm
  have hprob : ∀ k, IsProbabilityMeasure (ν (hy k)) := by
    intro k
    obtain ⟨q, rfl⟩ := hsurj k
    rw [hhye]
    exact blockHyp_prob hB (σ, A) q
  -- the state after the draws
  have hstep : ∀ draw : H × ℕ → Θ, ∃ t, (do
      let s ← sampleUniqueValues (withDraw E draw) false id s
      updateHypers E 0 s) = .ok t ∧
      Seen E h σ A (fun j => draw (hy (lab j), (lab j).val)) t := by
    intro draw
    obtain ⟨t, e1, c1, k1, a1, l1, h1, hcl⟩ := sampleUniqueValues_ok (E := withDraw E draw)
      (upd := false) (r := id) hs.ok.cons hs.ok.caches
    have hup : updateHypers E 0 t = .ok t := by
      rw [updateHypers, vget_ok (List.getElem?_eq_getElem (clus_pos c1 hn)), ok_bind]
      dsimp only
      have ht : t.hyp = h := h1.trans hs.hyp
      rw [ht, hfix, ← ht]
    refine ⟨t, by rw [e1]; exact hup, ⟨c1, noEmpty_congr hs.ok.noEmpty a1 l1, k1⟩,
      h1.trans hs.hyp, by rw [a1, hs.part], fun j => ?_⟩
    unfold infoOf
    rw [a1, hlabs j, Option.bind_some]
    have hlt : (lab j).val < t.clus.length := by rw [l1, ← hK]; exact (lab j).isLt
    obtain ⟨o, ho, hfull, hc, hi, hss, hsv⟩ := hcl (lab j).val _ (List.getElem?_eq_getElem hlt)
    rw [hob] at ho
    cases ho
    rw [List.getElem?_eq_getElem hlt, Option.map_some]
    obtain ⟨o', ho'⟩ : ∃ o', o' = t.clus[(lab j).val] := ⟨_, rfl⟩
    rw [← ho'] at hfull hsv hc hi hss ⊢
    have hca : (ob (lab j)).CacheOk := hs.ok.caches _ (List.mem_of_getElem? (hob _))
    have hcard : (ob (lab j)).card ≠ 0 := by
      rw [hs.ok.cons.on.cards _ _ (hob (lab j))]
      have : j.val ∈ membersIn (Finset.range n) s.alloc (lab j).val :=
        mem_membersIn.mpr ⟨Finset.mem_range.mpr j.isLt, hlabs j⟩
      have := Finset.card_pos.mpr ⟨_, this⟩
      omega
    have hkw : (withDraw E draw).kind ≠ .other := hk
    rw [← (hinfo j).2]
    unfold Hier.sampleFullCond Hier.getPosterior at hfull
    rw [if_neg hkw, if_neg hcard] at hfull
    cases hsav : (ob (lab j)).saved with
    | false =>
      simp only [hsav, Bool.not_false, Bool.and_self, if_true, ok_bind] at hfull
      rw [← Except.ok.inj hfull]
      have hst : staleOf (ob (lab j)) = none := by simp [staleOf, hsav]
      rw [hst, hhy]
      dsimp only
      rw [hst, hs.hyp]
      simp [staleOf, withDraw]
    | true =>
      obtain ⟨p, hp⟩ := Option.isSome_iff_exists.mp (hca hsav)
      simp only [hsav, hp, Bool.not_true, Bool.false_and, if_false, ok_bind,
        Bool.false_eq_true] at hfull
      rw [← Except.ok.inj hfull]
      have hst : staleOf (ob (lab j)) = some p := by simp [staleOf, hsav, hp]
      rw [hst, hhy]
      dsimp only
      rw [hst]
      simp [staleOf, withDraw, hsav]
  have hm : Measurable fun θ : Fin K → Θ => Ψ (σ, A) fun j => θ (lab j) :=
    (hΨ _).comp (measurable_pi_iff.mpr fun j => measurable_pi_apply _)
  have hm2 : Measurable fun (d : H × ℕ → Θ) (k : Fin K) => d (hy k, k.val) :=
    measurable_pi_iff.mpr fun k => measurable_pi_apply _
  have hm3 : Measurable fun θ : Quotient σ → Θ => Ψ (σ, A) fun j => θ (Quotient.mk σ j) :=
    (hΨ _).comp (measurable_rows σ)
  have e1 : ∀ draw : H × ℕ → Θ, (match (do
      let s ← sampleUniqueValues (withDraw E draw) false id s
      updateHypers E 0 s) with
    | .error _ => ∞
    | .ok t => g t) = Ψ (σ, A) fun j => draw (hy (lab j), (lab j).val) := by
    intro draw
    obtain ⟨t, e, ht⟩ := hstep draw
    rw [e]
    exact hg _ _ _ _ ht
  have e0 : valuesMean E ν g s = ∫⁻ draw, Ψ (σ, A) (fun j => draw (hy (lab j), (lab j).val))
      ∂valueDraws ν := lintegral_congr e1
  rw [e0, ← lintegral_map (f := fun θ : Fin K → Θ => Ψ (σ, A) fun j => θ (lab j)) hm hm2,
    valueDraws_select hy hprob]
  dsimp only
  unfold valueLaw
  rw [lintegral_map (hΨ _) (measurable_rows _)]
  have hsel := pi_select (fun k => ν (hy k)) hinj hm3
  have e2 : (fun q => ν (hy (e q))) = fun q : Quotient σ => ν (blockHyp E h (σ, A) q) := by
    funext q
    rw [hhye]
  rw [← e2, ← hsel]
  refine lintegral_congr fun θ => ?_
  simp only [hmk]

end Bayesmix.Chain
