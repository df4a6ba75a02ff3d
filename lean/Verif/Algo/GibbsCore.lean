import Verif.Algo.GibbsLemmas

/-! The Neal3 update of one row and product weights over partitions. -/

namespace Bayesmix.Gibbs
open Bayesmix.SplitMerge

variable {G H Θ : Type} [AddCommGroup G]

theorem reduced_of {f : ℕ → G} {n i : ℕ} {s s1 : Alg G H Θ} (hi : i < n)
    (hlen : s.alloc.length = n) (hd : Detached f (Finset.range n) i s s1)
    (hne : NoEmptyOn (Finset.range n) s) : Reduced n i s1.clus.length s1.alloc := by
  refine ⟨hd.len.trans hlen, hi, ?_, ?_⟩
  · intro x hx hxi
    obtain ⟨c, h1, h2⟩ := hd.cons.labelled x (by simp [hx, hxi])
    exact ⟨c, h2, h1⟩
  · intro c hc
    obtain ⟨x, hx, h⟩ := hd.noEmpty hne c hc
    simp only [Finset.mem_erase, Finset.mem_range] at hx
    exact ⟨x, hx.2, hx.1, h⟩

theorem Reduced.pos {n i K : ℕ} {al : List ℕ} (h : Reduced n i K al) (hn : 2 ≤ n) : 0 < K := by
  obtain ⟨j, hjn, hji⟩ : ∃ j, j < n ∧ j ≠ i := by
    by_cases h : i = 0
    · exact ⟨1, by omega, by omega⟩
    · exact ⟨0, by omega, by omega⟩
  obtain ⟨c, hc, -⟩ := h.lab j hjn hji
  omega

theorem Reduced.others_pos {n i K : ℕ} {al : List ℕ} (h : Reduced n i K al) {c : ℕ} (hc : c < K) :
    (others n i al c).Nonempty := by
  obtain ⟨x, hx, hxi, e⟩ := h.used c hc
  exact ⟨x, mem_membersIn.mpr ⟨by simp [hx, hxi], e⟩⟩

/-- Labels after the update. -/
theorem neal2Datum_alloc {E : Env G H Θ} {upd : Bool} {n : ℕ} {s s1 s' : Alg G H Θ} {i c rd : ℕ}
    {x : Hier G H Θ × Bool} (hlen : s.alloc.length = n) (hi : i < n)
    (hl : s1.alloc.length = s.alloc.length) (hdet : detach E upd s i = .ok (s1, x))
    (e : neal2Datum E upd s i c rd = .ok s') :
    s'.alloc = s1.alloc.set i (c % (s1.clus.length + 1)) := by
  have hlen1 : i < s1.alloc.length := by omega
  obtain ⟨x1, x2⟩ := x
  simp only [neal2Datum, hdet, ok_bind] at e
  cases hf : vget s1.clus 0 with
  | error f => rw [hf, error_bind] at e; cases e
  | ok first =>
    rw [hf, ok_bind, categorical_ok _ (Nat.succ_pos _), ok_bind] at e
    by_cases hc : c % (s1.clus.length + 1) = s1.clus.length
    · rw [if_pos hc] at e
      cases ha : first.clone.addDatum E s1.hyp upd i with
      | error f => rw [ha, error_bind] at e; cases e
      | ok o =>
        rw [ha, ok_bind] at e
        cases hb : o.sampleFullCond E s1.hyp (!upd) rd with
        | error f => rw [hb, error_bind] at e; cases e
        | ok o' =>
          simp only [hb, ok_bind, vset_ok hlen1] at e
          have := Except.ok.inj e
          rw [← this, hc]
          simp
    · rw [if_neg hc] at e
      simp only [attach, vset_ok hlen1, ok_bind] at e
      cases ha : vget s1.clus (c % (s1.clus.length + 1)) with
      | error f => rw [ha, error_bind] at e; cases e
      | ok o =>
        rw [ha, ok_bind] at e
        cases hb : o.addDatum E s1.hyp upd i with
        | error f => rw [hb, error_bind] at e; cases e
        | ok o' =>
          rw [hb, ok_bind] at e
          rw [← Except.ok.inj e]

theorem mapM_ok {α β : Type} (f : α → Except Fault β) (g : α → β) (l : List α)
    (h : ∀ a ∈ l, f a = .ok (g a)) : l.mapM f = .ok (l.map g) := by
  induction l with
  | nil => rfl
  | cons a l ih =>
    rw [List.mapM_cons, h a (by simp), ok_bind, ih (fun b hb => h b (by simp [hb])), ok_bind]
    rfl

/-- Weight of a cluster. -/
noncomputable def blockW (B : ℕ → ℝ) (m : Finset ℕ → ℝ) (D : Finset ℕ) : ℝ :=
  B D.card * Real.exp (m D)

/-- The probabilities of the choices for one row are the weights of the resulting partitions,
normalized. -/
theorem gibbs_core (E : Env G H Θ) (S : Scores H) (hk : E.kind ≠ .other) {n : ℕ} (hn : 2 ≤ n)
    {s : Alg G H Θ} (hs : MarginalOk E.contrib n s) (hf : ∀ o ∈ s.clus, o.Fresh E s.hyp)
    {i : ℕ} (hi : i < n) {m : Finset ℕ → ℝ} (hm : MargLik E S s.hyp m) :
    ∃ s1 x p, detach E true s i = .ok (s1, x) ∧ neal3Probas E S n s1 i = .ok p ∧
      Reduced n i s1.clus.length s1.alloc ∧ SameOthers n i s1.alloc s.alloc ∧
      p.length = s1.clus.length + 1 ∧ p.sum = 1 ∧ (∀ q ∈ p, 0 < q) ∧
      ∀ A B : ℕ → ℝ,
      A (s1.clus.length + 1) * B 1 = A s1.clus.length * Real.exp (S.fresh (n - 1) s1.clus.length) →
      (∀ c : ℕ, 1 ≤ c → B (c + 1) = B c * Real.exp (S.exist (n - 1) s1.clus.length c)) →
      (∀ c, B c ≠ 0) → ∀ c q, p[c]? = some q →
        q * ∑ d ∈ Finset.range p.length, prodPost A (blockW B m) (s1.alloc.set i d) =
          prodPost A (blockW B m) (s1.alloc.set i c) := by
  have hcs : CanSave E true := fun _ => hk
  have hiA : i ∈ Finset.range n := Finset.mem_range.mpr hi
  obtain ⟨s1, cO, o, hdet, hd, hl, ho, hsing, hrem⟩ := detach_ok hcs hs.cons.on hiA
  have hR := reduced_of hi hs.cons.len hd hs.noEmpty
  have hpos := hR.pos hn
  have hf1 : ∀ o ∈ s1.clus, o.Fresh E s1.hyp := by
    rw [hd.hyp]
    intro p hp
    by_cases h : o.card ≤ 1
    · rw [hsing h] at hp
      exact hf p (List.mem_of_mem_eraseIdx hp)
    · rw [hrem h] at hp
      rcases List.mem_or_eq_of_mem_set hp with hp | rfl
      · exact hf p hp
      · exact Hier.fresh_removed E s.hyp i o
  have hpred : ∀ o ∈ s1.clus, condPred E S s1.hyp o i = .ok (S.pred (E.post s1.hyp o.card o.ss) i) := by
    intro p hp
    have := hf1 p hp
    simp [condPred, Hier.getPosterior, this.1, this.2]
  have hlp : neal3ClusterLpdf E S s1 i =
      .ok (s1.clus.map (fun o => S.pred (E.post s1.hyp o.card o.ss) i) ++ [S.pred s1.hyp i]) := by
    rw [neal3ClusterLpdf, mapM_ok _ _ _ hpred, ok_bind, vget_ok (List.getElem?_eq_getElem hpos),
      ok_bind]
  obtain ⟨l, hldef⟩ : ∃ l, l = s1.clus.map (fun o => S.exist (n - 1) s1.clus.length o.card +
      S.pred (E.post s1.hyp o.card o.ss) i) ++ [S.fresh (n - 1) s1.clus.length + S.pred s1.hyp i] :=
    ⟨_, rfl⟩
  have hzip : List.zipWith (· + ·) (clusterPriorMass S n s1)
      (s1.clus.map (fun o => S.pred (E.post s1.hyp o.card o.ss) i) ++ [S.pred s1.hyp i]) = l := by
    rw [hldef, clusterPriorMass, List.zipWith_append (by simp), List.zipWith_map]
    simp
  have hp : neal3Probas E S n s1 i = .ok (softmax l) := by
    rw [neal3Probas, hlp, ok_bind, hzip]
  have hll : l.length = s1.clus.length + 1 := by rw [hldef]; simp
  refine ⟨s1, _, softmax l, hdet, hp, hR, ?_, ?_, ?_, ?_, ?_⟩
  · intro x hx y hy hxi hyi
    exact hd.co x (by simp [hxi, hx]) y (by simp [hyi, hy])
  · rw [softmax_length, hll]
  · exact softmax_sum (by intro h; simp [h] at hll)
  · intro q hq
    simp only [softmax, List.mem_map] at hq
    obtain ⟨x, hx, rfl⟩ := hq
    exact div_pos (Real.exp_pos _) (List.sum_pos _ (by simp [Real.exp_pos])
      (by simpa using List.ne_nil_of_mem hx))
  intro A B hA hB hB0 c q hq
  rw [softmax_length]
  have hW : ∀ D, blockW B m D ≠ 0 := fun D => mul_ne_zero (hB0 _) (Real.exp_ne_zero _)
  refine softmax_weights (w := fun d => prodPost A (blockW B m) (s1.alloc.set i d))
    (b := A s1.clus.length * ∏ k ∈ Finset.range s1.clus.length, blockW B m (others n i s1.alloc k))
    ?_ hq
  intro c x hx
  have hcl : c < l.length := (List.getElem?_eq_some_iff.mp hx).1
  by_cases hc : c < s1.clus.length
  · simp only [prodPost_existing A hW hR hc]
    congr 1
    rw [hldef, List.getElem?_append_left (by simpa using hc), List.getElem?_map,
      List.getElem?_eq_getElem hc, Option.map_some] at hx
    have hx := Option.some.inj hx
    have ho := List.getElem?_eq_getElem hc
    have e1 := hd.cons.cards c _ ho
    have e2 := hd.cons.stats c _ ho
    have hne := hR.others_pos hc
    have hni : i ∉ others n i s1.alloc c := by simp [others, mem_membersIn]
    change _ = ((others n i s1.alloc c).card : ℤ) at e1
    change _ = ∑ y ∈ others n i s1.alloc c, E.contrib y at e2
    have hms := hm.step (others n i s1.alloc c) i hne hni
    rw [← hx, e1, e2, blockW, blockW, Finset.card_insert_of_notMem hni, hms, hd.hyp,
      hB _ (Finset.card_pos.mpr hne), Real.exp_add, Real.exp_add]
    have h0 := hB0 (others n i s1.alloc c).card
    have h1 := Real.exp_ne_zero (m (others n i s1.alloc c))
    field_simp
  · have hcK : c = s1.clus.length := by omega
    subst hcK
    simp only [prodPost_new A _ hR]
    rw [hldef, List.getElem?_append_right (by simp)] at hx
    simp only [List.length_map, Nat.sub_self, List.getElem?_cons_zero] at hx
    rw [← Option.some.inj hx, blockW, Finset.card_singleton, hm.single, Real.exp_add, hd.hyp]
    linear_combination
      (∏ k ∈ Finset.range s1.clus.length, blockW B m (others n i s1.alloc k)) *
        Real.exp (S.pred s.hyp i) * hA

end Bayesmix.Gibbs
