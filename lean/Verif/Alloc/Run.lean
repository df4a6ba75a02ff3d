import Verif.Alloc.Cache

/-! Lemmas about whole runs: iterations after an initialization. -/

namespace Bayesmix

variable {G H Θ : Type} [AddCommGroup G]

theorem iterate_neal2_ok {E : Env G H Θ} {upd : Bool} {n : ℕ} {s : Alg G H Θ} (zs : List Noise)
    (hn : 2 ≤ n) (hcs : CanSave E upd) (hs : MarginalOk E.contrib n s) :
    ∃ s', iterate (neal2Step E upd n) s zs = .ok s' ∧ MarginalOk E.contrib n s' :=
  foldlM_list_inv _ _ (fun z _ h => neal2Step_ok z hn hcs h) zs s hs

theorem numComponents_pos {c : Setup H Θ} {K : ℕ} (hr : 0 < c.rows)
    (e : numComponents c = .ok K) : 0 < K := by
  unfold numComponents at e
  split at e
  · cases e
  · cases e; exact hr
  · rename_i k hk hm
    cases e
    exact Nat.pos_of_ne_zero (by simpa using hk)

/-- Configurations refused by the hierarchy checks. -/
def HierBad (kind : UpdaterKind) (m : ℕ) (c : Setup H Θ) : Prop :=
  c.rows = 0 ∨ m = 0 ∨ (c.algRequiresConjugate = true ∧ kind ≠ .conjugate) ∨
  (c.hierMultivariate = false ∧ 1 < c.cols) ∨
  (0 < c.hierCovRows ∧ (c.hierDependent = false ∨ c.hierCovRows ≠ c.rows))

/-- Configurations refused by the mixing checks. -/
def MixBad (c : Setup H Θ) : Prop :=
  c.hasMixing = false ∨ c.algConditional ≠ c.mixConditional ∨
  (0 < c.mixCovRows ∧ (c.mixDependent = false ∨ c.mixCovRows ≠ c.rows))

theorem checkHier_bad {kind : UpdaterKind} {m : ℕ} {c : Setup H Θ} (h : HierBad kind m c) :
    checkHier kind m c = .error .throw := by
  unfold checkHier
  split_ifs <;> first | rfl | skip
  · exfalso
    rename_i h1 h2 h3 h4 h5 h6 h7
    rcases h with h | h | ⟨h, h'⟩ | h | ⟨h, h' | h'⟩
    · exact h1 h
    · exact h2 h
    · exact h3 ⟨h', h⟩
    · exact h4 h
    · exact h6 h'
    · exact h7 (Ne.symm h')
  · exfalso
    rename_i h1 h2 h3 h4 h5
    rcases h with h | h | ⟨h, h'⟩ | h | ⟨h, h'⟩
    · exact h1 h
    · exact h2 h
    · exact h3 ⟨h', h⟩
    · exact h4 h
    · exact h5 (by omega)

theorem checkHier_good {kind : UpdaterKind} {m : ℕ} {c : Setup H Θ} (h : ¬ HierBad kind m c) :
    ∃ k, checkHier kind m c = .ok { c with hierCovRows := c.rows, hierCovCols := k } := by
  have h1 : c.rows ≠ 0 := fun e => h (.inl e)
  have h2 : m ≠ 0 := fun e => h (.inr (.inl e))
  have h3 : ¬ (kind ≠ .conjugate ∧ c.algRequiresConjugate) :=
    fun e => h (.inr (.inr (.inl ⟨e.2, e.1⟩)))
  have h4 : ¬ (c.hierMultivariate = false ∧ c.cols > 1) :=
    fun e => h (.inr (.inr (.inr (.inl e))))
  unfold checkHier
  rw [if_neg h1, if_neg h2, if_neg h3, if_neg h4]
  by_cases h5 : c.hierCovRows ≠ 0
  · have h6 : c.hierDependent ≠ false :=
      fun e => h (.inr (.inr (.inr (.inr ⟨by omega, .inl e⟩))))
    have h7 : c.hierCovRows = c.rows := by
      by_contra e; exact h (.inr (.inr (.inr (.inr ⟨by omega, .inr e⟩))))
    rw [if_pos h5, if_neg h6, if_neg (by simp [h7])]
    exact ⟨c.hierCovCols, by cases c; simp_all⟩
  · rw [if_neg h5]; exact ⟨0, rfl⟩

theorem checkMix_bad {c : Setup H Θ} (h : MixBad c) : checkMix c = .error .throw := by
  unfold checkMix
  split_ifs <;> first | rfl | skip
  · exfalso
    rename_i h1 h2 h3 h4 h5
    rcases h with h | h | ⟨h, h' | h'⟩
    · exact h1 h
    · exact h2 h
    · exact h4 h'
    · exact h5 (Ne.symm h')
  · exfalso
    rename_i h1 h2 h3
    rcases h with h | h | ⟨h, h'⟩
    · exact h1 h
    · exact h2 h
    · exact h3 (by omega)

theorem checkMix_good {c : Setup H Θ} (h : ¬ MixBad c) :
    ∃ k, checkMix c = .ok { c with mixCovRows := c.rows, mixCovCols := k } := by
  have h1 : c.hasMixing ≠ false := fun e => h (.inl e)
  have h2 : ¬ (c.algConditional ≠ c.mixConditional) := fun e => h (.inr (.inl e))
  unfold checkMix
  rw [if_neg h1, if_neg h2]
  by_cases h5 : c.mixCovRows ≠ 0
  · have h6 : c.mixDependent ≠ false := fun e => h (.inr (.inr ⟨by omega, .inl e⟩))
    have h7 : c.mixCovRows = c.rows := by
      by_contra e; exact h (.inr (.inr ⟨by omega, .inr e⟩))
    rw [if_pos h5, if_neg h6, if_neg (by simp [h7])]
    exact ⟨c.mixCovCols, by cases c; simp_all⟩
  · rw [if_neg h5]; exact ⟨0, rfl⟩

theorem checkSetup_bad {kind : UpdaterKind} {m : ℕ} {c : Setup H Θ}
    (h : HierBad kind m c ∨ MixBad c) : checkSetup kind m c = .error .throw := by
  by_cases hh : HierBad kind m c
  · rw [checkSetup, checkHier_bad hh]; rfl
  · obtain ⟨k, e⟩ := checkHier_good hh
    rw [checkSetup, e, ok_bind]
    exact checkMix_bad (h.resolve_left hh)

theorem checkSetup_good {kind : UpdaterKind} {m : ℕ} {c : Setup H Θ}
    (h : ¬ HierBad kind m c) (h' : ¬ MixBad c) : ∃ k l, checkSetup kind m c =
      .ok { c with hierCovRows := c.rows, hierCovCols := k, mixCovRows := c.rows, mixCovCols := l } := by
  obtain ⟨k, e⟩ := checkHier_good h
  obtain ⟨l, e'⟩ := checkMix_good
    (c := { c with hierCovRows := c.rows, hierCovCols := k }) h'
  exact ⟨k, l, by rw [checkSetup, e, ok_bind, e']⟩

theorem checkSetup_ok {kind : UpdaterKind} {m : ℕ} {c c' : Setup H Θ}
    (e : checkSetup kind m c = .ok c') : ¬ HierBad kind m c ∧ ¬ MixBad c ∧ ∃ k l, c' =
      { c with hierCovRows := c.rows, hierCovCols := k, mixCovRows := c.rows, mixCovCols := l } := by
  by_cases h : HierBad kind m c ∨ MixBad c
  · rw [checkSetup_bad h] at e; cases e
  · obtain ⟨h1, h2⟩ := not_or.mp h
    obtain ⟨k, l, e'⟩ := checkSetup_good h1 h2
    rw [e] at e'; cases e'
    exact ⟨h1, h2, k, l, rfl⟩

theorem checkSetup_rows {kind : UpdaterKind} {m : ℕ} {c c' : Setup H Θ}
    (e : checkSetup kind m c = .ok c') :
    0 < c.rows ∧ 0 < m ∧ c'.rows = c.rows ∧ c'.hierCovRows = c.rows ∧ c'.mixCovRows = c.rows ∧
      c'.hierInit = c.hierInit ∧ c'.mixInit = c.mixInit ∧ c'.initClusters = c.initClusters ∧
      c'.algUpdatesParams = c.algUpdatesParams ∧ (kind = .conjugate ∨ c.algRequiresConjugate = false) := by
  obtain ⟨h, -, k, l, rfl⟩ := checkSetup_ok e
  refine ⟨Nat.pos_of_ne_zero fun e => h (.inl e), Nat.pos_of_ne_zero fun e => h (.inr (.inl e)),
    rfl, rfl, rfl, rfl, rfl, rfl, rfl, ?_⟩
  by_contra hc
  rw [not_or] at hc
  exact h (.inr (.inr (.inl ⟨by simpa using hc.2, hc.1⟩)))

theorem grow_saved (E : Env G H Θ) (h : H) (r : ℕ → ℕ) (m : ℕ) (o : Hier G H Θ)
    (cl : List (Hier G H Θ)) (e : (List.range m).foldlM (growStep E h r) [o] = .ok cl) :
    cl.countP (·.saved) ≤ 1 := by
  obtain ⟨cl', e', -, h⟩ := foldlM_range_inv (growStep E h r)
    (fun i cl => cl.length = i + 1 ∧ cl.countP (·.saved) ≤ 1) m (by
      rintro i cl hi ⟨hl, hb⟩
      have h0 : 0 < cl.length := by omega
      have hi' : i < (cl ++ [cl[0].clone]).length := by simp; omega
      refine ⟨(cl ++ [cl[0].clone]).set i ((cl ++ [cl[0].clone])[i].samplePrior E h (r i)),
        ?_, by simp [hl], ?_⟩
      · simp [growStep, vget_ok (List.getElem?_eq_getElem h0),
          vget_ok (List.getElem?_eq_getElem hi')]
      · rw [countP_set_same _ _ _ _ _ (List.getElem?_eq_getElem hi')
          (by simp [Hier.samplePrior]), List.countP_append]
        simp [Hier.clone]
        exact hb) [o] (by
      refine ⟨rfl, ?_⟩
      exact List.countP_le_length)
  rw [e] at e'; cases e'
  exact h

theorem initAlloc_saved {E : Env G H Θ} {K n : ℕ} {h0 : H} {θ0 : Θ} {z : InitNoise}
    {o : Hier G H Θ} {s : Alg G H Θ} (hK : 0 < K) (hKn : K ≤ n) (hca : o.CacheOk)
    (e : initAlloc E false K n h0 θ0 z [o] = .ok s) : savedCount s ≤ 1 := by
  have hblank : (initObject E h0 θ0 o).Blank := by
    refine ⟨rfl, rfl, rfl, ?_⟩
    by_cases h : E.kind = .conjugate <;> simp [Hier.CacheOk, initObject, h]
    exact hca
  obtain ⟨cl, e1, hlen, hb⟩ := grow_ok E h0 z.prior (K - 1) (initObject E h0 θ0 o) hblank
  have hsv := grow_saved E h0 z.prior (K - 1) _ cl e1
  have hlen' : cl.length = K := by omega
  set s0 : Alg G H Θ := { alloc := [], clus := cl, hyp := h0 } with hs0
  have hseat0 : Seated E.contrib K 0 s0 := by
    have hm : ∀ k, membersIn (Finset.range 0) ([] : List ℕ) k = ∅ := by
      intro k; simp [membersIn]
    refine ⟨rfl, ⟨by simp, ?_, ?_, ?_⟩, hlen', by simp, fun p hp => (hb p hp).cache⟩
    · intro k p hp; rw [hm]; exact (hb p (List.mem_of_getElem? hp)).idx
    · intro k p hp; rw [hm]; exact (hb p (List.mem_of_getElem? hp)).card
    · intro k p hp; rw [hm]; exact (hb p (List.mem_of_getElem? hp)).ss
  have hstep : ∀ i c (t : Alg G H Θ), i < n → Seated E.contrib K i t → c < K →
      (i < K → c = i) → savedCount t ≤ 1 →
      ∃ t', seat E n t i c = .ok t' ∧ Seated E.contrib K (i + 1) t' ∧ savedCount t' ≤ 1 := by
    intro i c t hi ht hc hown hsv
    obtain ⟨t', e, hst, -⟩ := seated_step hi ht hc hown
    obtain ⟨t'', e'', -, -, -, -, -, hcl⟩ :=
      seat_ok hi ht.len ht.cons (by rw [ht.nclus]; exact hc) ht.caches
    rw [e] at e''; cases e''
    refine ⟨t', e, hst, ?_⟩
    unfold savedCount
    rw [hcl, countP_set_same _ _ _ _ _
      (List.getElem?_eq_getElem (by rw [ht.nclus]; exact hc)) (by simp [Hier.added])]
    exact hsv
  obtain ⟨s1, e2, h1, hh1⟩ := foldlM_range_inv (fun s i => seat E n s i i)
    (fun i s => Seated E.contrib K i s ∧ savedCount s ≤ 1) K (by
      rintro i s hi ⟨hs, hh⟩
      exact hstep i i s (by omega) hs hi (fun _ => rfl) hh) s0 ⟨hseat0, hsv⟩
  obtain ⟨s2, e3, h2, hh2⟩ := foldlM_range_inv (fun s j => seat E n s (K + j) (z.cat j % K))
    (fun j s => Seated E.contrib K (K + j) s ∧ savedCount s ≤ 1) (n - K) (by
      rintro j s hj ⟨hs, hh⟩
      exact hstep (K + j) (z.cat j % K) s (by omega) hs (Nat.mod_lt _ hK) (by omega) hh)
      s1 ⟨h1, hh1⟩
  have hstart : initAlloc E false K n h0 θ0 z [o] = .ok s2 := by
    simp only [initAlloc, vget, List.getElem?_cons_zero, ok_bind, List.set_cons_zero, e1]
    rw [e2, ok_bind, e3, ok_bind]; rfl
  rw [hstart] at e; cases e
  exact hh2

theorem savedCount_uv {E : Env G H Θ} {n : ℕ} {s s' : Alg G H Θ} {r : ℕ → ℕ}
    (hs : MarginalOk E.contrib n s) (e : sampleUniqueValues E false r s = .ok s') :
    savedCount s' = savedCount s := by
  obtain ⟨t, e', -, -, -, hl, -, h⟩ :=
    sampleUniqueValues_ok (E := E) (upd := false) (r := r) hs.cons hs.caches
  rw [e] at e'; cases e'
  unfold savedCount
  have hmap : s'.clus.map (·.saved) = s.clus.map (·.saved) := by
    refine List.ext_getElem? fun k => ?_
    simp only [List.getElem?_map]
    cases hk : s'.clus[k]? with
    | none =>
      have : s.clus[k]? = none := by
        rw [List.getElem?_eq_none_iff] at hk ⊢; omega
      rw [this]
    | some o' =>
      obtain ⟨o, ho, -, -, -, -, hsv⟩ := h k o' hk
      rw [ho]; simp [hsv]
  have h1 := congrArg (List.countP id) hmap
  simpa [List.countP_map, Function.comp_def] using h1

theorem neal2Step_saved {E : Env G H Θ} {n : ℕ} {s s' : Alg G H Θ} {z : Noise}
    (hn : 2 ≤ n) (hs : MarginalOk E.contrib n s) (e : neal2Step E false n s z = .ok s') :
    savedCount s' ≤ savedCount s := by
  obtain ⟨s1, e1, h1, -⟩ := neal2Allocations_ok z.cat hn (canSave_false E) hs
  obtain ⟨s2, s3, e2, e3, h3⟩ := marginal_tail_ok (upd := false) z (by omega) h1
  have : neal2Step E false n s z = .ok s3 := by simp [neal2Step, e1, e2, e3]
  rw [e] at this; cases this
  have a := neal2Allocations_saved hn hs e1
  have b := savedCount_uv h1 e2
  have c : savedCount s' = savedCount s2 := by
    obtain ⟨c2, e2', c3, -⟩ := sampleUniqueValues_ok (E := E) (upd := false) (r := z.uv)
      h1.cons h1.caches
    rw [e2] at e2'; cases e2'
    obtain ⟨h', e3'⟩ := updateHypers_ok (E := E) (r := z.hyp) (clus_pos c3 (by omega))
    rw [e3] at e3'; cases e3'
    rfl
  omega

/-- End of an iteration: each unique value whose cache is fresh or absent just before
the draws was drawn from the posterior of the rows carrying its label. -/
theorem step_drawn {E : Env G H Θ} {upd : Bool} {n : ℕ} {s1 s2 s3 : Alg G H Θ} {z : Noise}
    (hk : E.kind ≠ .other) (hn : 0 < n) (h1 : MarginalOk E.contrib n s1)
    (e2 : sampleUniqueValues E upd z.uv s1 = .ok s2) (e3 : updateHypers E z.hyp s2 = .ok s3)
    (k : ℕ) (o3 : Hier G H Θ) (ho : s3.clus[k]? = some o3)
    (hf : ∀ o, s1.clus[k]? = some o → o.Fresh E s1.hyp ∨ o.saved = false) :
    o3.state = E.sample (E.post s1.hyp ((membersIn (Finset.range n) s3.alloc k).card : ℤ)
      (∑ i ∈ membersIn (Finset.range n) s3.alloc k, E.contrib i)) (z.uv k) := by
  obtain ⟨t, e2', hc2, -, ha, hl, -, h⟩ :=
    sampleUniqueValues_ok (E := E) (upd := upd) (r := z.uv) h1.cons h1.caches
  rw [e2] at e2'; cases e2'
  obtain ⟨h', e3'⟩ := updateHypers_ok (E := E) (r := z.hyp) (clus_pos hc2 hn)
  rw [e3] at e3'; cases e3'
  obtain ⟨o, ho1, hd, -, -, -, -⟩ := h k o3 ho
  have hcard := h1.cons.on.cards k o ho1
  have hss := h1.cons.on.stats k o ho1
  have hne : o.card ≠ 0 := by
    obtain ⟨j, hj, hjk⟩ := h1.noEmpty k (List.getElem?_eq_some_iff.mp ho1).1
    have : 0 < (membersIn (Finset.range n) s1.alloc k).card :=
      Finset.card_pos.mpr ⟨j, mem_membersIn.mpr ⟨hj, hjk⟩⟩
    omega
  rw [Hier.draw_posterior hk hne (hf o ho1) hd]
  show _ = E.sample (E.post s1.hyp ((membersIn (Finset.range n) s2.alloc k).card : ℤ)
      (∑ i ∈ membersIn (Finset.range n) s2.alloc k, E.contrib i)) (z.uv k)
  rw [ha, ← hcard, ← hss]

end Bayesmix
