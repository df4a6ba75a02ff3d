import Verif.Algo.PropsGibbsVals
import Verif.Hier.NigLaw
import Mathlib.MeasureTheory.Measure.WithDensity

/-!
# C94: the update of Neal2 is the conditional distribution of the place of one row
-/

namespace Bayesmix.Gibbs
open Bayesmix.SplitMerge Bayesmix.Mixing Bayesmix.Hierarchies MeasureTheory ENNReal

variable {G H Θ : Type} [AddCommGroup G] [MeasurableSpace Θ]

/-- Expectation of `φ` at the place that Neal2 chooses with probabilities `p`; the value of a new
cluster has law `ρ`. -/
noncomputable def neal2Kernel (K : ℕ) (p : List ℝ) (ρ : Measure Θ) (φ : Place Θ → ℝ≥0∞) : ℝ≥0∞ :=
  ∑ c ∈ Finset.range K, ENNReal.ofReal (p.getD c 0) * φ (.inl c) +
    ENNReal.ofReal (p.getD K 0) * ∫⁻ θ, φ (.inr θ) ∂ρ

/-- `ν h` is the law of a draw of a unique value with hyperparameters `h`: likelihood of row `i` times
prior is marginal of row `i` times posterior. -/
structure BayesRow (E : Env G H Θ) (like : Θ → ℕ → ℝ) (pred : H → ℕ → ℝ) (ν : H → Measure Θ) (h : H)
    (i : ℕ) : Prop where
  prior : IsProbabilityMeasure (ν h)
  post : IsProbabilityMeasure (ν (E.post h 1 (E.contrib i)))
  rule : ∀ φ : Θ → ℝ≥0∞, Measurable φ →
    ∫⁻ θ, ENNReal.ofReal (Real.exp (like θ i)) * φ θ ∂(ν h) =
      ENNReal.ofReal (Real.exp (pred h i)) * ∫⁻ θ, φ θ ∂(ν (E.post h 1 (E.contrib i)))

/-- The update of row `i` by Neal2 in state `s`: `p` are the probabilities computed on the state `s1`
without row `i`, and the new place has the conditional distribution given everything else under the
joint density of labels, unique values and data. -/
structure Neal2Conditional (E : Env G H Θ) (like : Θ → ℕ → ℝ) (S : Scores H) (n : ℕ)
    (s : Alg G H Θ) (i : ℕ) (ν : H → Measure Θ) (π : List ℕ → ℝ) (s1 : Alg G H Θ) (pl : Place Θ)
    (p : List ℝ) : Prop where
  taken : ∃ o sing, detach E false s i = .ok (s1, o, sing) ∧ placeOf s i o sing = pl
  current : SameState n s.alloc (labelsAt s1 i pl) (valuesOf s) (valuesAt s1 pl)
  computed : neal2Probas like S n s1 i = .ok p
  sum_one : p.sum = 1
  pos : ∀ q ∈ p, 0 < q
  /-- one choice for each cluster of the other rows and one for a new cluster -/
  length : p.length = s1.clus.length + 1
  old : ∀ c < s1.clus.length, ∀ rd, ∃ s', neal2Datum E false s i c rd = .ok s' ∧
    PutAt E i s1 s' (.inl c)
  /-- the value of a new cluster is a draw with the posterior hyperparameters of row `i` alone -/
  new : ∀ rd, ∃ s', neal2Datum E false s i s1.clus.length rd = .ok s' ∧
    PutAt E i s1 s' (.inr (E.sample (E.post s.hyp 1 (E.contrib i)) rd))
  /-- the normalizing constant -/
  finite : target π like n s1 i (ν s.hyp) (fun _ => 1) ≠ 0 ∧
    target π like n s1 i (ν s.hyp) (fun _ => 1) ≠ ∞
  cond : ∀ φ : Place Θ → ℝ≥0∞, (Measurable fun θ => φ (.inr θ)) →
    neal2Kernel s1.clus.length p (ν (E.post s.hyp 1 (E.contrib i))) φ *
      target π like n s1 i (ν s.hyp) (fun _ => 1) = target π like n s1 i (ν s.hyp) φ

theorem neal2_new {E : Env G H Θ} (hk : E.kind ≠ .other) {n : ℕ} {s : Alg G H Θ} {i : ℕ}
    (hi : i < n) {s1 : Alg G H Θ} {x : Hier G H Θ × Bool}
    (hdet : detach E false s i = .ok (s1, x)) (hh : s1.hyp = s.hyp)
    (hR : Reduced n i s1.clus.length s1.alloc) (hpos : 0 < s1.clus.length) (rd : ℕ) :
    ∃ s', neal2Datum E false s i s1.clus.length rd = .ok s' ∧
      PutAt E i s1 s' (.inr (E.sample (E.post s.hyp 1 (E.contrib i)) rd)) := by
  obtain ⟨x1, x2⟩ := x
  have hcs := canSave_false E
  have hlen1 : i < s1.alloc.length := by rw [hR.len]; exact hi
  have hfirst := List.getElem?_eq_getElem hpos
  obtain ⟨first, hf⟩ : ∃ f, f = s1.clus[0] := ⟨_, rfl⟩
  rw [← hf] at hfirst
  have hmod : s1.clus.length % (s1.clus.length + 1) = s1.clus.length := Nat.mod_eq_of_lt (by omega)
  simp only [neal2Datum, hdet, ok_bind, vget_ok hfirst, categorical_ok _ (Nat.succ_pos _), hmod,
    if_true]
  rw [Hier.addDatum_eq (by simp [Hier.clone]) hcs, ok_bind]
  have hfull : (first.clone.added E s1.hyp false i).sampleFullCond E s1.hyp (!false) rd =
      .ok { first.clone.added E s1.hyp false i with
        state := E.sample (E.post s.hyp 1 (E.contrib i)) rd
        ph := some (E.post s.hyp 1 (E.contrib i)) } := by
    rw [← hh]
    simp [Hier.sampleFullCond, Hier.added, Hier.clone, Hier.getPosterior, hk]
  rw [hfull, ok_bind]
  simp only [List.length_append, List.length_singleton, Nat.add_sub_cancel, vset_ok hlen1, ok_bind]
  exact ⟨_, rfl, putAt_new (o := { first.clone.added E s1.hyp false i with
        state := E.sample (E.post s.hyp 1 (E.contrib i)) rd
        ph := some (E.post s.hyp 1 (E.contrib i)) }) hR (by simp [Hier.added, Hier.clone]) rfl rfl rfl⟩

theorem neal2_old {E : Env G H Θ} {n : ℕ} {s : Alg G H Θ} {i : ℕ} (hi : i < n) {s1 : Alg G H Θ}
    {x : Hier G H Θ × Bool} (hdet : detach E false s i = .ok (s1, x))
    (hR : Reduced n i s1.clus.length s1.alloc) (hca : CachesOk s1)
    (hd : Detached E.contrib (Finset.range n) i s s1) {c : ℕ} (hc : c < s1.clus.length) (rd : ℕ) :
    ∃ s', neal2Datum E false s i c rd = .ok s' ∧ PutAt E i s1 s' (.inl c) := by
  obtain ⟨x1, x2⟩ := x
  have hlen1 : i < s1.alloc.length := by rw [hR.len]; exact hi
  have hfirst := List.getElem?_eq_getElem (show 0 < s1.clus.length by omega)
  have hmod : c % (s1.clus.length + 1) = c := Nat.mod_eq_of_lt (by omega)
  have hne : c ≠ s1.clus.length := by omega
  obtain ⟨s', p, hs', ha, -, hp, hcl⟩ :=
    attach_ok (canSave_false E) hd.cons (by simp) hlen1 hc hca
  simp only [neal2Datum, hdet, ok_bind, vget_ok hfirst, categorical_ok _ (Nat.succ_pos _), hmod, hne,
    if_false]
  exact ⟨s', hs', putAt_existing hR hd.cons hp ha.alloc ha.hyp hcl⟩

/-- Integral over the value of a new cluster. -/
theorem newWeight_bayes {E : Env G H Θ} {like : Θ → ℕ → ℝ} {S : Scores H} {ν : H → Measure Θ}
    {h : H} {i : ℕ} (hlike : Measurable fun θ => like θ i)
    (hb : BayesRow E like S.pred ν h i) (n : ℕ) (s1 : Alg G H Θ) {φ : Θ → ℝ≥0∞}
    (hφ : Measurable φ) :
    ∫⁻ θ, newWeight like S n s1 i θ * φ θ ∂(ν h) =
      ENNReal.ofReal (Real.exp (S.fresh (n - 1) s1.clus.length + S.pred h i)) *
        ∫⁻ θ, φ θ ∂(ν (E.post h 1 (E.contrib i))) := by
  have hm : Measurable fun θ => ENNReal.ofReal (Real.exp (like θ i)) * φ θ :=
    (ENNReal.measurable_ofReal.comp (Real.measurable_exp.comp hlike)).mul hφ
  have e : ∀ θ, newWeight like S n s1 i θ * φ θ =
      ENNReal.ofReal (Real.exp (S.fresh (n - 1) s1.clus.length)) *
        (ENNReal.ofReal (Real.exp (like θ i)) * φ θ) := by
    intro θ
    rw [newWeight, Real.exp_add, ENNReal.ofReal_mul (Real.exp_pos _).le, mul_assoc]
  rw [lintegral_congr e, lintegral_const_mul _ hm, hb.rule φ hφ, Real.exp_add,
    ENNReal.ofReal_mul (Real.exp_pos _).le, mul_assoc]

/-- The probabilities of Neal2 as weights. -/
theorem neal2Probas_eq {like : Θ → ℕ → ℝ} {S : Scores H} {n i : ℕ} {s1 : Alg G H Θ}
    (hpos : 0 < s1.clus.length) :
    ∃ p, neal2Probas like S n s1 i = .ok p ∧ p.length = s1.clus.length + 1 ∧ p.sum = 1 ∧
      (∀ q ∈ p, 0 < q) ∧ ∃ T : ℝ, 0 < T ∧ ENNReal.ofReal T =
        (∑ c ∈ Finset.range s1.clus.length, exWeight like S n s1 i c) +
          ENNReal.ofReal (Real.exp (S.fresh (n - 1) s1.clus.length + S.pred s1.hyp i)) ∧
      (∀ c < s1.clus.length, ENNReal.ofReal (p.getD c 0) * ENNReal.ofReal T =
        exWeight like S n s1 i c) ∧
      ENNReal.ofReal (p.getD s1.clus.length 0) * ENNReal.ofReal T =
        ENNReal.ofReal (Real.exp (S.fresh (n - 1) s1.clus.length + S.pred s1.hyp i)) := by
  obtain ⟨l, hl⟩ : ∃ l, l = s1.clus.map (fun o => S.exist (n - 1) s1.clus.length o.card +
      like o.state i) ++ [S.fresh (n - 1) s1.clus.length + S.pred s1.hyp i] := ⟨_, rfl⟩
  have hzip : List.zipWith (· + ·) (clusterPriorMass S n s1)
      (s1.clus.map (fun o => like o.state i) ++ [S.pred s1.hyp i]) = l := by
    rw [hl, clusterPriorMass, List.zipWith_append (by simp), List.zipWith_map]
    simp
  have hp : neal2Probas like S n s1 i = .ok (softmax l) := by
    rw [neal2Probas, neal2ClusterLpdf, vget_ok (List.getElem?_eq_getElem hpos), ok_bind, ok_bind,
      hzip]
  have hll : l.length = s1.clus.length + 1 := by rw [hl]; simp
  obtain ⟨T, hT⟩ : ∃ T, T = (l.map Real.exp).sum := ⟨_, rfl⟩
  have hTpos : 0 < T := by
    rw [hT]
    apply List.sum_pos _ (by simp [Real.exp_pos])
    intro h
    have := congrArg List.length h
    simp [hl] at this
  have hget : ∀ (k : ℕ) x, l[k]? = some x →
      ENNReal.ofReal ((softmax l).getD k 0) * ENNReal.ofReal T = ENNReal.ofReal (Real.exp x) := by
    intro k x hx
    rw [List.getD_eq_getElem?_getD, softmax, List.getElem?_map, hx, Option.map_some,
      Option.getD_some, ← hT, ← ENNReal.ofReal_mul (div_pos (Real.exp_pos _) hTpos).le,
      div_mul_cancel₀ _ hTpos.ne']
  refine ⟨softmax l, hp, by rw [softmax_length, hll], softmax_sum (by intro h; simp [h] at hll), ?_,
    T, hTpos, ?_, ?_, ?_⟩
  · intro q hq
    simp only [softmax, List.mem_map] at hq
    obtain ⟨x, hx, rfl⟩ := hq
    exact div_pos (Real.exp_pos _) (by rw [← hT]; exact hTpos)
  · have h0 : ∀ x ∈ l.map Real.exp, 0 ≤ x := by
      intro x hx
      obtain ⟨y, -, rfl⟩ := List.mem_map.mp hx
      exact (Real.exp_pos y).le
    rw [hT, ofReal_list_sum h0, hl]
    simp only [List.map_append, List.map_map, List.sum_append, Function.comp_def, List.map_cons,
      List.map_nil, List.sum_cons, List.sum_nil, add_zero]
    rw [sum_map_range]
    rfl
  · intro c hc
    rw [hget c _ (by
      rw [hl, List.getElem?_append_left (by simpa using hc), List.getElem?_map,
        List.getElem?_eq_getElem hc, Option.map_some]),
      exWeight, List.getElem?_eq_getElem hc, Option.map_some, Option.getD_some]
  · exact hget _ _ (by rw [hl, List.getElem?_append_right (by simp)]; simp)

/-- The kernel of Neal2 times the sum of the weights, and the joint density. -/
theorem neal2_core (E : Env G H Θ) {like : Θ → ℕ → ℝ} (S : Scores H) {n : ℕ} (hn : 2 ≤ n)
    (hk : E.kind ≠ .other) {s : Alg G H Θ} (hs : MarginalOk E.contrib n s) {i : ℕ} (hi : i < n)
    (hlike : Measurable fun θ => like θ i) (ν : H → Measure Θ)
    (hbayes : BayesRow E like S.pred ν s.hyp i) :
    ∃ s1 pl p, Reduced n i s1.clus.length s1.alloc ∧
      (∀ c o, s1.clus[c]? = some o → o.card = ((others n i s1.alloc c).card : ℤ)) ∧
      (∃ o sing, detach E false s i = .ok (s1, o, sing) ∧ placeOf s i o sing = pl) ∧
      neal2Probas like S n s1 i = .ok p ∧
      (∀ c < s1.clus.length, exWeight like S n s1 i c ≠ 0 ∧ exWeight like S n s1 i c ≠ ∞) ∧
      (∃ T : ℝ, 0 < T ∧ ENNReal.ofReal T =
        (∑ c ∈ Finset.range s1.clus.length, exWeight like S n s1 i c) +
          ENNReal.ofReal (Real.exp (S.fresh (n - 1) s1.clus.length + S.pred s1.hyp i)) ∧
        ∀ φ : Place Θ → ℝ≥0∞, (Measurable fun θ => φ (.inr θ)) →
          neal2Kernel s1.clus.length p (ν (E.post s.hyp 1 (E.contrib i))) φ * ENNReal.ofReal T =
            flow like S n s1 i (ν s.hyp) φ) ∧
      ∀ (π : List ℕ → ℝ) (κ : ℝ) (A B : ℕ → ℝ), 0 < κ → 0 < A s1.clus.length → (∀ c, 0 < B c) →
      (∀ al : List ℕ, al.length = n → π al = κ * prodPost A (sizeW B) al) →
      (1 ≤ s1.clus.length → A (s1.clus.length + 1) * B 1 =
        A s1.clus.length * Real.exp (S.fresh (n - 1) s1.clus.length)) →
      (∀ c : ℕ, 1 ≤ c → B (c + 1) = B c * Real.exp (S.exist (n - 1) s1.clus.length c)) →
      Neal2Conditional E like S n s i ν π s1 pl p := by
  have := hbayes.post
  obtain ⟨s1, o, hdet, hR, hh, hca, hd, hcard, -, hcur⟩ := detach_place (canSave_false E) hs hi
  have hpos := hR.pos hn
  obtain ⟨p, hp, hplen, hpsum, hppos, T, hT, hTsum, hpc, hpK⟩ :=
    neal2Probas_eq (like := like) (S := S) (n := n) (i := i) hpos
  have hkern : ∀ φ : Place Θ → ℝ≥0∞, (Measurable fun θ => φ (.inr θ)) →
      neal2Kernel s1.clus.length p (ν (E.post s.hyp 1 (E.contrib i))) φ * ENNReal.ofReal T =
        flow like S n s1 i (ν s.hyp) φ := by
    intro φ hφ
    rw [neal2Kernel, flow, newWeight_bayes hlike hbayes n s1 hφ, add_mul, Finset.sum_mul]
    congr 1
    · refine Finset.sum_congr rfl fun c hc => ?_
      rw [← hpc c (Finset.mem_range.mp hc)]
      ring
    · rw [← hh, ← hpK]
      ring
  refine ⟨s1, placeOf s i o (decide (o.card ≤ 1)), p, hR, hcard, ⟨o, _, hdet, rfl⟩, hp, ?_,
    ⟨T, hT, hTsum, hkern⟩, ?_⟩
  · intro c hc
    rw [exWeight, List.getElem?_eq_getElem hc, Option.map_some, Option.getD_some]
    exact ⟨(ENNReal.ofReal_pos.mpr (Real.exp_pos _)).ne', ENNReal.ofReal_ne_top⟩
  intro π κ A B hκ hAp hB0 hπ hA hB
  obtain ⟨b, hb, h1, h2⟩ := joint_places (like := like) (S := S) hR hcard hκ hAp hB0 hπ
    (hA hpos) hB
  have hflow : ∀ φ : Place Θ → ℝ≥0∞, (Measurable fun θ => φ (.inr θ)) →
      target π like n s1 i (ν s.hyp) φ = ENNReal.ofReal b * flow like S n s1 i (ν s.hyp) φ := by
    intro φ hφ
    rw [target_flow (r := 1) hb one_pos hlike h1 (by simpa using h2) hφ, flow, ENNReal.ofReal_one,
      one_mul]
  have hone : flow like S n s1 i (ν s.hyp) (fun _ => 1) = ENNReal.ofReal T := by
    have hm : Measurable fun _ : Θ => (1 : ℝ≥0∞) := measurable_const
    rw [flow, newWeight_bayes hlike hbayes n s1 hm, hTsum, hh]
    simp
  have hb0 : ENNReal.ofReal b ≠ 0 := (ENNReal.ofReal_pos.mpr hb).ne'
  have hT0 : ENNReal.ofReal T ≠ 0 := (ENNReal.ofReal_pos.mpr hT).ne'
  refine ⟨⟨o, _, hdet, rfl⟩, hcur, hp, hpsum, hppos, hplen,
    fun c hc rd => neal2_old hi hdet hR hca hd hc rd,
    fun rd => neal2_new hk hi hdet hh hR hpos rd, ?_, ?_⟩
  · rw [hflow _ measurable_const, hone]
    exact ⟨mul_ne_zero hb0 hT0, ENNReal.mul_ne_top ENNReal.ofReal_ne_top ENNReal.ofReal_ne_top⟩
  · intro φ hφ
    rw [hflow _ measurable_const, hflow _ hφ, hone, ← hkern φ hφ]
    ring

/-- `t` is a state in which Neal2 is about to update row `i`. -/
def Reaches2 (E : Env G H Θ) (K n : ℕ) (h0 : H) (θ0 : Θ) (i : ℕ) (t : Alg G H Θ) : Prop :=
  ∃ (zi : InitNoise) (u : Hier G H Θ) (s0 s : Alg G H Θ) (zs : List Noise) (ω : ℕ → ℕ × ℕ),
    u.saved = false ∧ initAlloc E false K n h0 θ0 zi [u] = .ok s0 ∧
    iterate (neal2Step E false n) s0 zs = .ok s ∧ neal2Allocations E false i ω s = .ok t

omit [MeasurableSpace Θ] in
theorem reaches2_ok {E : Env G H Θ} {K n : ℕ} (hn : 2 ≤ n) {h0 : H} {θ0 : Θ} (hK : 0 < K)
    (hKn : K ≤ n) {i : ℕ} (hi : i < n) {t : Alg G H Θ} (hr : Reaches2 E K n h0 θ0 i t) {P : H → Prop}
    (h0P : P h0) (hP : ∀ h l r, P h → P (E.hyperUpdate h l r)) :
    MarginalOk E.contrib n t ∧ P t.hyp := by
  obtain ⟨zi, u, s0, s, zs, ω, hu, hinit, hrun, hpre⟩ := hr
  have hcs := canSave_false E
  obtain ⟨t0, e0, hm0, -, hh0, -⟩ := initAlloc_ok (E := E) (upd := false) (h0 := h0) (θ0 := θ0)
    zi (o := u) hcs hK hKn (by simp [Hier.CacheOk, hu])
  rw [hinit] at e0; cases e0
  obtain ⟨s', e, h1, h2⟩ := foldlM_list_inv (neal2Step E false n)
    (fun t => MarginalOk E.contrib n t ∧ P t.hyp)
    (fun z t ht => by
      obtain ⟨a, ea, ha, hah⟩ := neal2Allocations_ok z.cat hn hcs ht.1
      obtain ⟨a2, a3, e2, e3, hm3⟩ := marginal_tail_ok (upd := false) z (by omega) ha
      refine ⟨a3, by simp [neal2Step, ea, e2, e3], hm3, ?_⟩
      obtain ⟨c2, e2', c3, -, -, -, ch, -⟩ := sampleUniqueValues_ok (E := E) (upd := false)
        (r := z.uv) ha.cons ha.caches
      rw [e2] at e2'; cases e2'
      rw [updateHypers, vget_ok (List.getElem?_eq_getElem (clus_pos c3 (by omega))), ok_bind] at e3
      cases e3
      exact hP _ _ _ (by rw [ch, hah]; exact ht.2)) zs s0 ⟨hm0, by rw [hh0]; exact h0P⟩
  have : iterate (neal2Step E false n) s0 zs = .ok s' := e
  rw [hrun] at this; cases this
  obtain ⟨t', e', h3⟩ := foldlM_range_inv
    (fun s i => neal2Datum E false s i (ω i).1 (ω i).2)
    (fun _ s' => MarginalOk E.contrib n s' ∧ P s'.hyp) i (by
      intro j s' hj h1
      obtain ⟨s'', e, hr, hne⟩ := neal2Datum_ok (upd := false) (ω j).1 (ω j).2 hn hcs h1.1.cons
        h1.1.noEmpty h1.1.caches (by omega : j < n)
      exact ⟨s'', e, ⟨hr.cons, hne, hr.caches⟩, by rw [hr.hyp]; exact h1.2⟩) s ⟨h1, h2⟩
  have : neal2Allocations E false i ω s = .ok t' := e'
  rw [hpre] at this; cases this
  exact h3

/-- **C94, Pitman-Yor process.** Neal2 with a (semi-)conjugate updater whose posterior and marginal
are correct for one row, in every state that a run can be in when row `i` is about to be updated. -/
theorem c94_neal2_pitman_yor (E : Env G H Θ) (like : Θ → ℕ → ℝ)
    (hlike : ∀ i, Measurable fun θ => like θ i) (ν : H → Measure Θ)
    (pred : H → ℕ → ℝ) (hk : E.kind ≠ .other) {a b : ℝ}
    {py : PYState} (hpy : pyInit a b = .ok py) (K n : ℕ) (hn : 2 ≤ n) (hK : 0 < K) (hKn : K ≤ n)
    (h0 : H) (θ0 : Θ) (i : ℕ) (hi : i < n) (s : Alg G H Θ) (hs : Reaches2 E K n h0 θ0 i s)
    (hbayes : BayesRow E like pred ν s.hyp i) :
    ∃ s1 pl p, Neal2Conditional E like (pyScores pred py) n s i ν (pyPrior py) s1 pl p := by
  have hs := (reaches2_ok hn hK hKn hi hs (P := fun _ => True) trivial fun _ _ _ _ => trivial).1
  obtain ⟨rfl, p1, p2, p3⟩ := pyInit_ok hpy
  have hst : -1 < a := by linarith
  obtain ⟨s1, pl, p, -, -, -, -, -, -, hall⟩ := neal2_core E (pyScores pred ⟨a, b⟩) hn hk hs hi
    (hlike i) ν hbayes
  exact ⟨s1, pl, p, hall _ (pyD ⟨a, b⟩ n)⁻¹ (pyA ⟨a, b⟩) (pyB ⟨a, b⟩)
    (inv_pos.mpr (pyD_pos hst n)) (pyA_pos p1 p2 _) (fun c => pyB_pos p3 c)
    (pyPrior_prod hst (by omega)) (fun h1 => py_fresh pred p1 p2 _ h1)
    (fun c hc => py_exist pred p3 _ _ hc)⟩

/-- **C94, Dirichlet process, what the code targets**: the joint density with total mass one. -/
theorem c94_neal2_dirichlet_partial (E : Env G H Θ) (like : Θ → ℕ → ℝ)
    (hlike : ∀ i, Measurable fun θ => like θ i) (ν : H → Measure Θ)
    (pred : H → ℕ → ℝ) (hk : E.kind ≠ .other)
    {prior : DPPrior} {dp : DPState} (hdp : DPRun prior dp) (K n : ℕ) (hn : 2 ≤ n) (hK : 0 < K)
    (hKn : K ≤ n) (h0 : H) (θ0 : Θ) (i : ℕ) (hi : i < n) (s : Alg G H Θ)
    (hs : Reaches2 E K n h0 θ0 i s) (hbayes : BayesRow E like pred ν s.hyp i) :
    ∃ s1 pl p, Neal2Conditional E like (dpScores pred dp) n s i ν (dpPrior 1) s1 pl p := by
  have hs := (reaches2_ok hn hK hKn hi hs (P := fun _ => True) trivial fun _ _ _ _ => trivial).1
  obtain ⟨s1, pl, p, -, -, -, -, -, -, hall⟩ := neal2_core E (dpScores pred dp) hn hk hs hi
    (hlike i) ν hbayes
  refine ⟨s1, pl, p, hall _ (pyD ⟨1, 0⟩ n)⁻¹ (pyA ⟨1, 0⟩) (pyB ⟨1, 0⟩)
    (inv_pos.mpr (pyD_pos (by norm_num) n)) (pyA_pos (by norm_num) le_rfl _)
    (fun c => pyB_pos one_pos c) (dpPrior_prod one_pos (by omega)) (fun h1 => ?_)
    (fun c hc => dp_exist pred dp _ _ hc)⟩
  rw [dp_fresh pred hdp, pyA_succ ⟨1, 0⟩ h1]
  simp [pyB]

/-- **C94, Dirichlet process, violation.** For every configured total mass other than one the update
is not the conditional distribution under the joint density of the configured model. -/
theorem c94_neal2_dirichlet_violated (E : Env G H Θ) (like : Θ → ℕ → ℝ)
    (hlike : ∀ i, Measurable fun θ => like θ i) (ν : H → Measure Θ)
    (pred : H → ℕ → ℝ) (hk : E.kind ≠ .other)
    {prior : DPPrior} {dp : DPState} (hdp : DPRun prior dp) (hmass : dp.totalmass ≠ 1) (K n : ℕ)
    (hn : 2 ≤ n) (hK : 0 < K) (hKn : K ≤ n) (h0 : H) (θ0 : Θ) (i : ℕ) (hi : i < n)
    (s : Alg G H Θ) (hs : Reaches2 E K n h0 θ0 i s) (hbayes : BayesRow E like pred ν s.hyp i) :
    ¬ ∃ s1 pl p, Neal2Conditional E like (dpScores pred dp) n s i ν (dpPrior dp.totalmass) s1 pl p := by
  rintro ⟨t1, pl', q, hc⟩
  have := hbayes.post
  have hs := (reaches2_ok hn hK hKn hi hs (P := fun _ => True) trivial fun _ _ _ _ => trivial).1
  obtain ⟨s1, pl, p, hR, hcard, ⟨o, sing, hdet, -⟩, hp, hex, ⟨T, hT, hTsum, hkern⟩, -⟩ :=
    neal2_core E (dpScores pred dp) hn hk hs hi (hlike i) ν hbayes
  obtain ⟨o', sing', hdet', -⟩ := hc.taken
  rw [hdet] at hdet'
  have et : s1 = t1 := (Prod.mk.inj (Except.ok.inj hdet')).1
  subst et
  have hp' := hc.computed
  rw [hp] at hp'
  have ep : p = q := Except.ok.inj hp'
  subst ep
  have hα := hdp.pos.1
  obtain ⟨α, hαd⟩ : ∃ α, α = dp.totalmass := ⟨_, rfl⟩
  rw [← hαd] at hα hmass hc
  obtain ⟨b, hb, h1, h2⟩ := joint_places (π := dpPrior α) (like := like)
    (S := { dpScores pred dp with fresh := fun _ _ => Real.log α }) hR hcard
    (κ := (pyD ⟨α, 0⟩ n)⁻¹) (A := pyA ⟨α, 0⟩) (B := pyB ⟨1, 0⟩)
    (inv_pos.mpr (pyD_pos (by simp only; linarith) n))
    (pyA_pos (by simpa using hα) le_rfl _) (fun c => pyB_pos one_pos c)
    (dpPrior_prod hα (by omega))
    (by
      have := pyA_succ ⟨α, 0⟩ (hR.pos hn)
      simp only [zero_mul, add_zero] at this
      rw [this, Real.exp_log hα]
      simp [pyB])
    (fun c hc => dp_exist pred dp (n - 1) s1.clus.length hc)
  have h2' : ∀ θ, joint (dpPrior α) like n (labelsAt s1 i (.inr θ)) (valuesAt s1 (.inr θ)) =
      b * α * Real.exp ((dpScores pred dp).fresh (n - 1) s1.clus.length + like θ i) := by
    intro θ
    rw [h2 θ, dp_fresh pred hdp, Real.exp_add, Real.exp_log hα, zero_add, mul_assoc]
  obtain ⟨W, hW⟩ : ∃ W, W = ∑ c ∈ Finset.range s1.clus.length,
      exWeight like (dpScores pred dp) n s1 i c := ⟨_, rfl⟩
  have hWtop : W ≠ ∞ := by
    rw [hW]
    exact ENNReal.sum_ne_top.mpr fun c hc => (hex c (Finset.mem_range.mp hc)).2
  have hW0 : W ≠ 0 := by
    intro h
    rw [hW] at h
    exact (hex 0 (hR.pos hn)).1 ((Finset.sum_eq_zero_iff.mp h) 0 (Finset.mem_range.mpr (hR.pos hn)))
  obtain ⟨w, hw⟩ : ∃ w, w = ENNReal.ofReal (Real.exp ((dpScores pred dp).fresh (n - 1)
    s1.clus.length + (dpScores pred dp).pred s.hyp i)) := ⟨_, rfl⟩
  have hw0 : w ≠ 0 := by rw [hw]; exact (ENNReal.ofReal_pos.mpr (Real.exp_pos _)).ne'
  have hwtop : w ≠ ∞ := by rw [hw]; exact ENNReal.ofReal_ne_top
  have hhyp : s1.hyp = s.hyp := by
    obtain ⟨t1, o2, hd2, -, hh, -⟩ := detach_place (canSave_false E) hs hi
    rw [hd2] at hdet; cases hdet
    exact hh
  rw [hhyp, ← hW, ← hw] at hTsum
  obtain ⟨φ, hφd⟩ : ∃ φ : Place Θ → ℝ≥0∞, φ = Sum.elim (fun _ => 1) (fun _ => 0) := ⟨_, rfl⟩
  have hφ : Measurable fun θ => φ (.inr θ) := by rw [hφd]; simp
  have hm1 : Measurable fun _ : Θ => (1 : ℝ≥0∞) := measurable_const
  have e1 := hc.cond φ hφ
  have e2 := hkern φ hφ
  have e3 : flow like (dpScores pred dp) n s1 i (ν s.hyp) φ = W := by
    rw [flow, hφd, hW]; simp
  have e4 : target (dpPrior α) like n s1 i (ν s.hyp) φ = ENNReal.ofReal b * W := by
    rw [target_flow (S := dpScores pred dp) hb hα (hlike i) h1 h2' hφ, hφd, hW]; simp
  have e5 : target (dpPrior α) like n s1 i (ν s.hyp) (fun _ => 1) =
      ENNReal.ofReal b * (W + ENNReal.ofReal α * w) := by
    rw [target_flow (S := dpScores pred dp) hb hα (hlike i) h1 h2' (φ := fun _ => 1) hm1,
      newWeight_bayes (hlike i) hbayes n s1 hm1, hW, hw]
    simp
  rw [e3, hTsum] at e2
  rw [e4, e5] at e1
  obtain ⟨k, hkd⟩ : ∃ k, k = neal2Kernel s1.clus.length p (ν (E.post s.hyp 1 (E.contrib i))) φ :=
    ⟨_, rfl⟩
  rw [← hkd] at e1 e2
  have hb0 : ENNReal.ofReal b ≠ 0 := (ENNReal.ofReal_pos.mpr hb).ne'
  have e6 : k * (W + ENNReal.ofReal α * w) = W := by
    refine (ENNReal.mul_right_inj hb0 ENNReal.ofReal_ne_top).mp ?_
    rw [← e1]; ring
  have hk0 : k ≠ 0 := by
    rintro rfl
    rw [zero_mul] at e2
    exact hW0 e2.symm
  have hktop : k ≠ ∞ := by
    rintro rfl
    rw [ENNReal.top_mul (by simp [hW0])] at e2
    exact hWtop e2.symm
  have e7 : W + ENNReal.ofReal α * w = W + w :=
    (ENNReal.mul_right_inj hk0 hktop).mp (e6.trans e2.symm)
  have e8 := (ENNReal.add_right_inj hWtop).mp e7
  have e9 : ENNReal.ofReal α = 1 := by
    have : ENNReal.ofReal α * w = 1 * w := by rw [e8, one_mul]
    exact (ENNReal.mul_left_inj hw0 hwtop).mp this
  rw [ENNReal.ofReal_eq_one] at e9
  exact hmass e9

/-- Hyperparameters that `NIGPriorModel::initialize_hyperparams` accepts. -/
def NigValid (h : NIG) : Prop := 0 < h.varScaling ∧ 0 < h.shape ∧ 0 < h.scale

theorem nnig_bayesRow (y : ℕ → ℝ) (draw : NIG → ℕ → UniLS)
    (hyp : NIG → List (UniLS × ℤ) → ℕ → NIG) {h : NIG} (hv : NigValid h) (i : ℕ) :
    BayesRow (nnigEnv y draw hyp) (fun st i => uniNormLpdf st (y i))
      (fun h i => nnigMargLpdf h (y i)) nigLaw h i := by
  refine ⟨nigLaw_prob h hv.1 hv.2.1 hv.2.2, ?_, fun φ hφ => nigLaw_bayes h hv.1 hv.2.1 hv.2.2 (y i) hφ⟩
  obtain ⟨p1, p2, p3⟩ := nnig_post_pos h hv.1 hv.2.1 hv.2.2 y {i}
  simp only [Finset.card_singleton, Finset.sum_singleton, Nat.cast_one] at p1 p2 p3
  exact nigLaw_prob _ p1 p2 p3

/-- **C94, normal model.** Neal2 with the Normal - Normal-inverse-Gamma hierarchy and Pitman-Yor
mixing, from every accepted choice of hyperparameters: the densities of the prior model, of the
likelihood and the marginal density used for a new cluster fit together, so that no assumption on the
hierarchy is left. -/
theorem c94_neal2_nnig (y : ℕ → ℝ) (draw : NIG → ℕ → UniLS)
    (hyp : NIG → List (UniLS × ℤ) → ℕ → NIG) (hhyp : ∀ h l r, NigValid h → NigValid (hyp h l r))
    (prior : NIGPrior) (h0 : NIG) (hp : nigInit prior = .ok h0) {a b : ℝ}
    {py : PYState} (hpy : pyInit a b = .ok py) (K n : ℕ) (hn : 2 ≤ n) (hK : 0 < K) (hKn : K ≤ n)
    (θ0 : UniLS) (i : ℕ) (hi : i < n) (s : Alg (ℝ × ℝ) NIG UniLS)
    (hs : Reaches2 (nnigEnv y draw hyp) K n h0 θ0 i s) :
    ∃ s1 pl p, Neal2Conditional (nnigEnv y draw hyp) (fun st i => uniNormLpdf st (y i))
      (pyScores (fun h i => nnigMargLpdf h (y i)) py) n s i nigLaw (pyPrior py) s1 pl p := by
  have hv := (reaches2_ok hn hK hKn hi hs (P := NigValid) (nigInit_pos hp) hhyp).2
  exact c94_neal2_pitman_yor _ _ (fun i => measurable_uniNormLpdf (y i)) _ _ (by simp [nnigEnv]) hpy
    K n hn hK hKn h0 θ0 i hi s hs (nnig_bayesRow y draw hyp hv i)

theorem reaches2_example (y : ℕ → ℝ) (draw : NIG → ℕ → UniLS) (θ0 : UniLS) (zi : InitNoise)
    (o : Hier (ℝ × ℝ) NIG UniLS) (ho : o.saved = false) :
    ∃ s, Reaches2 (nnigEnv y draw (fun h _ _ => h)) 2 3 ⟨0, 1, 2, 1⟩ θ0 0 s ∧
      s.alloc.length = 3 := by
  obtain ⟨s, e, hs, -⟩ := initAlloc_ok (E := nnigEnv y draw (fun h _ _ => h)) (upd := false) (K := 2)
    (n := 3) (h0 := ⟨0, 1, 2, 1⟩) (θ0 := θ0) zi (o := o) (canSave_false _) (by omega)
    (by omega) (by simp [Hier.CacheOk, ho])
  exact ⟨s, ⟨zi, o, s, s, [], fun _ => (0, 0), ho, e, rfl, rfl⟩, hs.cons.len⟩

/-- Non-vacuity: three rows, two clusters at the start. -/
example (y : ℕ → ℝ) (draw : NIG → ℕ → UniLS) (θ0 : UniLS) (zi : InitNoise)
    (o : Hier (ℝ × ℝ) NIG UniLS) (ho : o.saved = false) :
    ∃ s s1 pl p, Reaches2 (nnigEnv y draw (fun h _ _ => h)) 2 3 ⟨0, 1, 2, 1⟩ θ0 0 s ∧
      Neal2Conditional (nnigEnv y draw (fun h _ _ => h)) (fun st i => uniNormLpdf st (y i))
        (pyScores (fun h i => nnigMargLpdf h (y i)) ⟨1, 1 / 2⟩) 3 s 0 nigLaw (pyPrior ⟨1, 1 / 2⟩) s1
        pl p := by
  obtain ⟨s, hs, -⟩ := reaches2_example y draw θ0 zi o ho
  obtain ⟨s1, pl, p, h⟩ := c94_neal2_nnig y draw (fun h _ _ => h) (fun _ _ _ h => h)
    (.fixed 0 1 2 1) _ (nigInit_fixed (by norm_num) (by norm_num) (by norm_num)) (a := 1)
    (b := 1 / 2) (py := ⟨1, 1 / 2⟩) (by norm_num [pyInit]) 2 3 (by omega) (by omega) (by omega) θ0 0
    (by omega) s hs
  exact ⟨s, s1, pl, p, hs, h⟩

example (y : ℕ → ℝ) (draw : NIG → ℕ → UniLS) (θ0 : UniLS) (zi : InitNoise)
    (o : Hier (ℝ × ℝ) NIG UniLS) (ho : o.saved = false) :
    ∃ s s1 pl p, Reaches2 (nnigEnv y draw (fun h _ _ => h)) 2 3 ⟨0, 1, 2, 1⟩ θ0 0 s ∧
      Neal2Conditional (nnigEnv y draw (fun h _ _ => h)) (fun st i => uniNormLpdf st (y i))
        (dpScores (fun h i => nnigMargLpdf h (y i)) ⟨2, 0⟩) 3 s 0 nigLaw (dpPrior 1) s1 pl p := by
  obtain ⟨s, hs, -⟩ := reaches2_example y draw θ0 zi o ho
  have hv := (reaches2_ok (by omega) (by omega) (by omega) (by omega) hs (P := NigValid)
    ⟨by norm_num, by norm_num, by norm_num⟩ fun _ _ _ h => h).2
  obtain ⟨s1, pl, p, h⟩ := c94_neal2_dirichlet_partial (nnigEnv y draw fun h _ _ => h) _
    (fun i => measurable_uniNormLpdf (y i)) nigLaw _ (by simp [nnigEnv]) (prior := .fixed 2)
    (dp := ⟨2, 0⟩) (.init (by norm_num [dpInit, dpFresh])) 2 3 (by omega) (by omega) (by omega) _ θ0 0
    (by omega) s hs (nnig_bayesRow y draw (fun h _ _ => h) hv 0)
  exact ⟨s, s1, pl, p, hs, h⟩

example (y : ℕ → ℝ) (draw : NIG → ℕ → UniLS) (θ0 : UniLS) (zi : InitNoise)
    (o : Hier (ℝ × ℝ) NIG UniLS) (ho : o.saved = false) :
    ∃ s, Reaches2 (nnigEnv y draw (fun h _ _ => h)) 2 3 ⟨0, 1, 2, 1⟩ θ0 0 s ∧
      ¬ ∃ s1 pl p, Neal2Conditional (nnigEnv y draw (fun h _ _ => h))
        (fun st i => uniNormLpdf st (y i))
        (dpScores (fun h i => nnigMargLpdf h (y i)) ⟨2, 0⟩) 3 s 0 nigLaw (dpPrior 2) s1 pl p := by
  obtain ⟨s, hs, -⟩ := reaches2_example y draw θ0 zi o ho
  have hv := (reaches2_ok (by omega) (by omega) (by omega) (by omega) hs (P := NigValid)
    ⟨by norm_num, by norm_num, by norm_num⟩ fun _ _ _ h => h).2
  exact ⟨s, hs, c94_neal2_dirichlet_violated (nnigEnv y draw fun h _ _ => h) _
    (fun i => measurable_uniNormLpdf (y i)) nigLaw _ (by simp [nnigEnv]) (prior := .fixed 2)
    (dp := ⟨2, 0⟩) (.init (by norm_num [dpInit, dpFresh])) (by norm_num) 2 3 (by omega) (by omega)
    (by omega) _ θ0 0 (by omega) s hs (nnig_bayesRow y draw (fun h _ _ => h) hv 0)⟩

end Bayesmix.Gibbs
