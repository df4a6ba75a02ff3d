import Verif.Algo.PropsNeal8Chain
import Verif.Algo.PropsBlockedHyper

/-!
# Marginal samplers with a Normal prior on the mean of the base measure
-/

namespace Bayesmix.Chain
open Bayesmix Cond Gibbs SplitMerge Slice Mixing Hierarchies MeasureTheory ENNReal

section general

variable {G H Θ : Type} [AddCommGroup G] {n : ℕ}

/-- The values of the blocks, in some order. -/
noncomputable def blockValues (σ : Setoid (Fin n)) (x : Fin n → Θ) : List Θ :=
  (Finset.univ : Finset (Quotient σ)).toList.map fun q => x q.out

/-- The values that `update_hypers` is given are those of the blocks. -/
theorem Seen.blockStates {E : Env G H Θ} {h : H} {σ : Setoid (Fin n)} {A : Finset (Fin n)}
    {x : Fin n → Θ} {s : Alg G H Θ} (hs : Seen E h σ A x s) :
    (((s.clus.filter fun o => o.card > 0).map fun o => (o.state, o.card)).map Prod.fst).Perm
      (blockValues σ x) := by
  obtain ⟨K, hK⟩ : ∃ K, K = s.clus.length := ⟨_, rfl⟩
  have hlab : ∀ j : Fin n, ∃ c : Fin K, s.alloc[j.val]? = some c.val := by
    intro j
    obtain ⟨c, hc, hlt⟩ := hs.ok.cons.on.labelled j (Finset.mem_range.mpr j.isLt)
    exact ⟨⟨c, by rw [hK]; exact hlt⟩, hc⟩
  choose lab hlabs using hlab
  have hrel : ∀ a b, lab a = lab b ↔ σ a b := by
    intro a b
    rw [← hs.part, partOf_rel, together, hlabs, hlabs]
    constructor
    · exact fun e => by rw [e]
    · exact fun e => Fin.ext (Option.some.inj e)
  obtain ⟨e, he⟩ : ∃ e : Quotient σ → Fin K,
    e = Quotient.lift lab fun a b h => (hrel a b).mpr h := ⟨_, rfl⟩
  have hinj : Function.Injective e := by
    rw [he]
    intro p q
    refine Quotient.inductionOn₂ p q fun a b h => ?_
    exact Quotient.sound ((hrel a b).mp h)
  have hmk : ∀ j, e (Quotient.mk σ j) = lab j := fun j => by rw [he]; rfl
  have hsurj : ∀ k : Fin K, ∃ q, e q = k := by
    intro k
    obtain ⟨y, hy, hl⟩ := hs.ok.noEmpty k.val (by rw [← hK]; exact k.isLt)
    refine ⟨Quotient.mk σ ⟨y, Finset.mem_range.mp hy⟩, ?_⟩
    rw [hmk]
    have := hlabs ⟨y, Finset.mem_range.mp hy⟩
    rw [hl] at this
    exact Fin.ext (Option.some.inj this).symm
  have hfilt : (s.clus.filter fun o => o.card > 0) = s.clus := by
    rw [List.filter_eq_self]
    intro o ho
    obtain ⟨k, hk⟩ := List.getElem?_of_mem ho
    have hlt : k < s.clus.length := (List.getElem?_eq_some_iff.mp hk).1
    obtain ⟨y, hy, hl⟩ := hs.ok.noEmpty k hlt
    have hc := hs.ok.cons.on.cards _ _ hk
    have : 0 < (membersIn (Finset.range n) s.alloc k).card :=
      Finset.card_pos.mpr ⟨y, mem_membersIn.mpr ⟨hy, hl⟩⟩
    simp only [gt_iff_lt, decide_eq_true_eq]
    omega
  have hval : ∀ q : Quotient σ, (s.clus[(e q).val]?).map (fun o => o.state) = some (x q.out) := by
    intro q
    have hq : e q = lab q.out := by rw [← hmk, Quotient.out_eq]
    have := hs.info q.out
    unfold infoOf at this
    rw [hlabs q.out, Option.bind_some] at this
    rw [hq]
    cases hc : s.clus[(lab q.out).val]? with
    | none => rw [hc] at this; simp at this
    | some o =>
      rw [hc, Option.map_some] at this
      rw [Option.map_some, (Prod.mk.inj (Option.some.inj this)).1]
  have hperm : ((Finset.univ : Finset (Quotient σ)).toList.map e).Perm (List.finRange K) := by
    rw [List.perm_ext_iff_of_nodup ((Finset.nodup_toList _).map hinj) (List.nodup_finRange K)]
    intro k
    obtain ⟨q, rfl⟩ := hsurj k
    simp only [List.mem_map, Finset.mem_toList, Finset.mem_univ, true_and, List.mem_finRange, iff_true]
    exact ⟨q, rfl⟩
  rw [hfilt, List.map_map]
  have hclus : s.clus.map (Prod.fst ∘ fun o => (o.state, o.card)) =
      (List.finRange K).map fun k => (s.clus[k.val]'(by rw [← hK]; exact k.isLt)).state := by
    apply List.ext_getElem (by simp [hK])
    intro k h1 h2
    simp
  rw [hclus]
  refine (hperm.symm.map _).trans ?_
  rw [List.map_map, blockValues]
  refine List.Perm.of_eq (List.map_congr_left fun q _ => ?_)
  have hlt : (e q).val < s.clus.length := by rw [← hK]; exact (e q).isLt
  have := hval q
  rw [List.getElem?_eq_getElem hlt, Option.map_some] at this
  exact Option.some.inj this

theorem Seen.saved {E : Env G H Θ} {h : H} {σ : Setoid (Fin n)} {A : Finset (Fin n)}
    {x : Fin n → Θ} {s : Alg G H Θ} (hs : Seen E h σ A x s) :
    (∀ o ∈ s.clus, o.saved = false) ↔ A = ∅ := by
  constructor
  · intro hall
    rw [Finset.eq_empty_iff_forall_notMem]
    intro j hj
    have := hs.info j
    unfold infoOf at this
    rw [if_pos hj] at this
    cases ha : s.alloc[j.val]? with
    | none => rw [ha] at this; simp at this
    | some c =>
      rw [ha, Option.bind_some] at this
      cases hc : s.clus[c]? with
      | none => rw [hc] at this; simp at this
      | some o =>
        rw [hc, Option.map_some] at this
        have h2 := (Prod.mk.inj (Option.some.inj this)).2
        rw [staleOf, hall o (List.mem_of_getElem? hc)] at h2
        simp at h2
  · rintro rfl o ho
    obtain ⟨k, hk⟩ := List.getElem?_of_mem ho
    have hlt : k < s.clus.length := (List.getElem?_eq_some_iff.mp hk).1
    obtain ⟨y, hy, hl⟩ := hs.ok.noEmpty k hlt
    have := hs.info ⟨y, Finset.mem_range.mp hy⟩
    unfold infoOf at this
    rw [hl, Option.bind_some, hk, Option.map_some] at this
    have h2 := (Prod.mk.inj (Option.some.inj this)).2
    simp only [Finset.notMem_empty, if_false] at h2
    by_contra hne
    rw [Bool.not_eq_false] at hne
    obtain ⟨p, hp⟩ := Option.isSome_iff_exists.mp (hs.ok.caches o ho hne)
    rw [staleOf, hne, hp] at h2
    simp at h2

theorem Seen.rowValues {E : Env G H Θ} {h : H} {σ : Setoid (Fin n)} {A : Finset (Fin n)}
    {x : Fin n → Θ} {s : Alg G H Θ} (hs : Seen E h σ A x s) (d : Θ) : rowValues n d s = x := by
  funext j
  unfold Chain.rowValues
  rw [valueOf_info, hs.info j]
  rfl

/-- The mean of `g` after the hyperparameters were updated (`src/algorithms/base_algorithm.cc`
157-168), the noise `z` of the generator being distributed according to `ζ`. Infinite if something
fails. -/
noncomputable def hyperMean {Z : Type} [MeasurableSpace Z] (up : Z → Env G H Θ) (ζ : Measure Z)
    (g : Alg G H Θ → ℝ≥0∞) (t : Alg G H Θ) : ℝ≥0∞ :=
  ∫⁻ z, (match updateHypers (up z) 0 t with
    | .error _ => ∞
    | .ok t' => g t') ∂ζ

/-- A function of hyperparameters, partition and values, infinite if a cluster has saved
hyperparameters. -/
noncomputable def observeH (d : Θ) (φ : H → Setoid (Fin n) → (Fin n → Θ) → ℝ≥0∞)
    (t : Alg G H Θ) : ℝ≥0∞ :=
  if ∀ o ∈ t.clus, o.saved = false then φ t.hyp (partOf n t.alloc) (rowValues n d t) else ∞

/-- The update of the hyperparameters in terms of partition, marks and values. -/
noncomputable def hyperOp {Z : Type} [MeasurableSpace Z] (up : Z → H → List Θ → H) (ζ : Measure Z)
    (φ : H → Setoid (Fin n) → (Fin n → Θ) → ℝ≥0∞) (h : H) : Spot n → (Fin n → Θ) → ℝ≥0∞ :=
  fun z x => if z.2 = ∅ then ∫⁻ r, φ (up r h (blockValues z.1 x)) z.1 x ∂ζ else ∞

theorem hyper_reads {Z : Type} [MeasurableSpace Z] {E : Env G H Θ} {up : Z → Env G H Θ}
    {up' : Z → H → List Θ → H} {ζ : Measure Z} [IsProbabilityMeasure ζ] (hn : 0 < n)
    (hup : ∀ z h l v, (l.map Prod.fst).Perm v → (up z).hyperUpdate h l 0 = up' z h v) (d : Θ)
    (φ : H → Setoid (Fin n) → (Fin n → Θ) → ℝ≥0∞) (h : H) :
    Reads E h (hyperMean up ζ (observeH d φ)) (hyperOp up' ζ φ h) := by
  intro σ A x s hs
  have e : ∀ z, (match updateHypers (up z) 0 s with
      | .error _ => ∞
      | .ok t' => observeH d φ t') =
      if A = ∅ then φ (up' z h (blockValues σ x)) σ x else ∞ := by
    intro z
    rw [updateHypers, vget_ok (List.getElem?_eq_getElem (clus_pos hs.ok.cons hn)), ok_bind]
    dsimp only
    rw [hup z s.hyp _ _ hs.blockStates, observeH, hs.hyp]
    dsimp only
    have : Chain.rowValues n d { s with hyp := up' z h (blockValues σ x) } = x := hs.rowValues d
    rw [hs.part, this]
    exact if_congr hs.saved rfl rfl
  unfold hyperMean
  rw [lintegral_congr e, hyperOp]
  dsimp only
  by_cases hA : A = ∅
  · simp only [hA, if_true]
  · simp only [hA, if_false, lintegral_const, measure_univ, mul_one]

end general

/-! ### Normal prior on the mean -/

section mean

variable {n : ℕ}

/-- `gen z mean sd` is what `normal_rng(mean, sd)` returns with noise `z`. -/
structure NormalGen {Z : Type} [MeasurableSpace Z] (ζ : Measure Z) (gen : Z → ℝ → ℝ → ℝ) : Prop where
  prob : IsProbabilityMeasure ζ
  meas : ∀ m s, 0 < s → Measurable fun z => gen z m s
  law : ∀ m s, 0 < s → ζ.map (fun z => gen z m s) = normalLaw m s

variable {Z : Type} [MeasurableSpace Z] {ζ : Measure Z} {gen : Z → ℝ → ℝ → ℝ}

theorem NormalGen.lintegral (hg : NormalGen ζ gen) {m s : ℝ} (hs : 0 < s) {f : ℝ → ℝ≥0∞}
    (hf : Measurable f) : ∫⁻ z, f (gen z m s) ∂ζ = ∫⁻ x, f x ∂normalLaw m s := by
  rw [← hg.law m s hs, lintegral_map hf (hg.meas m s hs)]

theorem nigMeanParams_perm (mu00 sig200 lam : ℝ) {l l' : List UniLS} (h : l.Perm l') :
    nigMeanParams mu00 sig200 lam l = nigMeanParams mu00 sig200 lam l' := by
  simp only [nigMeanParams, (h.map _).sum_eq]

open Classical in
/-- The update of the mean as a function of the values of the blocks. -/
noncomputable def meanUp (mu00 sig200 : ℝ) (gen : Z → ℝ → ℝ → ℝ) (z : Z) (h : NIG) (v : List UniLS) :
    NIG :=
  if (nigMeanParams mu00 sig200 h.varScaling v).2 ≤ 0 then h
  else { h with mean := gen z (nigMeanParams mu00 sig200 h.varScaling v).1
                  (nigMeanParams mu00 sig200 h.varScaling v).2 }

theorem meanEnv_up (y : ℕ → ℝ) (draw : NIG → ℕ → UniLS) (mu00 sig200 : ℝ) (z : Z) (h : NIG)
    (l : List (UniLS × ℤ)) (v : List UniLS) (hp : (l.map Prod.fst).Perm v) :
    (meanEnv y draw mu00 sig200 fun _ => gen z).hyperUpdate h l 0 = meanUp mu00 sig200 gen z h v := by
  simp only [meanEnv, nnigEnv, nigUpdateHypers, normalRngChk, meanUp,
    nigMeanParams_perm mu00 sig200 h.varScaling hp]
  split_ifs with hc
  · rfl
  · rfl

variable {mu00 sig200 lam sh sc : ℝ}

/-- Density of the values of the blocks for the mean `m`, relative to the mean zero. -/
noncomputable def tiltAt (lam sh sc m : ℝ) (st : UniLS) : ℝ≥0∞ :=
  ENNReal.ofReal (Real.exp (nigLpdf ⟨m, lam, sh, sc⟩ st - nigLpdf ⟨0, lam, sh, sc⟩ st))

theorem measurable_tiltAt (lam sh sc : ℝ) :
    Measurable fun p : ℝ × UniLS => tiltAt lam sh sc p.1 p.2 := by
  have h1 : Measurable fun p : ℝ × UniLS => p.2.mean := measurable_mean.comp measurable_snd
  have h2 : Measurable fun p : ℝ × UniLS => p.2.var := measurable_var.comp measurable_snd
  unfold tiltAt nigLpdf
  refine ENNReal.measurable_ofReal.comp (Real.measurable_exp.comp (Measurable.sub ?_ ?_))
  · exact (measurable_normalLpdf (by fun_prop) (by fun_prop) (by fun_prop)).add
      (measurable_invGammaLpdf (by fun_prop) _ _)
  · exact (measurable_normalLpdf (by fun_prop) (by fun_prop) (by fun_prop)).add
      (measurable_invGammaLpdf (by fun_prop) _ _)

theorem measurable_tiltAt_right (lam sh sc m : ℝ) : Measurable (tiltAt lam sh sc m) :=
  (measurable_tiltAt lam sh sc).comp (f := fun st : UniLS => (m, st))
    (measurable_const.prodMk measurable_id)

theorem measurable_tiltAt_left (lam sh sc : ℝ) (st : UniLS) :
    Measurable fun m => tiltAt lam sh sc m st :=
  (measurable_tiltAt lam sh sc).comp (f := fun m : ℝ => (m, st))
    (measurable_id.prodMk measurable_const)

theorem nigLaw_tiltAt (m : ℝ) {f : UniLS → ℝ≥0∞} (hf : Measurable f) :
    ∫⁻ st, tiltAt lam sh sc m st * f st ∂nigLaw ⟨0, lam, sh, sc⟩ =
      ∫⁻ st, f st ∂nigLaw ⟨m, lam, sh, sc⟩ := by
  have ht := measurable_tiltAt_right lam sh sc m
  rw [lintegral_nigLaw_pair _ (f := fun st => tiltAt lam sh sc m st * f st) (ht.mul hf),
    lintegral_nigLaw_pair _ hf]
  refine lintegral_congr fun p => ?_
  rw [tiltAt, ← mul_assoc, ← ENNReal.ofReal_mul (Real.exp_pos _).le, ← Real.exp_add]
  congr 3
  ring

theorem pi_tiltAt {ι : Type} [Fintype ι] (hl : 0 < lam) (ha : 0 < sh) (hb : 0 < sc) (m : ℝ)
    {f : (ι → UniLS) → ℝ≥0∞} (hf : Measurable f) :
    ∫⁻ θ, (∏ i, tiltAt lam sh sc m (θ i)) * f θ ∂Measure.pi (fun _ : ι => nigLaw ⟨0, lam, sh, sc⟩) =
      ∫⁻ θ, f θ ∂Measure.pi fun _ : ι => nigLaw ⟨m, lam, sh, sc⟩ := by
  have h0 := nigLaw_prob ⟨0, lam, sh, sc⟩ hl ha hb
  have hm := nigLaw_prob ⟨m, lam, sh, sc⟩ hl ha hb
  have := pi_bayes (fun _ : ι => nigLaw ⟨0, lam, sh, sc⟩) (fun _ : ι => nigLaw ⟨m, lam, sh, sc⟩)
    (fun _ => tiltAt lam sh sc m)
    (fun _ => measurable_tiltAt_right lam sh sc m)
    (fun _ => 1) (fun _ => one_ne_top)
    (fun _ φ hφ => by rw [one_mul]; exact nigLaw_tiltAt m hφ) hf
  simpa using this

theorem meanParams_sd_pos (hs : 0 < sig200) (hl : 0 < lam) {l : List UniLS}
    (hv : ∀ st ∈ l, 0 < st.var) : 0 < (nigMeanParams mu00 sig200 lam l).2 := by
  have h1 := sum_inv_nonneg _ hv
  have h2 : 0 < 1 / sig200 := one_div_pos.2 hs
  have h3 := mul_nonneg hl.le h1
  exact Real.sqrt_pos.2 (one_div_pos.2 (by linarith))

/-- Prior of the mean times density of the values: a function of the values times the density of the
law from which the mean is drawn. -/
theorem mean_disintegrate_list (hs : 0 < sig200) (hl : 0 < lam) {l : List UniLS}
    (hv : ∀ st ∈ l, 0 < st.var) : ∃ C : ℝ≥0∞, ∀ f : ℝ → ℝ≥0∞, Measurable f →
    ∫⁻ m, (l.map (tiltAt lam sh sc m)).prod * f m ∂normalLaw mu00 (Real.sqrt sig200) =
      C * ∫⁻ m, f m ∂normalLaw (nigMeanParams mu00 sig200 lam l).1
        (nigMeanParams mu00 sig200 lam l).2 := by
  have hP : 0 < 1 / sig200 + lam * (l.map fun st => 1 / st.var).sum := by
    have h1 := sum_inv_nonneg _ hv
    have h2 : 0 < 1 / sig200 := one_div_pos.2 hs
    have h3 := mul_nonneg hl.le h1
    linarith
  have hprod : ∀ m, (l.map (tiltAt lam sh sc m)).prod = ENNReal.ofReal (Real.exp
      ((l.map (nigLpdf ⟨m, lam, sh, sc⟩)).sum - (l.map (nigLpdf ⟨0, lam, sh, sc⟩)).sum)) := by
    intro m
    clear hP hv
    induction l with
    | nil => simp
    | cons a l ih =>
      simp only [List.map_cons, List.prod_cons, List.sum_cons]
      rw [ih, tiltAt, ← ENNReal.ofReal_mul (Real.exp_pos _).le, ← Real.exp_add]
      congr 2
      ring
  obtain ⟨a, b, hab⟩ : ∃ a b, nigMeanParams mu00 sig200 lam l = (a, b) := ⟨_, _, rfl⟩
  have hdiff : ∀ m, normalLpdf m mu00 (Real.sqrt sig200) +
      ((l.map (nigLpdf ⟨m, lam, sh, sc⟩)).sum - (l.map (nigLpdf ⟨0, lam, sh, sc⟩)).sum) =
      (normalLpdf 0 mu00 (Real.sqrt sig200) - normalLpdf 0 a b) + normalLpdf m a b := by
    intro m
    have h1 := nig_mean_diff mu00 sig200 hs ⟨0, lam, sh, sc⟩ hl l hv m 0
    have h2 := normal_diff m 0 ((mu00 / sig200 + lam * (l.map fun st => st.mean / st.var).sum) /
      (1 / sig200 + lam * (l.map fun st => 1 / st.var).sum))
      (1 / (1 / sig200 + lam * (l.map fun st => 1 / st.var).sum)) (one_div_pos.2 hP)
    have e : (1 / (1 / sig200 + lam * (l.map fun st => 1 / st.var).sum))⁻¹ =
        1 / sig200 + lam * (l.map fun st => 1 / st.var).sum := by rw [one_div, inv_inv]
    rw [e, mul_div_cancel₀ _ hP.ne'] at h2
    simp only [nigMeanParams, Prod.mk.injEq] at hab
    rw [hab.1, hab.2] at h2
    dsimp only at h1
    linarith
  rw [hab]
  refine ⟨ENNReal.ofReal (Real.exp (normalLpdf 0 mu00 (Real.sqrt sig200) - normalLpdf 0 a b)),
    fun f hf => ?_⟩
  have hnl : ∀ a b : ℝ, Measurable fun m : ℝ => ENNReal.ofReal (Real.exp (normalLpdf m a b)) :=
    fun a b => ENNReal.measurable_ofReal.comp (Real.measurable_exp.comp
      (measurable_normalLpdf measurable_id measurable_const measurable_const))
  have ht : Measurable fun m => (l.map (tiltAt lam sh sc m)).prod := by
    clear hprod hdiff hab hP hv
    induction l with
    | nil => simpa using measurable_const
    | cons a l ih =>
      simp only [List.map_cons, List.prod_cons]
      exact (measurable_tiltAt_left lam sh sc a).mul ih
  have htf : Measurable fun m => (l.map (tiltAt lam sh sc m)).prod * f m := ht.mul hf
  have hnf : Measurable fun m => ENNReal.ofReal (Real.exp (normalLpdf m a b)) * f m := (hnl a b).mul hf
  rw [lintegral_normalLaw _ _ htf, lintegral_normalLaw _ _ hf,
    ← lintegral_const_mul _ hnf]
  refine lintegral_congr fun m => ?_
  rw [hprod m, ← mul_assoc, ← mul_assoc, ← ENNReal.ofReal_mul (Real.exp_pos _).le,
    ← ENNReal.ofReal_mul (Real.exp_pos _).le, ← Real.exp_add, ← Real.exp_add, hdiff m]

theorem blockValues_sum (σ : Setoid (Fin n)) (x : Fin n → UniLS) (f : UniLS → ℝ) :
    ((blockValues σ x).map f).sum = ∑ q : Quotient σ, f (x q.out) := by
  rw [blockValues, List.map_map, ← Finset.sum_map_toList]
  rfl

theorem blockValues_prod (σ : Setoid (Fin n)) (θ : Quotient σ → UniLS) (f : UniLS → ℝ≥0∞) :
    ((blockValues σ fun i => θ (Quotient.mk σ i)).map f).prod = ∏ q, f (θ q) := by
  rw [blockValues, List.map_map, ← Finset.prod_map_toList]
  congr 1
  refine List.map_congr_left fun q _ => ?_
  simp only [Function.comp]
  rw [Quotient.out_eq]

theorem measurable_meanParams (mu00 sig200 lam : ℝ) (σ : Setoid (Fin n)) :
    (Measurable fun x : Fin n → UniLS => (nigMeanParams mu00 sig200 lam (blockValues σ x)).1) ∧
      Measurable fun x : Fin n → UniLS => (nigMeanParams mu00 sig200 lam (blockValues σ x)).2 := by
  have h1 : ∀ q : Quotient σ, Measurable fun x : Fin n → UniLS => (x q.out).mean :=
    fun q => measurable_mean.comp (measurable_pi_apply _)
  have h2 : ∀ q : Quotient σ, Measurable fun x : Fin n → UniLS => (x q.out).var :=
    fun q => measurable_var.comp (measurable_pi_apply _)
  simp only [nigMeanParams, blockValues_sum]
  constructor <;> fun_prop

/-- Functions of the mean of the base measure, the partition and the values. -/
def MeasH (lam sh sc : ℝ) (φ : NIG → Setoid (Fin n) → (Fin n → UniLS) → ℝ≥0∞) : Prop :=
  ∀ σ, Measurable fun p : ℝ × (Fin n → UniLS) => φ ⟨p.1, lam, sh, sc⟩ σ p.2

/-- The mean over the conditional law of the mean of the base measure. -/
noncomputable def meanKernel (mu00 sig200 lam sh sc : ℝ)
    (φ : NIG → Setoid (Fin n) → (Fin n → UniLS) → ℝ≥0∞) (σ : Setoid (Fin n)) (x : Fin n → UniLS) :
    ℝ≥0∞ :=
  ∫⁻ m, φ ⟨m, lam, sh, sc⟩ σ x ∂normalLaw (nigMeanParams mu00 sig200 lam (blockValues σ x)).1
    (nigMeanParams mu00 sig200 lam (blockValues σ x)).2

theorem MeasH.left {φ : NIG → Setoid (Fin n) → (Fin n → UniLS) → ℝ≥0∞} (hφ : MeasH lam sh sc φ)
    (σ : Setoid (Fin n)) (x : Fin n → UniLS) : Measurable fun m => φ ⟨m, lam, sh, sc⟩ σ x :=
  (hφ σ).comp (f := fun m : ℝ => (m, x)) (measurable_id.prodMk measurable_const)

theorem MeasH.right {φ : NIG → Setoid (Fin n) → (Fin n → UniLS) → ℝ≥0∞} (hφ : MeasH lam sh sc φ)
    (m : ℝ) (σ : Setoid (Fin n)) : Measurable (φ ⟨m, lam, sh, sc⟩ σ) :=
  (hφ σ).comp (f := fun x : Fin n → UniLS => (m, x)) (measurable_const.prodMk measurable_id)

theorem measurable_meanKernel {φ : NIG → Setoid (Fin n) → (Fin n → UniLS) → ℝ≥0∞}
    (hφ : MeasH lam sh sc φ) (σ : Setoid (Fin n)) :
    Measurable (meanKernel mu00 sig200 lam sh sc φ σ) := by
  have e : meanKernel mu00 sig200 lam sh sc φ σ = fun x => ∫⁻ m, ENNReal.ofReal (Real.exp
      (normalLpdf m (nigMeanParams mu00 sig200 lam (blockValues σ x)).1
        (nigMeanParams mu00 sig200 lam (blockValues σ x)).2)) * φ ⟨m, lam, sh, sc⟩ σ x := by
    funext x
    rw [meanKernel, lintegral_normalLaw _ _ (hφ.left σ x)]
  rw [e]
  obtain ⟨p1, p2⟩ := measurable_meanParams mu00 sig200 lam σ
  have hd : Measurable fun p : ℝ × (Fin n → UniLS) => ENNReal.ofReal (Real.exp
      (normalLpdf p.1 (nigMeanParams mu00 sig200 lam (blockValues σ p.2)).1
        (nigMeanParams mu00 sig200 lam (blockValues σ p.2)).2)) :=
    ENNReal.measurable_ofReal.comp (Real.measurable_exp.comp
      (measurable_normalLpdf measurable_fst (p1.comp measurable_snd) (p2.comp measurable_snd)))
  exact (hd.mul (hφ σ)).lintegral_prod_left'

theorem hyperOp_mean (hg : NormalGen ζ gen) {φ : NIG → Setoid (Fin n) → (Fin n → UniLS) → ℝ≥0∞}
    (hφ : MeasH lam sh sc φ) (m : ℝ) (σ : Setoid (Fin n)) (x : Fin n → UniLS) :
    hyperOp (meanUp mu00 sig200 gen) ζ φ ⟨m, lam, sh, sc⟩ (σ, ∅) x =
      if (nigMeanParams mu00 sig200 lam (blockValues σ x)).2 ≤ 0 then φ ⟨m, lam, sh, sc⟩ σ x
      else meanKernel mu00 sig200 lam sh sc φ σ x := by
  have := hg.prob
  simp only [hyperOp, if_true, meanUp]
  by_cases hc : (nigMeanParams mu00 sig200 lam (blockValues σ x)).2 ≤ 0
  · simp only [hc, if_true, lintegral_const, measure_univ, mul_one]
  · simp only [hc, if_false]
    exact hg.lintegral (not_le.mp hc) (f := fun m => φ ⟨m, lam, sh, sc⟩ σ x) (hφ.left σ x)

theorem hyperOp_meas (hg : NormalGen ζ gen) {φ : NIG → Setoid (Fin n) → (Fin n → UniLS) → ℝ≥0∞}
    (hφ : MeasH lam sh sc φ) (m : ℝ) :
    MeasX (hyperOp (meanUp mu00 sig200 gen) ζ φ ⟨m, lam, sh, sc⟩) := by
  rintro ⟨σ, A⟩
  by_cases hA : A = ∅
  · subst hA
    rw [show hyperOp (meanUp mu00 sig200 gen) ζ φ ⟨m, lam, sh, sc⟩ (σ, ∅) = _ from
      funext fun x => hyperOp_mean hg hφ m σ x]
    exact Measurable.ite (measurableSet_le (measurable_meanParams mu00 sig200 lam σ).2 measurable_const)
      (hφ.right m σ) (measurable_meanKernel hφ σ)
  · have : hyperOp (meanUp mu00 sig200 gen) ζ φ ⟨m, lam, sh, sc⟩ (σ, A) = fun _ => ∞ := by
      funext x
      simp [hyperOp, hA]
    rw [this]
    exact measurable_const

theorem nigLaw_ae (h : NIG) : ∀ᵐ st ∂nigLaw h, 0 < st.var := by
  have hset : MeasurableSet {st : UniLS | ¬ 0 < st.var} :=
    (measurableSet_lt measurable_const measurable_var).compl
  rw [ae_iff, ← lintegral_indicator_one hset, lintegral_nigLaw_pair _ (measurable_one.indicator hset)]
  rw [lintegral_eq_zero_iff' ?_]
  · filter_upwards [lsVol_ae] with p hp
    simp [Set.indicator, hp]
  · refine (Measurable.mul ?_ ((measurable_one.indicator hset).comp measurable_mk)).aemeasurable
    exact ENNReal.measurable_ofReal.comp (Real.measurable_exp.comp (measurable_nigLpdf h))

theorem pi_ae {ι : Type} [Fintype ι] (hl : 0 < lam) (ha : 0 < sh) (hb : 0 < sc) (m : ℝ) :
    ∀ᵐ θ ∂Measure.pi (fun _ : ι => nigLaw ⟨m, lam, sh, sc⟩), ∀ i, 0 < (θ i).var := by
  have h0 := nigLaw_prob ⟨m, lam, sh, sc⟩ hl ha hb
  rw [ae_all_iff]
  intro i
  exact (measurePreserving_eval (fun _ : ι => nigLaw ⟨m, lam, sh, sc⟩) i).quasiMeasurePreserving.ae
    (nigLaw_ae _)

/-- One block structure: redrawing the mean given the values changes nothing. -/
theorem mean_block (hs : 0 < sig200) (hl : 0 < lam) (ha : 0 < sh) (hb : 0 < sc) (hg : NormalGen ζ gen)
    {φ : NIG → Setoid (Fin n) → (Fin n → UniLS) → ℝ≥0∞} (hφ : MeasH lam sh sc φ)
    (σ : Setoid (Fin n)) {L : (Quotient σ → UniLS) → ℝ≥0∞} (hL : Measurable L) :
    (Measurable fun m => ∫⁻ θ : Quotient σ → UniLS, L θ *
        hyperOp (meanUp mu00 sig200 gen) ζ φ ⟨m, lam, sh, sc⟩ (σ, ∅) (fun i => θ (Quotient.mk σ i))
          ∂Measure.pi fun _ => nigLaw ⟨m, lam, sh, sc⟩) ∧
    (Measurable fun m => ∫⁻ θ : Quotient σ → UniLS, L θ *
        φ ⟨m, lam, sh, sc⟩ σ (fun i => θ (Quotient.mk σ i))
          ∂Measure.pi fun _ => nigLaw ⟨m, lam, sh, sc⟩) ∧
    ∫⁻ m, ∫⁻ θ : Quotient σ → UniLS, L θ *
        hyperOp (meanUp mu00 sig200 gen) ζ φ ⟨m, lam, sh, sc⟩ (σ, ∅) (fun i => θ (Quotient.mk σ i))
          ∂Measure.pi (fun _ => nigLaw ⟨m, lam, sh, sc⟩) ∂normalLaw mu00 (Real.sqrt sig200) =
      ∫⁻ m, ∫⁻ θ : Quotient σ → UniLS, L θ *
        φ ⟨m, lam, sh, sc⟩ σ (fun i => θ (Quotient.mk σ i))
          ∂Measure.pi (fun _ => nigLaw ⟨m, lam, sh, sc⟩) ∂normalLaw mu00 (Real.sqrt sig200) := by
  have hN := normalLaw_prob mu00 hs
  have h0 := nigLaw_prob ⟨0, lam, sh, sc⟩ hl ha hb
  obtain ⟨μ, hμ⟩ : ∃ μ : Measure (Quotient σ → UniLS),
    μ = Measure.pi fun _ => nigLaw ⟨0, lam, sh, sc⟩ := ⟨_, rfl⟩
  have hμp : IsProbabilityMeasure μ := by rw [hμ]; infer_instance
  have hrow := measurable_rows (Θ := UniLS) σ
  obtain ⟨k, hk⟩ : ∃ k : (Quotient σ → UniLS) → ℝ≥0∞, k = fun θ =>
    meanKernel mu00 sig200 lam sh sc φ σ fun i => θ (Quotient.mk σ i) := ⟨_, rfl⟩
  have hkm : Measurable k := by rw [hk]; exact (measurable_meanKernel hφ σ).comp hrow
  obtain ⟨D, hD⟩ : ∃ D : ℝ → (Quotient σ → UniLS) → ℝ≥0∞, D = fun m θ =>
    ∏ q, tiltAt lam sh sc m (θ q) := ⟨_, rfl⟩
  have hDm : Measurable fun p : ℝ × (Quotient σ → UniLS) => D p.1 p.2 := by
    rw [hD]
    refine Finset.measurable_prod _ fun q _ => ?_
    exact (measurable_tiltAt lam sh sc).comp (f := fun p : ℝ × (Quotient σ → UniLS) => (p.1, p.2 q))
      (measurable_fst.prodMk ((measurable_pi_apply q).comp measurable_snd))
  have hpos : ∀ θ : Quotient σ → UniLS, (∀ q, 0 < (θ q).var) →
      ∀ st ∈ blockValues σ (fun i => θ (Quotient.mk σ i)), 0 < st.var := by
    intro θ hθ st hst
    obtain ⟨q, -, rfl⟩ := List.mem_map.mp hst
    exact hθ _
  have e1 : ∀ m, ∫⁻ θ : Quotient σ → UniLS, L θ *
        hyperOp (meanUp mu00 sig200 gen) ζ φ ⟨m, lam, sh, sc⟩ (σ, ∅) (fun i => θ (Quotient.mk σ i))
          ∂Measure.pi (fun _ => nigLaw ⟨m, lam, sh, sc⟩) = ∫⁻ θ, D m θ * (L θ * k θ) ∂μ := by
    intro m
    have := pi_tiltAt (ι := Quotient σ) hl ha hb m (f := fun θ => L θ * k θ) (hL.mul hkm)
    rw [hμ, hD]
    refine Eq.trans ?_ this.symm
    refine lintegral_congr_ae ?_
    filter_upwards [pi_ae (ι := Quotient σ) hl ha hb m] with θ hθ
    rw [hyperOp_mean hg hφ, if_neg (not_le.mpr (meanParams_sd_pos hs hl (hpos θ hθ))), hk]
  have e2 : ∀ m, ∫⁻ θ : Quotient σ → UniLS, L θ *
        φ ⟨m, lam, sh, sc⟩ σ (fun i => θ (Quotient.mk σ i))
          ∂Measure.pi (fun _ => nigLaw ⟨m, lam, sh, sc⟩) =
      ∫⁻ θ, D m θ * (L θ * φ ⟨m, lam, sh, sc⟩ σ fun i => θ (Quotient.mk σ i)) ∂μ := by
    intro m
    rw [hμ, hD]
    exact (pi_tiltAt hl ha hb m (hL.mul ((hφ.right m σ).comp hrow))).symm
  have j1 : Measurable fun p : ℝ × (Quotient σ → UniLS) => D p.1 p.2 * (L p.2 * k p.2) :=
    hDm.mul ((hL.comp measurable_snd).mul (hkm.comp measurable_snd))
  have hφm : Measurable fun p : ℝ × (Quotient σ → UniLS) =>
      φ ⟨p.1, lam, sh, sc⟩ σ fun i => p.2 (Quotient.mk σ i) :=
    (hφ σ).comp (f := fun p : ℝ × (Quotient σ → UniLS) => (p.1, fun i => p.2 (Quotient.mk σ i)))
      (measurable_fst.prodMk (hrow.comp measurable_snd))
  have j2 : Measurable fun p : ℝ × (Quotient σ → UniLS) => D p.1 p.2 *
      (L p.2 * φ ⟨p.1, lam, sh, sc⟩ σ fun i => p.2 (Quotient.mk σ i)) :=
    hDm.mul ((hL.comp measurable_snd).mul hφm)
  simp only [e1, e2]
  refine ⟨j1.lintegral_prod_right', j2.lintegral_prod_right', ?_⟩
  refine (lintegral_lintegral_swap (f := fun m θ => D m θ * (L θ * k θ)) j1.aemeasurable).trans
    (Eq.trans ?_ (lintegral_lintegral_swap (f := fun m θ => D m θ * (L θ *
      φ ⟨m, lam, sh, sc⟩ σ fun i => θ (Quotient.mk σ i))) j2.aemeasurable).symm)
  refine lintegral_congr_ae ?_
  have hae := pi_ae (ι := Quotient σ) hl ha hb 0
  rw [← hμ] at hae
  filter_upwards [hae] with θ hθ
  obtain ⟨C, hC⟩ := mean_disintegrate_list (mu00 := mu00) (sh := sh) (sc := sc) hs hl (hpos θ hθ)
  have hDl : ∀ m, D m θ = ((blockValues σ fun i => θ (Quotient.mk σ i)).map (tiltAt lam sh sc m)).prod :=
    fun m => by rw [hD, blockValues_prod]
  have hDθ : Measurable fun m => D m θ :=
    hDm.comp (f := fun m : ℝ => (m, θ)) (measurable_id.prodMk measurable_const)
  have c1 := hC (fun _ => 1) measurable_const
  have c2 := hC (fun m => φ ⟨m, lam, sh, sc⟩ σ fun i => θ (Quotient.mk σ i)) (hφ.left σ _)
  have hprob : IsProbabilityMeasure (normalLaw
      (nigMeanParams mu00 sig200 lam (blockValues σ fun i => θ (Quotient.mk σ i))).1
      (nigMeanParams mu00 sig200 lam (blockValues σ fun i => θ (Quotient.mk σ i))).2) := by
    have h1 := sum_inv_nonneg _ (hpos θ hθ)
    have h2 : 0 < 1 / sig200 := one_div_pos.2 hs
    have h3 := mul_nonneg hl.le h1
    exact normalLaw_prob _ (one_div_pos.2 (by linarith))
  rw [lintegral_const, measure_univ, mul_one] at c1
  simp only [mul_one, ← hDl] at c1 c2
  have hφθ : Measurable fun m => D m θ * φ ⟨m, lam, sh, sc⟩ σ fun i => θ (Quotient.mk σ i) :=
    hDθ.mul (hφ.left σ _)
  have e3 : ∀ m, D m θ * (L θ * φ ⟨m, lam, sh, sc⟩ σ fun i => θ (Quotient.mk σ i)) =
      L θ * (D m θ * φ ⟨m, lam, sh, sc⟩ σ fun i => θ (Quotient.mk σ i)) := fun m => by ring
  rw [lintegral_mul_const _ hDθ, c1, lintegral_congr e3, lintegral_const_mul _ hφθ, c2, hk]
  unfold meanKernel
  ring

end mean

end Bayesmix.Chain
