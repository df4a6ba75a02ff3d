import Verif.Algo.PropsSMChain

/-!
# C129: split-merge runs without full scans
-/

namespace Bayesmix.Chain
open Bayesmix Cond Gibbs SplitMerge Slice Mixing Hierarchies MeasureTheory ENNReal

variable {G H Θ : Type} [AddCommGroup G]

/-- The fields of `AlgorithmParams` for this algorithm (`algorithm_params.proto` 15-17) as they stand
in a parameter file; a field that is not set has the value zero. -/
structure SMFields where
  restr : Option ℕ
  mh : Option ℕ
  full : Option ℕ

/-- `SplitAndMergeAlgorithm::read_params_from_proto`
(`src/algorithms/split_and_merge_algorithm.cc` 10-16): the members, whose initializers are 5, 1 and 1
(`split_and_merge_algorithm.h` 125-131), are overwritten by the fields. Returns the numbers of
restricted scans, Metropolis-Hastings updates and full scans. -/
def readSM (f : SMFields) : ℕ × ℕ × ℕ := (f.restr.getD 0, f.mh.getD 0, f.full.getD 0)

/-! ### Limits are invariant -/

theorem invariant_of_limit {X : Type} [Fintype X] [DecidableEq X] {P : Matrix X X ℝ} {w : X → ℝ}
    {x : X} (h : ∀ y, Filter.Tendsto (fun k => (P ^ k) x y) Filter.atTop (nhds (w y))) :
    Invariant w P := by
  intro y
  have h1 : Filter.Tendsto (fun k => (P ^ (k + 1)) x y) Filter.atTop (nhds (w y)) :=
    (h y).comp (Filter.tendsto_add_atTop_nat 1)
  have h2 : Filter.Tendsto (fun k => (P ^ (k + 1)) x y) Filter.atTop
      (nhds (∑ z, w z * P z y)) := by
    simp only [pow_succ, Matrix.mul_apply]
    exact tendsto_finset_sum _ fun z _ => (h z).mul_const _
  exact tendsto_nhds_unique h2 h1

/-- If runs converge to the posterior, the kernel of an iteration leaves it invariant. -/
theorem SMConvergesTo.invariant {E : Env G H Θ} {S : Scores H} {nRestr nMh nFull K n : ℕ} {h0 : H}
    {θ0 : Θ} {π : List ℕ → ℝ} (h : SMConvergesTo E S nRestr nMh nFull K n h0 θ0 π)
    (T : Target E S n h0 π) (hK : 0 < K) (hKn : K ≤ n) :
    Invariant (weight π) (smK E S h0 nRestr n nMh nFull π) := by
  obtain ⟨δ, d0, d1, hc⟩ := h
  obtain ⟨s0, e0, hc⟩ := hc ⟨fun _ => 0, fun _ => 0⟩ ⟨θ0, 0, ∅, 0, false, none⟩ rfl
  obtain ⟨s0', e0', hs0⟩ := init_good (E := E) T.kind hK hKn h0 θ0 ⟨fun _ => 0, fun _ => 0⟩
    (u := ⟨θ0, 0, ∅, 0, false, none⟩) rfl
  rw [e0] at e0'
  cases e0'
  have hZ : 0 < ∑ σ : Setoid (Fin n), weight π σ :=
    Finset.sum_pos (fun σ _ => T.weight_pos σ) Finset.univ_nonempty
  have hinv : Invariant (fun σ : Setoid (Fin n) => weight π σ / ∑ ρ : Setoid (Fin n), weight π ρ)
      (smK E S h0 nRestr n nMh nFull π) := by
    refine invariant_of_limit (x := partOf n s0.alloc) fun τ => ?_
    have hb : ∀ k : ℕ, |(smK E S h0 nRestr n nMh nFull π ^ k) (partOf n s0.alloc) τ -
        weight π τ / ∑ ρ : Setoid (Fin n), weight π ρ| ≤ (1 - δ) ^ k := by
      intro k
      obtain ⟨z⟩ : Nonempty RestNoise := ⟨⟨fun _ _ => 0, fun _ => 0, 0⟩⟩
      obtain ⟨l, e, -, hl⟩ := hc (List.replicate k z)
      obtain ⟨l', e', -, hp⟩ := T.smChain nRestr nMh nFull (List.replicate k z) s0 hs0
      rw [e] at e'
      cases e'
      have := hl {τ}
      simp only [Finset.mem_singleton, hp, List.length_replicate, postProb,
        Finset.sum_singleton] at this
      exact this
    have hlim : Filter.Tendsto (fun k : ℕ => (1 - δ) ^ k) Filter.atTop (nhds 0) :=
      tendsto_pow_atTop_nhds_zero_of_lt_one (by linarith) (by linarith)
    exact tendsto_iff_dist_tendsto_zero.mpr (squeeze_zero (fun _ => dist_nonneg)
      (fun k => by rw [Real.dist_eq]; exact hb k) hlim)
  intro τ
  have := hinv τ
  simp only [div_mul_eq_mul_div] at this
  rw [← Finset.sum_div, div_left_inj' hZ.ne'] at this
  exact this

/-! ### Two rows -/

theorem two_cases (σ : Setoid (Fin 2)) : σ = ⊤ ∨ σ = ⊥ := by
  by_cases h : σ 0 1
  · left
    refine Setoid.ext fun a b => iff_of_true ?_ trivial
    fin_cases a <;> fin_cases b
    · exact σ.refl _
    · exact h
    · exact σ.symm h
    · exact σ.refl _
  · right
    refine Setoid.ext fun a b => ?_
    rw [Setoid.bot_def]
    fin_cases a <;> fin_cases b
    · exact iff_of_true (σ.refl _) rfl
    · exact iff_of_false h (by simp)
    · exact iff_of_false (fun e => h (σ.symm e)) (by simp)
    · exact iff_of_true (σ.refl _) rfl

theorem two_ne : (⊤ : Setoid (Fin 2)) ≠ ⊥ := by
  intro h
  have : (⊥ : Setoid (Fin 2)) 0 1 := by rw [← h]; trivial
  rw [Setoid.bot_def] at this
  exact absurd this (by simp)

theorem two_univ : (Finset.univ : Finset (Setoid (Fin 2))) = {⊤, ⊥} := by
  ext σ
  simpa using two_cases σ

theorem two_sum (f : Setoid (Fin 2) → ℝ) : ∑ σ, f σ = f ⊤ + f ⊥ := by
  rw [two_univ, Finset.sum_pair two_ne]

theorem two_split {i j : Fin 2} (hij : i ≠ j) : SplitRel i j ⊤ ⊥ := by
  refine ⟨trivial, ?_, fun x => iff_of_true trivial ?_, fun x y h => absurd trivial h⟩
  · rw [Setoid.bot_def]; exact hij
  · change x = i ∨ x = j
    have h1 : i.val ≠ j.val := fun e => hij (Fin.ext e)
    rcases Nat.lt_or_ge x.val 1 with h | h
    · by_cases hi : i.val = 0
      · exact Or.inl (Fin.ext (by omega))
      · exact Or.inr (Fin.ext (by omega))
    · by_cases hi : i.val = 1
      · exact Or.inl (Fin.ext (by omega))
      · exact Or.inr (Fin.ext (by omega))

theorem two_rows (σ : Setoid (Fin 2)) {i j : Fin 2} (hij : i ≠ j) : rowsOf σ i j = [] := by
  rw [List.eq_nil_iff_forall_not_mem]
  intro x hx
  have h1 : i.val ≠ j.val := fun e => hij (Fin.ext e)
  have h2 := mem_scanRows_lt hx
  have h3 := mem_scanRows.mp hx
  have := i.isLt
  have := j.isLt
  omega

/-- The log acceptance rate of the only possible split. -/
noncomputable def twoRate (E : Env G H Θ) (S : Scores H) (h0 : H) (i j : Fin 2) : ℝ :=
  splitRate E S h0 2 i j [] (fun _ => false) (fun _ => false)

theorem two_rate {E : Env G H Θ} {S : Scores H} {h0 : H} (i j : Fin 2) (c0 c1 : ℕ → Bool) :
    splitRate E S h0 2 i j [] c0 c1 = twoRate E S h0 i j := by
  unfold twoRate
  simp [splitRate, transLog, side]

theorem two_pair {E : Env G H Θ} {S : Scores H} {h0 : H} (nRestr : ℕ) {i j : Fin 2} (hij : i ≠ j) :
    pairK E S h0 nRestr i j ⊤ ⊥ = min 1 (Real.exp (twoRate E S h0 i j)) ∧
      pairK E S h0 nRestr i j ⊥ ⊤ = min 1 (Real.exp (-twoRate E S h0 i j)) := by
  have hs := two_split hij
  have hl := labLaw_isLaw E S h0 i j [] nRestr
  constructor
  · rw [pairK, if_neg two_ne.symm, pairOff, if_pos hs, two_rows _ hij]
    rw [lawMean_congr (f' := fun _ => min 1 (Real.exp (twoRate E S h0 i j)) * 1)]
    · rw [lawMean_mul, hl.total, mul_one]
    · intro x _
      rw [two_rate]
      simp [transLog]
  · rw [pairK, if_neg two_ne, pairOff, if_neg hs.asymm, if_pos hs, two_rows _ hij]
    rw [lawMean_congr (f' := fun _ => min 1 (Real.exp (-twoRate E S h0 i j)) * 1)]
    · rw [lawMean_mul, hl.total, mul_one]
    · intro x _
      rw [two_rate, mul_one]

theorem two_mh {E : Env G H Θ} {S : Scores H} {h0 : H} (nRestr : ℕ) (σ τ : Setoid (Fin 2)) :
    mhK E S h0 nRestr 2 σ τ = 1 / 2 * pairK E S h0 nRestr 0 1 σ τ + 1 / 2 * pairK E S h0 nRestr 1 0 σ τ := by
  simp [mhK, mixK, Finset.sum_range_succ, second, pairN]

theorem two_symm {E : Env G H Θ} {S : Scores H} {h0 : H} {m : Finset ℕ → ℝ} (hm : MargLik E S h0 m) :
    twoRate E S h0 1 0 = twoRate E S h0 0 1 := by
  unfold twoRate splitRate
  have hs : ∀ (i j : ℕ) (b : Bool), side i j [] (fun _ => false) b = {if b then j else i} := by
    intro i j b
    simp [side]
  simp only [hs]
  rw [likRatio_eq hm (by simp) (by simp) (by simp), likRatio_eq hm (by simp) (by simp) (by simp)]
  simp only [transLog, priorRatio, Fin.val_zero, Fin.val_one, List.length_nil, Finset.range_zero,
    Finset.sum_empty, Finset.card_singleton, if_true, Bool.false_eq_true, if_false]
  rw [Finset.union_comm]
  ring

/-- All rows together: one cluster. -/
theorem one_cluster {f : ℕ → G} {n : ℕ} {s : Alg G H Θ} (hs : MarginalOk f n s) (hn : 0 < n)
    (h : partOf n s.alloc = ⊤) : s.clus.length = 1 := by
  have hpos := clus_pos hs.cons hn
  by_contra hne
  obtain ⟨x, hx, ex⟩ := hs.noEmpty 0 hpos
  obtain ⟨y, hy, ey⟩ := hs.noEmpty 1 (by omega)
  have hx' : x < n := by simpa using hx
  have hy' : y < n := by simpa using hy
  have : partOf n s.alloc ⟨x, hx'⟩ ⟨y, hy'⟩ := by rw [h]; trivial
  rw [partOf_rel, together] at this
  simp only at this
  rw [ex, ey] at this
  simp at this

/-- Balance of the two partitions of two rows. -/
theorem two_balance {E : Env G H Θ} {S : Scores H} {h0 : H} {φ : ℝ} (hφ : 0 < φ) {m : Finset ℕ → ℝ}
    {st : PYState} (h1 : -st.discount < st.strength) (h2 : 0 ≤ st.discount) (h3 : st.discount < 1)
    (T : Target E S 2 h0 (pyPosterior st m))
    (hex : ∀ c : ℕ, 1 ≤ c → S.exist 2 2 c = Real.log (c - st.discount))
    (hnew : S.fresh 2 2 = Real.log φ) (hm : MargLik E S h0 m) (θ0 : Θ) :
    weight (pyPosterior st m) (⊤ : Setoid (Fin 2)) * min 1 (Real.exp (twoRate E S h0 0 1)) =
        weight (pyPosterior st m) (⊥ : Setoid (Fin 2)) * min 1 (Real.exp (-twoRate E S h0 0 1)) ↔
      φ = st.strength + st.discount := by
  obtain ⟨s0, -, hs0⟩ := init_good (E := E) (n := 2) T.kind one_pos one_le_two h0 θ0
    ⟨fun _ => 0, fun _ => 0⟩ (u := ⟨θ0, 0, ∅, 0, false, none⟩) rfl
  obtain ⟨s, hs, hp, hb⟩ := pair_balance_iff hφ h1 h2 h3 T T.part hex hnew hm hs0
    (i := 0) (j := 1) (by simp) ⊤ ⊥ (two_split (by simp)) (fun _ => false)
  rw [two_rows _ (by simp), two_rate, one_cluster hs.ok two_pos hp] at hb
  simpa [transLog] using hb

theorem two_mh_eq {E : Env G H Θ} {S : Scores H} {h0 : H} {m : Finset ℕ → ℝ} (hm : MargLik E S h0 m)
    (nRestr : ℕ) :
    mhK E S h0 nRestr 2 ⊤ ⊥ = min 1 (Real.exp (twoRate E S h0 0 1)) ∧
      mhK E S h0 nRestr 2 ⊥ ⊤ = min 1 (Real.exp (-twoRate E S h0 0 1)) := by
  rw [two_mh, two_mh, (two_pair nRestr (i := 0) (j := 1) (by simp)).1,
    (two_pair nRestr (i := 0) (j := 1) (by simp)).2,
    (two_pair nRestr (i := 1) (j := 0) (by simp)).1,
    (two_pair nRestr (i := 1) (j := 0) (by simp)).2, two_symm hm]
  constructor <;> ring

/-- **C129, Pitman-Yor process, violation.** With a discount that is not zero, runs of Metropolis-
Hastings updates alone (one per iteration, no full scan) on two rows do not converge to the
posterior. -/
theorem c129_discount_violated [MeasurableSpace Θ] (E : Env G H Θ)
    (hfix : ∀ h l r, E.hyperUpdate h l r = h) (hk : E.kind ≠ .other) (like : Θ → ℕ → ℝ)
    (pred : H → ℕ → ℝ) (ν : H → Measure Θ) (V : H → Prop) (C : Conjugate E like pred ν V)
    {a b : ℝ} {py : PYState} (hpy : pyInit a b = .ok py) (hb : b ≠ 0) (nRestr : ℕ) (K : ℕ)
    (hK : 0 < K) (hKn : K ≤ 2) (h0 : H) (hv : V h0) (θ0 : Θ) :
    ¬ SMConvergesTo E (pyScores pred py) nRestr 1 0 K 2 h0 θ0
      (mixPosterior (pyPrior py) like (ν h0)) := by
  have hm := margLik_intLik C hv (pyScores pred py) rfl
  have e : pyPosterior py (fun D => Real.log (intLik like (ν h0) D)) =
      mixPosterior (pyPrior py) like (ν h0) := funext fun al => posterior_mix C hv _ _ al
  rw [← e]
  intro h
  have T := py_target E hfix hk pred hpy (le_refl 2) hm
  have hinv := h.invariant T hK hKn
  obtain ⟨rfl, h1, h2, h3⟩ := pyInit_ok hpy
  have hex : ∀ c : ℕ, 1 ≤ c → (pyScores pred ⟨a, b⟩).exist 2 2 c = Real.log ((c : ℝ) - b) := by
    intro c hc
    have hc' : (1 : ℝ) ≤ c := by exact_mod_cast hc
    have : (c : ℝ) - b ≠ 0 := by linarith
    have hc0 : c ≠ 0 := by omega
    simp [pyScores, pyLogMassExisting, hc0, stdLog, this]
  have hpos : 0 < a + b * 2 := by linarith
  have hnew : (pyScores pred ⟨a, b⟩).fresh 2 2 = Real.log (a + b * 2) := by
    simp [pyScores, pyLogMassNew, stdLog, hpos.ne']
  have hbal := two_balance hpos h1 h2 h3 T hex hnew hm θ0
  have hi := hinv ⊤
  rw [smK, pow_one, pow_zero, mul_one, two_sum] at hi
  obtain ⟨s0, -, hs0⟩ := init_good (E := E) (n := 2) T.kind one_pos one_le_two h0 θ0
    ⟨fun _ => 0, fun _ => 0⟩ (u := ⟨θ0, 0, ∅, 0, false, none⟩) rfl
  have hst := (mhK_stochastic T hs0 nRestr).sum_one ⊤
  rw [two_sum] at hst
  obtain ⟨e1, e2⟩ := two_mh_eq hm nRestr
  rw [← e1, ← e2] at hbal
  have := hbal.mp (by
    have h5 : mhK E (pyScores pred ⟨a, b⟩) h0 nRestr 2 ⊤ ⊤ =
      1 - mhK E (pyScores pred ⟨a, b⟩) h0 nRestr 2 ⊤ ⊥ := by linarith
    rw [h5] at hi
    linarith)
  simp only at this
  exact hb (by linarith)

/-- **C129, no full scan, violation.** If the number of full scans is not set in the parameter file, no
full scan is made, and convergence can fail even with discount zero: for every conjugate model of two
rows there is a strength with which each iteration certainly changes the partition, so that after an
even number of iterations it is the initial one with probability one, and after an odd number with
probability zero. -/
theorem c129_no_full_scan_violated [MeasurableSpace Θ] (E : Env G H Θ)
    (hfix : ∀ h l r, E.hyperUpdate h l r = h) (hk : E.kind ≠ .other) (like : Θ → ℕ → ℝ)
    (pred : H → ℕ → ℝ) (ν : H → Measure Θ) (V : H → Prop) (C : Conjugate E like pred ν V)
    (f : SMFields) (hmh : f.mh = some 1) (hfull : f.full = none) (K : ℕ)
    (hK : 0 < K) (hKn : K ≤ 2) (h0 : H) (hv : V h0) (θ0 : Θ) :
    ∃ (a : ℝ) (py : PYState), pyInit a 0 = .ok py ∧
      ∀ (zi : InitNoise) (u : Hier G H Θ), u.saved = false →
        ∃ s0, initAlloc E true K 2 h0 θ0 zi [u] = .ok s0 ∧ ∀ zs : List RestNoise,
          ∃ l, smChain E (pyScores pred py) (readSM f).1 2 (readSM f).2.1 (readSM f).2.2 zs s0 =
              .ok l ∧
            l.prob (fun t => SamePart 2 t.alloc s0.alloc) = if Even zs.length then 1 else 0 := by
  obtain ⟨m, hmd⟩ : ∃ m : Finset ℕ → ℝ, m = fun D => Real.log (intLik like (ν h0) D) := ⟨_, rfl⟩
  obtain ⟨κ, R₁, R₂, k0, r1, r2, -, -, f1, f2⟩ := dp_ratio m (le_refl 2) one_pos
  obtain ⟨a, had⟩ : ∃ a : ℝ, a = R₁ / R₂ := ⟨_, rfl⟩
  have ha : 0 < a := by rw [had]; exact div_pos r1 r2
  have hpy : pyInit a 0 = .ok ⟨a, 0⟩ := by
    unfold pyInit
    simp [not_le.mpr ha]
  refine ⟨a, ⟨a, 0⟩, hpy, fun zi u hu => ?_⟩
  have hm : MargLik E (pyScores pred ⟨a, 0⟩) h0 m := by
    rw [hmd]
    exact margLik_intLik C hv (pyScores pred ⟨a, 0⟩) rfl
  have T := py_target E hfix hk pred hpy (le_refl 2) hm
  obtain ⟨s0, e0, hs0⟩ := init_good (E := E) hk hK hKn h0 θ0 zi hu
  refine ⟨s0, e0, fun zs => ?_⟩
  -- both partitions have the same weight
  have hw : weight (pyPosterior ⟨a, 0⟩ m) (⊤ : Setoid (Fin 2)) =
      weight (pyPosterior ⟨a, 0⟩ m) (⊥ : Setoid (Fin 2)) := by
    obtain ⟨κ', R₁', R₂', k0', -, -, e1', e2', f1', f2'⟩ := dp_ratio m (le_refl 2) ha
    rw [← f1] at f1'
    rw [← f2] at f2'
    subst f1' f2'
    have p1 : partOf 2 (List.replicate 2 0) = ⊤ := by
      refine Setoid.ext fun x y => iff_of_true ?_ trivial
      rw [partOf_rel]
      fin_cases x <;> fin_cases y <;> rfl
    have p2 : partOf 2 (1 :: List.replicate (2 - 1) 0) = ⊥ := by
      rcases two_cases (partOf 2 (1 :: List.replicate (2 - 1) 0)) with h | h
      · have : partOf 2 (1 :: List.replicate (2 - 1) 0) 0 1 := by rw [h]; trivial
        rw [partOf_rel, together] at this
        simp at this
      · exact h
    rw [← p1, ← p2, weight_part T.part (by simp), weight_part T.part (by simp), ← dpPosterior_eq,
      ← dpPosterior_eq, e1', e2', had]
    field_simp
  have hr : twoRate E (pyScores pred ⟨a, 0⟩) h0 0 1 = 0 := by
    have hb := (two_balance ha (st := ⟨a, 0⟩) (by simpa using ha) le_rfl one_pos T
      (fun c hc => by rw [(py_zero ha 2).1 c hc, sub_zero]) (py_zero ha 2).2 hm θ0).mpr (by simp)
    rw [hw] at hb
    have hb := mul_left_cancel₀ (T.weight_pos ⊥).ne' hb
    obtain ⟨r, hrd⟩ : ∃ r, r = twoRate E (pyScores pred ⟨a, 0⟩) h0 0 1 := ⟨_, rfl⟩
    rw [← hrd] at hb ⊢
    rcases lt_trichotomy r 0 with h | h | h
    · have h1 : Real.exp r < 1 := Real.exp_lt_one_iff.mpr h
      have h2 : 1 < Real.exp (-r) := Real.one_lt_exp_iff.mpr (by linarith)
      rw [min_eq_right h1.le, min_eq_left h2.le] at hb
      linarith
    · exact h
    · have h1 : 1 < Real.exp r := Real.one_lt_exp_iff.mpr h
      have h2 : Real.exp (-r) < 1 := Real.exp_lt_one_iff.mpr (by linarith)
      rw [min_eq_left h1.le, min_eq_right h2.le] at hb
      linarith
  obtain ⟨nRestr, hnr⟩ : ∃ k, k = (readSM f).1 := ⟨_, rfl⟩
  have hmh' : (readSM f).2.1 = 1 := by simp [readSM, hmh]
  have hfull' : (readSM f).2.2 = 0 := by simp [readSM, hfull]
  rw [← hnr, hmh', hfull']
  obtain ⟨e1, e2⟩ := two_mh_eq hm nRestr
  rw [hr, Real.exp_zero, min_self] at e1
  rw [hr, neg_zero, Real.exp_zero, min_self] at e2
  have hst := mhK_stochastic T hs0 nRestr
  have d1 := hst.sum_one ⊤
  have d2 := hst.sum_one ⊥
  rw [two_sum, e1] at d1
  rw [two_sum, e2] at d2
  obtain ⟨l, e, -, hp⟩ := T.smChain nRestr 1 0 zs s0 hs0
  refine ⟨l, e, ?_⟩
  have hpe : (fun t : Alg G H Θ => SamePart 2 t.alloc s0.alloc) =
      fun t => partOf 2 t.alloc = partOf 2 s0.alloc := funext fun t => propext partOf_eq.symm
  rw [hpe, hp, smK, pow_one, pow_zero, mul_one]
  -- powers of the swap
  have hpow : ∀ k σ τ, (mhK E (pyScores pred ⟨a, 0⟩) h0 nRestr 2 ^ k) σ τ =
      if (σ = τ ↔ Even k) then 1 else 0 := by
    intro k
    induction k with
    | zero => intro σ τ; simp [Matrix.one_apply]
    | succ k ih =>
      intro σ τ
      rw [pow_succ, Matrix.mul_apply, two_sum, ih, ih]
      rcases two_cases σ with rfl | rfl <;> rcases two_cases τ with rfl | rfl <;>
        by_cases hk : Even k <;>
        simp [Nat.even_add_one, hk, e1, e2, two_ne, two_ne.symm] <;> linarith
  rw [hpow]
  simp

/-- The hypotheses are met: normal hierarchy, a file that sets the other two numbers. -/
example (y : ℕ → ℝ) (draw : NIG → ℕ → UniLS) (θ0 : UniLS) :
    ∃ (a : ℝ) (py : PYState), pyInit a 0 = .ok py ∧
      ∀ (zi : InitNoise) (u : Hier (ℝ × ℝ) NIG UniLS), u.saved = false →
        ∃ s0, initAlloc (nnigEnv y draw fun h _ _ => h) true 1 2 ⟨0, 1, 2, 1⟩ θ0 zi [u] = .ok s0 ∧
        ∀ zs : List RestNoise,
          ∃ l, smChain (nnigEnv y draw fun h _ _ => h) (pyScores (fun h i => nnigMargLpdf h (y i)) py)
              5 2 1 0 zs s0 = .ok l ∧
            l.prob (fun t => SamePart 2 t.alloc s0.alloc) = if Even zs.length then 1 else 0 :=
  c129_no_full_scan_violated _ (fun _ _ _ => rfl) (by simp [nnigEnv]) _ _ nigLaw NigValid
    (nnig_conjugate y draw _) ⟨some 5, some 1, none⟩ rfl rfl 1 (by omega) (by omega) ⟨0, 1, 2, 1⟩
    (by norm_num [NigValid]) θ0

example (y : ℕ → ℝ) (draw : NIG → ℕ → UniLS) (θ0 : UniLS) :
    ¬ SMConvergesTo (nnigEnv y draw fun h _ _ => h)
      (pyScores (fun h i => nnigMargLpdf h (y i)) ⟨1, 1 / 2⟩) 5 1 0 1 2 ⟨0, 1, 2, 1⟩ θ0
      (mixPosterior (pyPrior ⟨1, 1 / 2⟩) (fun st i => uniNormLpdf st (y i)) (nigLaw ⟨0, 1, 2, 1⟩)) :=
  c129_discount_violated _ (fun _ _ _ => rfl) (by simp [nnigEnv]) _ _ nigLaw NigValid
    (nnig_conjugate y draw _) (a := 1) (b := 1 / 2) (by norm_num [pyInit]) (by norm_num) 5 1
    (by omega) (by omega) ⟨0, 1, 2, 1⟩ (by norm_num [NigValid]) θ0

/-! ### Two rows with full scans -/

/-- A full scan over two rows draws the partition from the posterior. -/
theorem two_transition {E : Env G H Θ} {S : Scores H} {h0 : H} {π : List ℕ → ℝ} (T : Target E S 2 h0 π)
    (σ τ : Setoid (Fin 2)) : transition 2 π σ τ = weight π τ / ∑ ρ : Setoid (Fin 2), weight π ρ := by
  have hoff : ∀ σ τ : Setoid (Fin 2), SameOff 1 σ τ := by
    intro σ τ a b ha hb
    have : a = b := by omega
    subst this
    exact iff_of_true (σ.refl a) (τ.refl a)
  have h1 : ∀ σ τ : Setoid (Fin 2), gibbsK (weight π) 1 σ τ = weight π τ / ∑ ρ : Setoid (Fin 2), weight π ρ := by
    intro σ τ
    rw [gibbsK, if_pos (hoff σ τ)]
    congr 1
    refine Finset.sum_congr (Finset.ext fun ρ => ?_) fun _ _ => rfl
    simp [hoff σ ρ]
  have h2 : transition 2 π = gibbsK (weight π) 0 * gibbsK (weight π) 1 := by
    simp [transition, List.range_succ]
  rw [h2, Matrix.mul_apply]
  simp only [h1]
  rw [← Finset.sum_mul, (gibbsK_stochastic T.weight_pos 0).sum_one, one_mul]

/-- **C129, two rows.** With two rows and at least one full scan per iteration the claim holds for every
discount: a full scan draws the partition from the posterior, whatever the Metropolis-Hastings updates
did. Missing: more rows with a positive discount, for which `c129_three_rows_violated` refutes the
claim. -/
theorem c129_two_rows_partial [MeasurableSpace Θ] (E : Env G H Θ)
    (hfix : ∀ h l r, E.hyperUpdate h l r = h) (hk : E.kind ≠ .other) (like : Θ → ℕ → ℝ)
    (pred : H → ℕ → ℝ) (ν : H → Measure Θ) (V : H → Prop) (C : Conjugate E like pred ν V)
    {a b : ℝ} {py : PYState} (hpy : pyInit a b = .ok py) (nRestr nMh nFull : ℕ) (hf : 1 ≤ nFull)
    (K : ℕ) (hK : 0 < K) (hKn : K ≤ 2) (h0 : H) (hv : V h0) (θ0 : Θ) :
    SMConvergesTo E (pyScores pred py) nRestr nMh nFull K 2 h0 θ0
      (mixPosterior (pyPrior py) like (ν h0)) := by
  have hm := margLik_intLik C hv (pyScores pred py) rfl
  have e : pyPosterior py (fun D => Real.log (intLik like (ν h0) D)) =
      mixPosterior (pyPrior py) like (ν h0) := funext fun al => posterior_mix C hv _ _ al
  rw [← e]
  have T := py_target E hfix hk pred hpy (le_refl 2) hm
  obtain ⟨π, hπ⟩ : ∃ π, π = pyPosterior py (fun D => Real.log (intLik like (ν h0) D)) := ⟨_, rfl⟩
  rw [← hπ] at T ⊢
  obtain ⟨s0, -, hs0⟩ := init_good (E := E) T.kind hK hKn h0 θ0 ⟨fun _ => 0, fun _ => 0⟩
    (u := ⟨θ0, 0, ∅, 0, false, none⟩) rfl
  have hZ : 0 < ∑ σ : Setoid (Fin 2), weight π σ :=
    Finset.sum_pos (fun σ _ => T.weight_pos σ) Finset.univ_nonempty
  obtain ⟨k, rfl⟩ : ∃ k, nFull = k + 1 := ⟨nFull - 1, by omega⟩
  have h1 := ((mhK_stochastic T hs0 nRestr).pow nMh).mul (T.stochastic.pow k)
  have hP : ∀ σ τ, smK E (pyScores pred py) h0 nRestr 2 nMh (k + 1) π σ τ =
      weight π τ / ∑ ρ : Setoid (Fin 2), weight π ρ := by
    intro σ τ
    rw [smK, pow_succ, ← mul_assoc, Matrix.mul_apply]
    simp only [two_transition T]
    rw [← Finset.sum_mul, h1.sum_one, one_mul]
  have hst : Stochastic (smK E (pyScores pred py) h0 nRestr 2 nMh (k + 1) π) := by
    rw [smK, pow_succ, ← mul_assoc]
    exact h1.mul T.stochastic
  obtain ⟨δ, d0, d1, hc⟩ := law_converges hst
    (fun σ τ => by rw [hP]; exact div_pos (T.weight_pos τ) hZ) T.weight_pos (fun τ => by
      simp only [hP]
      rw [← Finset.sum_mul, mul_div_cancel₀ _ hZ.ne']) (T.smChain nRestr nMh (k + 1))
  refine ⟨δ, d0, d1, fun zi u hu => ?_⟩
  obtain ⟨s0, e0, hs0⟩ := init_good (E := E) T.kind hK hKn h0 θ0 zi hu
  exact ⟨s0, e0, hc s0 hs0⟩

example (y : ℕ → ℝ) (draw : NIG → ℕ → UniLS) (θ0 : UniLS) :
    SMConvergesTo (nnigEnv y draw fun h _ _ => h)
      (pyScores (fun h i => nnigMargLpdf h (y i)) ⟨1, 1 / 2⟩) 5 1 1 1 2 ⟨0, 1, 2, 1⟩ θ0
      (mixPosterior (pyPrior ⟨1, 1 / 2⟩) (fun st i => uniNormLpdf st (y i)) (nigLaw ⟨0, 1, 2, 1⟩)) :=
  c129_two_rows_partial _ (fun _ _ _ => rfl) (by simp [nnigEnv]) _ _ nigLaw NigValid
    (nnig_conjugate y draw _) (a := 1) (b := 1 / 2) (by norm_num [pyInit]) 5 1 1 le_rfl 1 one_pos
    one_le_two ⟨0, 1, 2, 1⟩ (by norm_num [NigValid]) θ0

end Bayesmix.Chain
