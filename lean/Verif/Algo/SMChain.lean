import Verif.Algo.SMKernel

/-! # Reversibility of the Metropolis-Hastings updates, and the chain of split-merge runs -/

namespace Bayesmix.Chain
open Bayesmix Cond Gibbs SplitMerge Slice

variable {G H Θ : Type} [AddCommGroup G] {n : ℕ}

/-! ### Uniform mixtures of kernels -/

section mix

variable {X : Type} [Fintype X] [DecidableEq X] {S : Type}

/-- The uniform mixture of `m` kernels. -/
noncomputable def mixK (m : ℕ) (K : ℕ → Matrix X X ℝ) : Matrix X X ℝ := fun x y =>
  ∑ k ∈ Finset.range m, 1 / (m : ℝ) * K k x y

theorem mixK_stochastic {m : ℕ} (hm : m ≠ 0) {K : ℕ → Matrix X X ℝ}
    (h : ∀ k < m, Stochastic (K k)) : Stochastic (mixK m K) := by
  have hm' : (m : ℝ) ≠ 0 := by exact_mod_cast hm
  refine ⟨fun x y => Finset.sum_nonneg fun k hk => mul_nonneg (by positivity)
    ((h k (Finset.mem_range.mp hk)).nonneg x y), fun x => ?_⟩
  unfold mixK
  rw [Finset.sum_comm, Finset.sum_congr rfl fun k hk => by
    rw [← Finset.mul_sum, (h k (Finset.mem_range.mp hk)).sum_one x]]
  simp [hm']

theorem mixK_invariant {m : ℕ} (hm : m ≠ 0) {K : ℕ → Matrix X X ℝ} {w : X → ℝ}
    (h : ∀ k < m, Invariant w (K k)) : Invariant w (mixK m K) := by
  have hm' : (m : ℝ) ≠ 0 := by exact_mod_cast hm
  intro y
  unfold mixK
  simp only [Finset.mul_sum]
  rw [Finset.sum_comm, Finset.sum_congr rfl fun k hk => by
    rw [Finset.sum_congr rfl fun x _ => show w x * (1 / (m : ℝ) * K k x y) =
      1 / (m : ℝ) * (w x * K k x y) by ring, ← Finset.mul_sum, h k (Finset.mem_range.mp hk) y]]
  rw [Finset.sum_const, Finset.card_range, nsmul_eq_mul]
  field_simp

theorem drawUniform_ok {m : ℕ} (hm : m ≠ 0) :
    drawUniform m = .ok ((List.range m).map fun c => (1 / (m : ℝ), c)) := by
  unfold drawUniform
  rw [if_neg hm, drawThen_ok (t := fun c => c) fun _ _ => rfl, List.length_replicate]
  congr 1
  refine List.map_congr_left fun c hc => ?_
  rw [List.mem_range] at hc
  rw [List.getD_eq_getElem?_getD, List.getElem?_replicate, if_pos hc, Option.getD_some]

theorem lawMean_range {T : Type} (m : ℕ) (a : ℝ) (g : ℕ → T) (f : T → ℝ) :
    lawMean ((List.range m).map fun c => (a, g c)) f = ∑ c ∈ Finset.range m, a * f (g c) := by
  unfold lawMean
  rw [List.map_map]
  rfl

theorem mixK_law {Good : S → Prop} {g : S → X} {m : ℕ} (hm : m ≠ 0) {K : ℕ → Matrix X X ℝ}
    {f : ℕ → S → Except Fault (Law S)} (h : ∀ k < m, HasLaw Good g (K k) (f k)) :
    HasLaw Good g (mixK m K) (fun s => do
      let l ← drawUniform m
      Law.into l fun k => f k s) := by
  intro s hs
  have : ∀ k, ∃ l : Law S, k < m → f k s = .ok l ∧ (∀ x ∈ l, 0 ≤ x.1 ∧ Good x.2) ∧
      ∀ y, l.prob (fun t => g t = y) = K k (g s) y := by
    intro k
    by_cases hk : k < m
    · obtain ⟨l, hl⟩ := h k hk s hs
      exact ⟨l, fun _ => hl⟩
    · exact ⟨[], fun h => absurd h hk⟩
  choose l hl using this
  refine ⟨_, by
    dsimp only
    rw [drawUniform_ok hm, ok_bind]
    exact into_ok (m := l) fun x hx => by
      obtain ⟨c, hc, rfl⟩ := List.mem_map.mp hx
      exact (hl c (List.mem_range.mp hc)).1, ?_, fun y => ?_⟩
  · intro x hx
    obtain ⟨u, hu, v, hv, rfl⟩ := mem_lbind hx
    obtain ⟨c, hc, rfl⟩ := List.mem_map.mp hu
    have h1 := (hl c (List.mem_range.mp hc)).2.1 v hv
    exact ⟨mul_nonneg (by positivity) h1.1, h1.2⟩
  · rw [prob_eq_lawMean, lawMean_lbind, lawMean_range]
    unfold mixK
    refine Finset.sum_congr rfl fun k hk => ?_
    rw [← prob_eq_lawMean, (hl k (Finset.mem_range.mp hk)).2.2]

theorem const_prod (M : Matrix X X ℝ) (k : ℕ) : ((List.range k).map fun _ => M).prod = M ^ k := by
  simp

/-- A stochastic matrix times a positive one is positive. -/
theorem mul_pos_of {P Q : Matrix X X ℝ} (hP : Stochastic P) (hQ : ∀ x y, 0 < Q x y) (x y : X) :
    0 < (P * Q) x y := by
  rw [Matrix.mul_apply]
  have hex : ∃ z, 0 < P x z := by
    by_contra h
    push Not at h
    have h1 := hP.sum_one x
    have h2 : ∑ z, P x z ≤ 0 := Finset.sum_nonpos fun z _ => h z
    linarith
  obtain ⟨z, hz⟩ := hex
  exact lt_of_lt_of_le (mul_pos hz (hQ z y)) (Finset.single_le_sum (f := fun z => P x z * Q z y)
    (fun u _ => mul_nonneg (hP.nonneg x u) (hQ u y).le) (Finset.mem_univ z))

/-- Continuing a law with a kernel. -/
theorem HasLaw.into {Good : S → Prop} {g : S → X} {P Q : Matrix X X ℝ}
    {f f' : S → Except Fault (Law S)} (hf : HasLaw Good g P f) (hf' : HasLaw Good g Q f') :
    HasLaw Good g (P * Q) (fun s => do
      let l ← f s
      Law.into l f') := by
  intro s hs
  obtain ⟨l, e, hg, hp⟩ := hf s hs
  obtain ⟨m, e2, hg2, hp2⟩ := andThen_law hf' hg
  refine ⟨m, by dsimp only; rw [e, ok_bind]; exact e2, hg2, fun y => ?_⟩
  rw [hp2, Matrix.mul_apply]
  exact Finset.sum_congr rfl fun z _ => by rw [hp]

/-- Nonnegative probabilities. -/
theorem HasLaw.nonneg {Good : S → Prop} {g : S → X} {P : Matrix X X ℝ}
    {f : S → Except Fault (Law S)} (hf : HasLaw Good g P f) {s : S} (hs : Good s) (y : X) :
    0 ≤ P (g s) y := by
  obtain ⟨l, -, hg, hp⟩ := hf s hs
  rw [← hp y, prob_eq_lawMean]
  exact lawMean_nonneg (fun x hx => (hg x hx).1) fun x => by split <;> norm_num

end mix

/-! ### Balance -/

section balance

variable {E : Env G H Θ} {S : Scores H} {h0 : H} {π : List ℕ → ℝ}

/-- Every partition is the partition of a good state. -/
theorem Target.reach (T : Target E S n h0 π) {s0 : Alg G H Θ} (hs : Good E n h0 s0)
    (σ : Setoid (Fin n)) : ∃ s, Good E n h0 s ∧ partOf n s.alloc = σ := by
  classical
  obtain ⟨l, -, hg, hp⟩ := T.iter ⟨fun _ => (0, 0), fun _ => 0, 0, fun _ _ => 0⟩ s0 hs
  have hpos : 0 < l.prob (fun t => partOf n t.alloc = σ) := by
    rw [hp]
    exact sweep_pos T.weight_pos _ _
  by_contra h
  push Not at h
  rw [prob_eq_lawMean, lawMean_congr (f' := fun _ => 0 * 1), lawMean_mul, zero_mul] at hpos
  · exact lt_irrefl _ hpos
  · intro x hx
    rw [if_neg (h x.2 (hg x hx).2), zero_mul]

theorem weight_part (hinv : ∀ al al' : List ℕ, al.length = n → al'.length = n →
    SamePart n al al' → π al = π al') {al : List ℕ} (hl : al.length = n) :
    weight π (partOf n al) = π al := by
  refine hinv _ _ (labelsOf_length _) hl ?_
  rw [← partOf_eq, partOf_labelsOf]

/-- Detailed balance for a split and its reverse merge, from every launch state, holds if and only if
the mass of a new cluster is the right one. -/
theorem pair_balance_iff {φ : ℝ} (hφ : 0 < φ) {m : Finset ℕ → ℝ} {st : Mixing.PYState}
    (h1 : -st.discount < st.strength) (h2 : 0 ≤ st.discount) (h3 : st.discount < 1)
    (T : Target E S n h0 π) (hpart : ∀ al al' : List ℕ, al.length = n → al'.length = n →
      SamePart n al al' → pyPosterior st m al = pyPosterior st m al')
    (hex : ∀ c : ℕ, 1 ≤ c → S.exist n 2 c = Real.log (c - st.discount)) (hnew : S.fresh n 2 = Real.log φ)
    (hm : MargLik E S h0 m) {s0 : Alg G H Θ} (hs0 : Good E n h0 s0) {i j : Fin n} (hij : i ≠ j)
    (σ τ : Setoid (Fin n)) (hst : SplitRel i j σ τ) (c0 : ℕ → Bool) :
    ∃ s, Good E n h0 s ∧ partOf n s.alloc = σ ∧ (weight (pyPosterior st m) σ *
        Real.exp (transLog E S h0 i j (rowsOf σ i j) c0 (labOf τ i (rowsOf σ i j))
          (rowsOf σ i j).length) *
        min 1 (Real.exp (splitRate E S h0 n i j (rowsOf σ i j) c0 (labOf τ i (rowsOf σ i j)))) =
      weight (pyPosterior st m) τ *
        min 1 (Real.exp (-splitRate E S h0 n i j (rowsOf σ i j) c0 (labOf τ i (rowsOf σ i j)))) ↔
      φ = st.strength + st.discount * s.clus.length) := by
  obtain ⟨s, hs, rfl⟩ := T.reach hs0 σ
  refine ⟨s, hs, rfl, ?_⟩
  have hc := hs.ok.cons
  have ht : together s.alloc i j := hst.united
  have hij' : i.val ≠ j.val := fun e => hij (Fin.ext e)
  have hn : 0 < n := i.pos
  obtain ⟨o, ho⟩ := first_obj hc hn
  rw [rowsOf_part]
  obtain ⟨rows, hrows⟩ : ∃ rows, rows = scanRows n s.alloc i j := ⟨_, rfl⟩
  have hr := scanRows_ok (n := n) (al := s.alloc) hij'
  rw [← hrows] at hr ⊢
  obtain ⟨c1, hc1⟩ : ∃ c1, c1 = labOf τ i rows := ⟨_, rfl⟩
  rw [← hc1]
  have hunion : side i j rows c1 false ∪ side i j rows c1 true = clusterOf n s.alloc i := by
    rw [side_union, hrows, scanRows_union i.isLt j.isLt, show clusterOf n s.alloc j =
      clusterOf n s.alloc i by
        have ht' : s.alloc[i.val]? = s.alloc[j.val]? := ht
        simp [clusterOf, ht'], Finset.union_self]
  have hiD : i.val ∈ side i j rows c1 false := root_mem i j rows c1 false
  have hjD : j.val ∉ side i j rows c1 false := fun h =>
    Finset.disjoint_left.mp (side_disjoint hr c1) h (root_mem i j rows c1 true)
  have hsub : side i j rows c1 false ⊆ clusterOf n s.alloc i := by
    rw [← hunion]; exact Finset.subset_union_left
  obtain ⟨s', e', hd⟩ := proposal_split (L := launchOf E s.hyp o.state i j rows c1) T.kind hc i.isLt
    j.isLt ht rfl hiD hjD hsub
  have hrel : SplitRel i j (partOf n s.alloc) (partOf n s'.alloc) :=
    splitRel_of (isSplit_of hc ht hiD hjD hsub hd)
  have hside : ∀ x : Fin n, partOf n s'.alloc x i ↔ x.val ∈ side i j rows c1 false := by
    intro x
    rw [← (split_rows hc ht hiD hjD hsub hd).1, mem_clusterOf, and_iff_right x.isLt]
    rfl
  have hτ : partOf n s'.alloc = τ :=
    (lands_iff hr hrows hside hrel hst).mpr fun u _ => by rw [hc1]
  obtain ⟨z, hz⟩ : ∃ z : MHNoise, z = ⟨0, 0, fun k => if c0 k then 1 else 0, fun _ _ => 0,
    fun _ => 0, 0⟩ := ⟨_, rfl⟩
  obtain ⟨r, hrd⟩ : ∃ r : ℕ → ℕ, r = fun k => if c1 k then 1 else 0 := ⟨_, rfl⟩
  have hb : ∀ c : ℕ → Bool, (fun k => decide ((if c k then 1 else 0) % 2 = 1)) = c := by
    intro c
    funext k
    cases c k <;> simp
  have hl0 : launchLab 0 z = c0 := by
    rw [hz]
    exact hb c0
  have hr1 : (fun k => decide (r k % 2 = 1)) = c1 := by
    rw [hrd]
    exact hb c1
  have hL := launch_ok S T.kind hc i.isLt j.isLt hij' ho 0 z
  have hA := logArate_split S T.kind hc i.isLt hij' ht ho c0 r
  rw [hl0] at hL
  rw [← hrows] at hL hA
  rw [hr1] at hA
  obtain ⟨q, hrev, hbal⟩ := c83_balance_iff E S 0 T.kind n s hc hs.ok.noEmpty i j i.isLt j.isLt hij' z
    r st h1 h2 h3 hex φ hφ hnew m
    (by rw [hs.hyp]; exact hm) _ _ _ s' hL hA e'
  have hq : q = transLog E S s.hyp i j rows c0 c1 rows.length := by
    have h4 := hrev.scan
    rw [restrictedGs_ok S T.kind hr c0 (by simp) true r] at h4
    have h5 := (Prod.mk.inj (Except.ok.inj h4)).2
    rw [← h5]
    simp only [if_true]
    congr 1
  have := hbal
  rw [hq, hs.hyp] at this
  rw [← hτ, weight_part hpart hc.len, weight_part hpart hd.cons.len]
  exact this

theorem pair_balance {φ : ℝ} (hφ : 0 < φ) {m : Finset ℕ → ℝ}
    (T : Target E S n h0 (pyPosterior ⟨φ, 0⟩ m))
    (hex : ∀ c : ℕ, 1 ≤ c → S.exist n 2 c = Real.log c) (hnew : S.fresh n 2 = Real.log φ)
    (hm : MargLik E S h0 m) {s0 : Alg G H Θ} (hs0 : Good E n h0 s0) {i j : Fin n} (hij : i ≠ j)
    (σ τ : Setoid (Fin n)) (hst : SplitRel i j σ τ) (c0 : ℕ → Bool) :
    weight (pyPosterior ⟨φ, 0⟩ m) σ *
        Real.exp (transLog E S h0 i j (rowsOf σ i j) c0 (labOf τ i (rowsOf σ i j))
          (rowsOf σ i j).length) *
        min 1 (Real.exp (splitRate E S h0 n i j (rowsOf σ i j) c0 (labOf τ i (rowsOf σ i j)))) =
      weight (pyPosterior ⟨φ, 0⟩ m) τ *
        min 1 (Real.exp (-splitRate E S h0 n i j (rowsOf σ i j) c0 (labOf τ i (rowsOf σ i j)))) := by
  obtain ⟨s, -, -, h⟩ := pair_balance_iff hφ (by simpa using hφ) le_rfl one_pos T T.part
    (fun c h => by rw [hex c h, sub_zero]) hnew hm hs0 hij σ τ hst c0
  exact h.mpr (by simp)

theorem pairK_sum (E : Env G H Θ) (S : Scores H) (h0 : H) (nRestr : ℕ) (i j : Fin n)
    (σ : Setoid (Fin n)) : ∑ τ, pairK E S h0 nRestr i j σ τ = 1 := by
  rw [← Finset.add_sum_erase _ _ (Finset.mem_univ σ), Finset.sum_congr rfl fun τ hτ =>
    show pairK E S h0 nRestr i j σ τ = pairOff E S h0 nRestr i j σ τ by
      rw [pairK, if_neg (Finset.ne_of_mem_erase hτ)], pairK, if_pos rfl]
  ring

theorem pairK_stochastic (T : Target E S n h0 π) {s0 : Alg G H Θ} (hs0 : Good E n h0 s0)
    (nRestr : ℕ) {i j : Fin n} (hij : i ≠ j) : Stochastic (pairK E S h0 nRestr i j) := by
  refine ⟨fun σ τ => ?_, pairK_sum E S h0 nRestr i j⟩
  obtain ⟨s, hs, rfl⟩ := T.reach hs0 σ
  exact (pair_law S T.kind nRestr hij).nonneg hs τ

theorem pairK_invariant {φ : ℝ} (hφ : 0 < φ) {m : Finset ℕ → ℝ}
    (T : Target E S n h0 (pyPosterior ⟨φ, 0⟩ m))
    (hex : ∀ c : ℕ, 1 ≤ c → S.exist n 2 c = Real.log c) (hnew : S.fresh n 2 = Real.log φ)
    (hm : MargLik E S h0 m) {s0 : Alg G H Θ} (hs0 : Good E n h0 s0) (nRestr : ℕ) {i j : Fin n}
    (hij : i ≠ j) :
    Invariant (weight (pyPosterior ⟨φ, 0⟩ m)) (pairK E S h0 nRestr i j) := by
  refine invariant_of_reversible (pairK_sum E S h0 nRestr i j) fun σ τ => ?_
  by_cases h : τ = σ
  · rw [h]
  · rw [pairK, if_neg h, pairK, if_neg (Ne.symm h)]
    exact pairOff_reversible (pair_balance hφ T hex hnew hm hs0 hij) σ τ

/-- The kernel for two rows given as numbers. -/
noncomputable def pairN (E : Env G H Θ) (S : Scores H) (h0 : H) (nRestr n i j : ℕ) :
    Matrix (Setoid (Fin n)) (Setoid (Fin n)) ℝ :=
  if h : i < n ∧ j < n then pairK E S h0 nRestr ⟨i, h.1⟩ ⟨j, h.2⟩ else 1

/-- The number of the second row, lines 36-39. -/
def second (i j : ℕ) : ℕ := if j ≥ i then j + 1 else j

theorem second_ok {i j : ℕ} (hi : i < n) (hj : j < n - 1) : second i j < n ∧ second i j ≠ i := by
  unfold second
  split <;> omega

/-- The kernel of a Metropolis-Hastings update. -/
noncomputable def mhK (E : Env G H Θ) (S : Scores H) (h0 : H) (nRestr n : ℕ) :
    Matrix (Setoid (Fin n)) (Setoid (Fin n)) ℝ :=
  mixK n fun i => mixK (n - 1) fun j => pairN E S h0 nRestr n i (second i j)

theorem pairN_eq {E : Env G H Θ} {S : Scores H} {h0 : H} {nRestr i j : ℕ} (hi : i < n)
    (hj : j < n) : pairN E S h0 nRestr n i j = pairK E S h0 nRestr ⟨i, hi⟩ ⟨j, hj⟩ :=
  dif_pos ⟨hi, hj⟩

theorem mh_law (hk : E.kind ≠ .other) (hn : 2 ≤ n) (nRestr : ℕ) :
    HasLaw (Good E n h0) (fun s => partOf n s.alloc) (mhK E S h0 nRestr n)
      (mhLaw E S nRestr n) := by
  have key := mixK_law (Good := Good E n h0) (g := fun s : Alg G H Θ => partOf n s.alloc)
    (m := n) (by omega) (K := fun i => mixK (n - 1) fun j => pairN E S h0 nRestr n i (second i j))
    (f := fun i s => do
      let m ← drawUniform (n - 1)
      Law.into m fun j => pairLaw E S nRestr s i (second i j)) fun i hi =>
    mixK_law (m := n - 1) (by omega) (f := fun j s => pairLaw E S nRestr s i (second i j))
      fun j hj => by
        obtain ⟨h1, h2⟩ := second_ok hi hj
        rw [pairN_eq hi h1]
        exact pair_law (i := ⟨i, hi⟩) (j := ⟨second i j, h1⟩) S hk nRestr
          (fun e => h2 (Fin.mk.inj e).symm)
  exact key

theorem mhK_stochastic (T : Target E S n h0 π) {s0 : Alg G H Θ} (hs0 : Good E n h0 s0)
    (nRestr : ℕ) : Stochastic (mhK E S h0 nRestr n) := by
  have hn := T.two
  refine mixK_stochastic (by omega) fun i hi => mixK_stochastic (by omega) fun j hj => ?_
  obtain ⟨h1, h2⟩ := second_ok hi hj
  rw [pairN_eq hi h1]
  exact pairK_stochastic T hs0 nRestr fun e => h2 (Fin.mk.inj e).symm

theorem mhK_invariant {φ : ℝ} (hφ : 0 < φ) {m : Finset ℕ → ℝ}
    (T : Target E S n h0 (pyPosterior ⟨φ, 0⟩ m))
    (hex : ∀ c : ℕ, 1 ≤ c → S.exist n 2 c = Real.log c) (hnew : S.fresh n 2 = Real.log φ)
    (hm : MargLik E S h0 m) {s0 : Alg G H Θ} (hs0 : Good E n h0 s0) (nRestr : ℕ) :
    Invariant (weight (pyPosterior ⟨φ, 0⟩ m)) (mhK E S h0 nRestr n) := by
  have hn := T.two
  refine mixK_invariant (by omega) fun i hi => mixK_invariant (by omega) fun j hj => ?_
  obtain ⟨h1, h2⟩ := second_ok hi hj
  rw [pairN_eq hi h1]
  exact pairK_invariant hφ T hex hnew hm hs0 nRestr fun e => h2 (Fin.mk.inj e).symm

/-! ### Iterations -/

/-- The kernel of an iteration. -/
noncomputable def smK (E : Env G H Θ) (S : Scores H) (h0 : H) (nRestr n nMh nFull : ℕ)
    (π : List ℕ → ℝ) : Matrix (Setoid (Fin n)) (Setoid (Fin n)) ℝ :=
  mhK E S h0 nRestr n ^ nMh * transition n π ^ nFull

theorem Target.smIter (T : Target E S n h0 π) (nRestr nMh nFull : ℕ) (z : RestNoise) :
    HasLaw (Good E n h0) (fun s => partOf n s.alloc) (smK E S h0 nRestr n nMh nFull π)
      (smIter E S nRestr n nMh nFull z) := by
  have h1 := sweep_law (g := fun s : Alg G H Θ => partOf n s.alloc)
    (K := fun _ => mhK E S h0 nRestr n) (row := fun _ => mhLaw E S nRestr n) (List.range nMh)
    fun _ _ => mh_law T.kind T.two nRestr
  have h2 := sweep_law (g := fun s : Alg G H Θ => partOf n s.alloc)
    (K := fun _ => transition n π)
    (row := fun k => sweep (neal3Row E S n (z.full k)) (List.range n)) (List.range nFull)
    fun k _ => sweep_law (List.range n) fun i hi => T.row (z.full k) (List.mem_range.mp hi)
  rw [const_prod] at h1 h2
  intro s hs
  obtain ⟨l, e, hg, hp⟩ := h1.into h2 s hs
  have hr : ∀ x : ℝ × Alg G H Θ, ∃ t : Alg G H Θ, x ∈ l → (do
      let t ← sampleUniqueValues E true z.uv x.2
      updateHypers E z.hyp t) = .ok t ∧ Good E n h0 t ∧ t.alloc = x.2.alloc := by
    intro x
    by_cases hx : x ∈ l
    · obtain ⟨t, ht⟩ := T.rest ⟨fun _ => (0, 0), z.uv, z.hyp, fun _ _ => 0⟩ (hg x hx).2
      exact ⟨t, fun _ => ht⟩
    · exact ⟨x.2, fun h => absurd h hx⟩
  choose t ht using hr
  refine ⟨l.map fun x => (x.1, t x), ?_, ?_, fun τ => ?_⟩
  · unfold Chain.smIter
    cases e0 : sweep (fun _ => mhLaw E S nRestr n) (List.range nMh) s with
    | error f => simp only [e0] at e; cases e
    | ok l0 =>
      simp only [e0, ok_bind] at e
      rw [ok_bind, e, ok_bind]
      refine Gibbs.mapM_ok _ _ _ fun x hx => ?_
      have := (ht x hx).1
      cases e1 : sampleUniqueValues E true z.uv x.2 with
      | error f => rw [e1] at this; cases this
      | ok u =>
        rw [e1, ok_bind] at this
        rw [ok_bind, this, ok_bind]
  · intro x hx
    obtain ⟨y, hy, rfl⟩ := List.mem_map.mp hx
    exact ⟨(hg y hy).1, (ht y hy).2.1⟩
  · rw [smK, ← hp τ]
    unfold Law.prob
    rw [List.map_map]
    congr 1
    refine List.map_congr_left fun x hx => ?_
    simp only [Function.comp, (ht x hx).2.2]

theorem Target.smChain (T : Target E S n h0 π) (nRestr nMh nFull : ℕ) (zs : List RestNoise) :
    HasLaw (Good E n h0) (fun s => partOf n s.alloc)
      (smK E S h0 nRestr n nMh nFull π ^ zs.length) (smChain E S nRestr n nMh nFull zs) := by
  induction zs with
  | nil =>
    intro s hs
    refine ⟨[(1, s)], rfl, by simp [hs], fun y => ?_⟩
    simp [Law.prob, Matrix.one_apply]
  | cons z zs ih =>
    intro s hs
    obtain ⟨l, e, hg, hp⟩ := T.smIter nRestr nMh nFull z s hs
    obtain ⟨m, e2, hg2, hp2⟩ := andThen_law ih hg
    refine ⟨m, by rw [Chain.smChain, e, ok_bind, e2], hg2, fun y => ?_⟩
    rw [hp2, List.length_cons, pow_succ', Matrix.mul_apply]
    exact Finset.sum_congr rfl fun z _ => by rw [hp]

/-- Chains with positive invariant kernels converge to the posterior. -/
theorem law_converges {N : Type} {P : Matrix (Setoid (Fin n)) (Setoid (Fin n)) ℝ}
    (hst : Stochastic P) (hpos : ∀ σ τ, 0 < P σ τ) (hw : ∀ σ : Setoid (Fin n), 0 < weight π σ)
    (hi : Invariant (weight π) P) {chain : List N → Alg G H Θ → Except Fault (Law (Alg G H Θ))}
    (hc : ∀ zs, HasLaw (Good E n h0) (fun s => partOf n s.alloc) (P ^ zs.length) (chain zs)) :
    ∃ δ : ℝ, 0 < δ ∧ δ ≤ 1 ∧ ∀ s, Good E n h0 s → ∀ zs : List N,
      ∃ l, chain zs s = .ok l ∧ (∀ x ∈ l, 0 ≤ x.1) ∧ ∀ A : Finset (Setoid (Fin n)),
        |l.prob (fun t => partOf n t.alloc ∈ A) - postProb n π A| ≤ (1 - δ) ^ zs.length := by
  obtain ⟨q, hq, q0, q1⟩ := lower_bound hst hpos
  refine ⟨∑ y, q y, q0, q1, fun s hs zs => ?_⟩
  obtain ⟨l, e, h1, h2⟩ := hc zs s hs
  refine ⟨l, e, fun x hx => (h1 x hx).1, fun A => ?_⟩
  have hZ : 0 < ∑ σ : Setoid (Fin n), weight π σ :=
    Finset.sum_pos (fun σ _ => hw σ) Finset.univ_nonempty
  have hinv : Invariant (fun σ : Setoid (Fin n) => weight π σ / ∑ ρ : Setoid (Fin n), weight π ρ)
      P := by
    intro τ
    simp only [div_mul_eq_mul_div]
    rw [← Finset.sum_div, hi τ]
  have := Chain.converges hst hq (w := fun σ => weight π σ / ∑ ρ : Setoid (Fin n), weight π ρ)
    (fun σ => div_nonneg (hw σ).le hZ.le)
    (by rw [← Finset.sum_div]; exact div_self hZ.ne') hinv (fun σ => if σ ∈ A then 1 else 0) (C := 1)
    (fun x y => by split <;> split <;> norm_num) zs.length (partOf n s.alloc)
  rw [mul_one] at this
  have e1 : l.prob (fun t => partOf n t.alloc ∈ A) =
      ∑ y, (P ^ zs.length) (partOf n s.alloc) y * if y ∈ A then 1 else 0 := by
    rw [prob_mem]
    simp only [h2, mul_ite, mul_one, mul_zero]
    rw [Finset.sum_ite_mem, Finset.univ_inter]
  have e2 : postProb n π A = ∑ y, weight π y / (∑ ρ : Setoid (Fin n), weight π ρ) * if y ∈ A then 1 else 0 := by
    simp only [mul_ite, mul_one, mul_zero]
    rw [Finset.sum_ite_mem, Finset.univ_inter, ← Finset.sum_div]
    rfl
  rw [e1, e2]
  exact this

/-- The kernel of an iteration with full scans. -/
theorem smK_ok {φ : ℝ} (hφ : 0 < φ) {m : Finset ℕ → ℝ}
    (T : Target E S n h0 (pyPosterior ⟨φ, 0⟩ m))
    (hex : ∀ c : ℕ, 1 ≤ c → S.exist n 2 c = Real.log c) (hnew : S.fresh n 2 = Real.log φ)
    (hm : MargLik E S h0 m) {s0 : Alg G H Θ} (hs0 : Good E n h0 s0) (nRestr nMh : ℕ) {nFull : ℕ}
    (hf : 1 ≤ nFull) :
    Stochastic (smK E S h0 nRestr n nMh nFull (pyPosterior ⟨φ, 0⟩ m)) ∧
      (∀ σ τ, 0 < smK E S h0 nRestr n nMh nFull (pyPosterior ⟨φ, 0⟩ m) σ τ) ∧
      Invariant (weight (pyPosterior ⟨φ, 0⟩ m)) (smK E S h0 nRestr n nMh nFull (pyPosterior ⟨φ, 0⟩ m)) := by
  have h1 := (mhK_stochastic T hs0 nRestr).pow nMh
  have h2 := T.stochastic.pow nFull
  refine ⟨h1.mul h2, mul_pos_of h1 ?_,
    ((mhK_invariant hφ T hex hnew hm hs0 nRestr).pow nMh).mul (T.invariant.pow nFull)⟩
  obtain ⟨k, rfl⟩ : ∃ k, nFull = k + 1 := ⟨nFull - 1, by omega⟩
  rw [pow_succ]
  exact mul_pos_of (T.stochastic.pow k) fun σ τ => sweep_pos T.weight_pos σ τ

theorem sm_converges {φ : ℝ} (hφ : 0 < φ) {m : Finset ℕ → ℝ}
    (T : Target E S n h0 (pyPosterior ⟨φ, 0⟩ m))
    (hex : ∀ c : ℕ, 1 ≤ c → S.exist n 2 c = Real.log c) (hnew : S.fresh n 2 = Real.log φ)
    (hm : MargLik E S h0 m) {s0 : Alg G H Θ} (hs0 : Good E n h0 s0) (nRestr nMh : ℕ) {nFull : ℕ}
    (hf : 1 ≤ nFull) :
    ∃ δ : ℝ, 0 < δ ∧ δ ≤ 1 ∧ ∀ s, Good E n h0 s → ∀ zs : List RestNoise,
      ∃ l, smChain E S nRestr n nMh nFull zs s = .ok l ∧ (∀ x ∈ l, 0 ≤ x.1) ∧
        ∀ A : Finset (Setoid (Fin n)),
          |l.prob (fun t => partOf n t.alloc ∈ A) - postProb n (pyPosterior ⟨φ, 0⟩ m) A| ≤
            (1 - δ) ^ zs.length := by
  obtain ⟨h1, h2, h3⟩ := smK_ok hφ T hex hnew hm hs0 nRestr nMh hf
  exact law_converges h1 h2 T.weight_pos h3 (T.smChain nRestr nMh nFull)

end balance

end Bayesmix.Chain
