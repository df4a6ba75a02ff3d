import Verif.Algo.SMThree

/-!
# C129: split-merge runs on three rows, Pitman-Yor process with a positive discount
-/

namespace Bayesmix.Chain
open Bayesmix Cond Gibbs SplitMerge Slice Mixing Hierarchies MeasureTheory ENNReal

variable {G H Θ : Type} [AddCommGroup G]

/-! ### Weights -/

/-- Posterior weights of the partitions of three rows; the factors `L` come from the data alone. -/
theorem three_weights (m : Finset ℕ → ℝ) : ∃ (Lt Lb : ℝ) (L : Fin 3 → ℝ), 0 < Lt ∧ 0 < Lb ∧
    (∀ i, 0 < L i) ∧ ∀ a b : ℝ, (∀ al al' : List ℕ, al.length = 3 → al'.length = 3 →
      SamePart 3 al al' → pyPosterior ⟨a, b⟩ m al = pyPosterior ⟨a, b⟩ m al') →
    weight (pyPosterior ⟨a, b⟩ m) (⊤ : Setoid (Fin 3)) =
      (1 - b) * (2 - b) * Lt / ((1 + a) * (2 + a)) ∧
    weight (pyPosterior ⟨a, b⟩ m) (⊥ : Setoid (Fin 3)) =
      (a + b) * (a + 2 * b) * Lb / ((1 + a) * (2 + a)) ∧
    ∀ i, weight (pyPosterior ⟨a, b⟩ m) (alone i (⊤ : Setoid (Fin 3))) =
      (a + b) * (1 - b) * L i / ((1 + a) * (2 + a)) := by
  have hp : ∀ (al : List ℕ) (σ : Setoid (Fin 3)), (∀ i : Fin 3, rest3 i (partOf 3 al) ↔ rest3 i σ) →
      partOf 3 al = σ := fun al σ h => three_ext h
  have e1 : partOf 3 [0, 0, 0] = ⊤ := hp _ _ fun i => iff_of_true (by
    unfold rest3; rw [partOf_rel]; fin_cases i <;> simp [together]) trivial
  have e2 : partOf 3 [0, 1, 2] = ⊥ := hp _ _ fun i => iff_of_false (by
    unfold rest3; rw [partOf_rel]; fin_cases i <;> simp [together]) (rest3_bot i)
  have e3 : partOf 3 [0, 1, 1] = alone 0 ⊤ := hp _ _ fun i => by
    rw [rest3_alone]; unfold rest3; rw [partOf_rel]; fin_cases i <;> simp [together]
  have e4 : partOf 3 [0, 1, 0] = alone 1 ⊤ := hp _ _ fun i => by
    rw [rest3_alone]; unfold rest3; rw [partOf_rel]; fin_cases i <;> simp [together]
  have e5 : partOf 3 [0, 0, 1] = alone 2 ⊤ := hp _ _ fun i => by
    rw [rest3_alone]; unfold rest3; rw [partOf_rel]; fin_cases i <;> simp [together]
  obtain ⟨F, hF⟩ : ∃ F : List ℕ → ℝ, F = fun al =>
    Real.exp (∑ c ∈ al.toFinset, m (membersIn (Finset.range al.length) al c)) := ⟨_, rfl⟩
  have hF0 : ∀ al, 0 < F al := fun al => by rw [hF]; exact Real.exp_pos _
  refine ⟨F [0, 0, 0], F [0, 1, 2], ![F [0, 1, 1], F [0, 1, 0], F [0, 0, 1]], hF0 _, hF0 _,
    fun i => by fin_cases i <;> exact hF0 _, fun a b hpart => ?_⟩
  have hval : ∀ al : List ℕ, pyPosterior ⟨a, b⟩ m al =
      schemeProb (fun n _ c => pyMassExisting ⟨a, b⟩ n false c)
        (fun n k => pyMassNew ⟨a, b⟩ n k false) al * F al := by
    intro al; rw [hF]; rfl
  have hs : ∀ x y : ℝ, x / (1 + a) * (y / (2 + a)) = x * y / ((1 + a) * (2 + a)) := fun x y => by
    rw [div_mul_div_comm]
  refine ⟨?_, ?_, fun i => ?_⟩
  · rw [← e1, weight_part hpart (by simp), hval]
    simp [schemeProb, schemeFrom, pyMassExisting, pyMassNew]
    rw [hs]; ring
  · rw [← e2, weight_part hpart (by simp), hval]
    simp [schemeProb, schemeFrom, pyMassExisting, pyMassNew]
    rw [hs]; ring
  · fin_cases i
    · simp only [Fin.zero_eta, Fin.isValue]
      rw [← e3, weight_part hpart (by simp), hval]
      simp [schemeProb, schemeFrom, pyMassExisting, pyMassNew]
      rw [hs]; ring
    · simp only [Fin.mk_one, Fin.isValue]
      rw [← e4, weight_part hpart (by simp), hval]
      simp [schemeProb, schemeFrom, pyMassExisting, pyMassNew]
      rw [hs]; ring
    · simp only [Fin.reduceFinMk, Fin.isValue]
      rw [← e5, weight_part hpart (by simp), hval]
      simp [schemeProb, schemeFrom, pyMassExisting, pyMassNew]
      rw [hs]; ring

/-- The weights of labels that describe the same partition are the same. -/
theorem py_part {a b : ℝ} (ha : -1 < a) (m : Finset ℕ → ℝ) {n : ℕ} (hn : 2 ≤ n) (al al' : List ℕ)
    (h1 : al.length = n) (h2 : al'.length = n) (h : SamePart n al al') :
    pyPosterior ⟨a, b⟩ m al = pyPosterior ⟨a, b⟩ m al' := by
  rw [posterior_prod ha m (by omega) al h1, posterior_prod ha m (by omega) al' h2,
    prodPost_congr _ _ h1 h2 h]

/-! ### Metropolis-Hastings updates -/

/-- Two rows together and a third row apart: two clusters. -/
theorem two_clusters {f : ℕ → G} {s : Alg G H Θ} (hs : MarginalOk f 3 s) {i j : Fin 3} (hij : i ≠ j)
    (h : partOf 3 s.alloc i j) (hne : partOf 3 s.alloc ≠ ⊤) : s.clus.length = 2 := by
  have hrow : ∀ k < s.clus.length, ∃ x : Fin 3, s.alloc[x.val]? = some k := by
    intro k hk
    obtain ⟨x, hx, ex⟩ := hs.noEmpty k hk
    exact ⟨⟨x, by simpa using hx⟩, ex⟩
  have hpos := clus_pos hs.cons (by omega : 0 < 3)
  rw [partOf_rel, together] at h
  have hle : s.clus.length ≤ 2 := by
    by_contra hcon
    obtain ⟨x, hx⟩ := hrow 0 (by omega)
    obtain ⟨y, hy⟩ := hrow 1 (by omega)
    obtain ⟨z, hz⟩ := hrow 2 (by omega)
    have hxy : x ≠ y := by rintro rfl; rw [hx] at hy; simp at hy
    have hxz : x ≠ z := by rintro rfl; rw [hx] at hz; simp at hz
    have hyz : y ≠ z := by rintro rfl; rw [hy] at hz; simp at hz
    have hall : ∀ l : Fin 3, l = x ∨ l = y ∨ l = z := by
      intro l
      revert hxy hxz hyz
      clear hx hy hz
      revert x y z l
      decide
    rcases hall i with rfl | rfl | rfl <;> rcases hall j with rfl | rfl | rfl <;>
      first
      | exact hij rfl
      | (rw [hx, hy] at h; simp at h)
      | (rw [hx, hz] at h; simp at h)
      | (rw [hy, hx] at h; simp at h)
      | (rw [hy, hz] at h; simp at h)
      | (rw [hz, hx] at h; simp at h)
      | (rw [hz, hy] at h; simp at h)
  have hne1 : s.clus.length ≠ 1 := by
    intro h1
    apply hne
    refine Setoid.ext fun a b => iff_of_true ?_ trivial
    rw [partOf_rel, together]
    have hlab : ∀ l : Fin 3, s.alloc[l.val]? = some 0 := by
      intro l
      obtain ⟨c, hc, hlt⟩ := hs.cons.on.labelled l.val (Finset.mem_range.mpr l.isLt)
      have : c = 0 := by omega
      rw [hc, this]
    rw [hlab, hlab]
  omega

theorem lawMean_pos {S : Type} {l : Law S} (hl : IsLaw l) {f : S → ℝ} (hf : ∀ x, 0 < f x) :
    0 < lawMean l f := by
  have key : ∀ l : Law S, (∀ x ∈ l, 0 ≤ x.1) → 0 < lawMean l (fun _ => 1) → 0 < lawMean l f := by
    intro l
    induction l with
    | nil => intro _ h; simp [lawMean] at h
    | cons x l ih =>
      intro h0 h
      have hx : 0 ≤ x.1 := h0 x (by simp)
      have hl : ∀ y ∈ l, 0 ≤ y.1 := fun y hy => h0 y (by simp [hy])
      have e : ∀ g : S → ℝ, lawMean (x :: l) g = x.1 * g x.2 + lawMean l g := fun g => by
        simp [lawMean]
      rw [e] at h ⊢
      have hn : 0 ≤ lawMean l f := lawMean_nonneg hl fun y _ => (hf y.2).le
      rcases hx.lt_or_eq with h1 | h1
      · have := mul_pos h1 (hf x.2)
        linarith
      · rw [← h1] at h ⊢
        have := ih hl (by linarith)
        linarith
  exact key l hl.nonneg (by rw [hl.total]; exact one_pos)

/-- A split and its reverse merge have positive probability. -/
theorem pairK_pos {n : ℕ} {E : Env G H Θ} {S : Scores H} {h0 : H} (nRestr : ℕ) {i j : Fin n}
    {σ τ : Setoid (Fin n)} (h : SplitRel i j σ τ) :
    0 < pairK E S h0 nRestr i j σ τ ∧ 0 < pairK E S h0 nRestr i j τ σ := by
  have hmin : ∀ x : ℝ, 0 < min 1 (Real.exp x) := fun x => lt_min one_pos (Real.exp_pos x)
  constructor
  · rw [pairK, if_neg h.ne.symm, pairOff, if_pos h]
    exact lawMean_pos (labLaw_isLaw E S h0 i j _ nRestr) fun x => mul_pos (Real.exp_pos _) (hmin _)
  · rw [pairK, if_neg h.ne, pairOff, if_neg h.asymm, if_pos h]
    exact lawMean_pos (labLaw_isLaw E S h0 i j _ nRestr) fun x => hmin _

theorem mhK_pos {E : Env G H Θ} {S : Scores H} {h0 : H} {n : ℕ} {π : List ℕ → ℝ}
    (T : Target E S n h0 π) {s0 : Alg G H Θ} (hs0 : Good E n h0 s0) (nRestr : ℕ) {i j : Fin n}
    (hij : i ≠ j) {σ τ : Setoid (Fin n)} (h : 0 < pairK E S h0 nRestr i j σ τ) :
    0 < mhK E S h0 nRestr n σ τ := by
  have hn := T.two
  have hn0 : (0 : ℝ) < 1 / (n : ℝ) := one_div_pos.mpr (by exact_mod_cast (by omega : 0 < n))
  have hn1 : (0 : ℝ) < 1 / ((n - 1 : ℕ) : ℝ) :=
    one_div_pos.mpr (by exact_mod_cast (by omega : 0 < n - 1))
  have hnn : ∀ a < n, ∀ b < n - 1, 0 ≤ pairN E S h0 nRestr n a (second a b) σ τ := by
    intro a ha b hb
    obtain ⟨h1, h2⟩ := second_ok ha hb
    rw [pairN_eq ha h1]
    exact (pairK_stochastic T hs0 nRestr fun e => h2 (Fin.mk.inj e).symm).nonneg σ τ
  obtain ⟨b, hb, hjb⟩ : ∃ b < n - 1, second i.val b = j.val := by
    have h1 : i.val ≠ j.val := fun e => hij (Fin.ext e)
    have h2 := i.isLt
    have h3 := j.isLt
    by_cases hlt : j.val < i.val
    · exact ⟨j.val, by omega, by unfold second; rw [if_neg (by omega)]⟩
    · exact ⟨j.val - 1, by omega, by unfold second; rw [if_pos (by omega)]; omega⟩
  unfold mhK mixK
  refine lt_of_lt_of_le (mul_pos hn0 ?_) (Finset.single_le_sum (f := fun a => 1 / (n : ℝ) *
    ∑ b ∈ Finset.range (n - 1), 1 / ((n - 1 : ℕ) : ℝ) * pairN E S h0 nRestr n a (second a b) σ τ)
    (fun a ha => mul_nonneg hn0.le (Finset.sum_nonneg fun b hb => mul_nonneg hn1.le
      (hnn a (Finset.mem_range.mp ha) b (Finset.mem_range.mp hb))))
    (Finset.mem_range.mpr i.isLt))
  refine lt_of_lt_of_le (mul_pos hn1 ?_) (Finset.single_le_sum (f := fun b =>
    1 / ((n - 1 : ℕ) : ℝ) * pairN E S h0 nRestr n i (second i b) σ τ)
    (fun b hb => mul_nonneg hn1.le (hnn i i.isLt b (Finset.mem_range.mp hb)))
    (Finset.mem_range.mpr hb))
  rw [hjb, pairN_eq i.isLt j.isLt]
  exact h

/-- The split of rows 0, 1 and 2 together that puts row 2 apart. -/
theorem split_top : SplitRel (n := 3) 0 2 ⊤ (alone 2 ⊤) := by
  refine ⟨trivial, ?_, fun x => iff_of_true trivial ?_, fun x y h => absurd trivial h⟩
  · rw [alone_rel]; simp
  · rw [alone_rel, alone_rel]
    fin_cases x <;> simp [Setoid.top_def]

/-- The split of rows 0 and 1 next to row 2. -/
theorem split_two : SplitRel (n := 3) 0 1 (alone 2 ⊤) ⊥ := by
  refine ⟨?_, ?_, fun x => ?_, fun x y h => ?_⟩
  · rw [alone_rel]; simp [Setoid.top_def]
  · rw [Setoid.bot_def]; simp
  · rw [alone_rel, Setoid.bot_def]
    fin_cases x <;> simp [Setoid.top_def]
  · rw [alone_rel] at h
    rw [alone_rel, Setoid.bot_def]
    fin_cases x <;> fin_cases y <;> simp [Setoid.top_def] at h ⊢

/-- After any number of updates, starting with all rows together, rows 1 and 2 may be apart. -/
theorem apart_pos {E : Env G H Θ} {S : Scores H} {h0 : H} {π : List ℕ → ℝ}
    (T : Target E S 3 h0 π) {s0 : Alg G H Θ} (hs0 : Good E 3 h0 s0) (nRestr k : ℕ) :
    0 < (mhK E S h0 nRestr 3 ^ (k + 1)) ⊤ (alone 2 ⊤) ∨ 0 < (mhK E S h0 nRestr 3 ^ (k + 1)) ⊤ ⊥ := by
  have hst := mhK_stochastic T hs0 nRestr
  have h1 : 0 < mhK E S h0 nRestr 3 ⊤ (alone 2 ⊤) :=
    mhK_pos T hs0 nRestr (by decide) (pairK_pos nRestr split_top).1
  have h2 : 0 < mhK E S h0 nRestr 3 (alone 2 ⊤) ⊥ :=
    mhK_pos T hs0 nRestr (by decide) (pairK_pos nRestr split_two).1
  have h3 : 0 < mhK E S h0 nRestr 3 ⊥ (alone 2 ⊤) :=
    mhK_pos T hs0 nRestr (by decide) (pairK_pos nRestr split_two).2
  have step : ∀ (k : ℕ) (σ τ : Setoid (Fin 3)), 0 < (mhK E S h0 nRestr 3 ^ k) ⊤ σ →
      0 < mhK E S h0 nRestr 3 σ τ → 0 < (mhK E S h0 nRestr 3 ^ (k + 1)) ⊤ τ := by
    intro k σ τ h h'
    rw [pow_succ, Matrix.mul_apply]
    exact lt_of_lt_of_le (mul_pos h h') (Finset.single_le_sum
      (f := fun ρ => (mhK E S h0 nRestr 3 ^ k) ⊤ ρ * mhK E S h0 nRestr 3 ρ τ)
      (fun ρ _ => mul_nonneg ((hst.pow k).nonneg _ _) (hst.nonneg _ _)) (Finset.mem_univ σ))
  induction k with
  | zero => rw [zero_add, pow_one]; exact Or.inl h1
  | succ k ih =>
    rcases ih with h | h
    · exact Or.inr (step _ _ _ h h2)
    · exact Or.inl (step _ _ _ h h3)

open Classical in
/-- Weights with those of `w` except at one point, where they are multiplied by `c`. -/
noncomputable def dampedAt {X : Type} (w : X → ℝ) (x : X) (c : ℝ) (y : X) : ℝ := if y = x then c * w y else w y

/-- On three rows the updates keep the posterior with the weight of the partition with all rows together
multiplied by a factor, which is less than one if the discount is positive. -/
theorem mhK_keeps {E : Env G H Θ} {S : Scores H} {h0 : H} {a b : ℝ} (h1 : -b < a) (h2 : 0 ≤ b)
    (h3 : b < 1) {m : Finset ℕ → ℝ} (T : Target E S 3 h0 (pyPosterior ⟨a, b⟩ m))
    (hex : ∀ c : ℕ, 1 ≤ c → S.exist 3 2 c = Real.log (c - b)) (hnew : S.fresh 3 2 = Real.log (a + b * 2))
    (hm : MargLik E S h0 m) {s0 : Alg G H Θ} (hs0 : Good E 3 h0 s0) (nRestr : ℕ) :
    Invariant (dampedAt (weight (pyPosterior ⟨a, b⟩ m)) ⊤ ((a + b) / (a + b * 2)))
      (mhK E S h0 nRestr 3) := by
  have hφ : 0 < a + b * 2 := by linarith
  have hab : 0 < a + b := by linarith
  refine mixK_invariant (by omega) fun i hi => mixK_invariant (by omega) fun j hj => ?_
  obtain ⟨g1, g2⟩ := second_ok hi hj
  rw [pairN_eq hi g1]
  obtain ⟨i', hi'⟩ : ∃ i' : Fin 3, i' = ⟨i, hi⟩ := ⟨_, rfl⟩
  obtain ⟨j', hj'⟩ : ∃ j' : Fin 3, j' = ⟨second i j, g1⟩ := ⟨_, rfl⟩
  have hij : i' ≠ j' := by
    rw [hi', hj']
    exact fun e => g2 (Fin.mk.inj e).symm
  rw [← hi', ← hj']
  refine invariant_of_reversible (pairK_sum E S h0 nRestr i' j') fun σ τ => ?_
  by_cases h : τ = σ
  · rw [h]
  rw [pairK, if_neg h, pairK, if_neg (Ne.symm h)]
  refine pairOff_reversible (fun σ τ hst c0 => ?_) σ τ
  have hτ : τ ≠ ⊤ := by
    rintro rfl
    exact hst.divided trivial
  rw [show dampedAt (weight (pyPosterior ⟨a, b⟩ m)) ⊤ ((a + b) / (a + b * 2)) τ =
    weight (pyPosterior ⟨a, b⟩ m) τ from if_neg hτ]
  by_cases hσ : σ = ⊤
  · rw [hσ] at hst ⊢
    rw [show dampedAt (weight (pyPosterior ⟨a, b⟩ m)) ⊤ ((a + b) / (a + b * 2)) ⊤ =
      (a + b) / (a + b * 2) * weight (pyPosterior ⟨a, b⟩ m) ⊤ from if_pos rfl]
    have hp' := py_part (a := a + b) (b := b) (by linarith) m (by omega : 2 ≤ 3)
    obtain ⟨s, hs, hps, hb⟩ := pair_balance_iff (st := ⟨a + b, b⟩) hφ (by simp only; linarith) h2 h3 T
      hp' hex hnew hm hs0 hij ⊤ τ hst c0
    have hbal := hb.mpr (by
      rw [one_cluster hs.ok (by omega) hps]
      simp only [Nat.cast_one]
      ring)
    obtain ⟨Lt, Lb, L, -, -, -, hW⟩ := three_weights m
    obtain ⟨t1, -, t2⟩ := hW (a + b) b hp'
    obtain ⟨u1, -, u2⟩ := hW a b T.part
    obtain ⟨l, hl⟩ : ∃ l, τ = alone l ⊤ := by
      rcases three_cases τ with h | h | h
      · exact absurd h hτ
      · exfalso
        have hc := hst.cover
        rw [h] at hc
        have hall : ∀ x : Fin 3, x = i' ∨ x = j' := fun x => (hc x).mp trivial
        revert hij hall
        clear * -
        revert i' j'
        decide
      · exact h
    rw [hl] at hbal ⊢
    rw [t1, t2 l] at hbal
    rw [u1, u2 l]
    have p1 : 0 < 1 + a := by linarith
    have p2 : 0 < 2 + a := by linarith
    have p3 : 0 < 1 + (a + b) := by linarith
    have p4 : 0 < 2 + (a + b) := by linarith
    obtain ⟨A, hA⟩ : ∃ A, A = Real.exp (transLog E S h0 (i'.val) (j'.val) (rowsOf ⊤ i' j') c0
      (labOf (alone l ⊤) i' (rowsOf ⊤ i' j')) (rowsOf ⊤ i' j').length) := ⟨_, rfl⟩
    obtain ⟨B, hB⟩ : ∃ B, B = min 1 (Real.exp (splitRate E S h0 3 (i'.val) (j'.val) (rowsOf ⊤ i' j') c0
      (labOf (alone l ⊤) i' (rowsOf ⊤ i' j')))) := ⟨_, rfl⟩
    obtain ⟨B', hB'⟩ : ∃ B', B' = min 1 (Real.exp (-splitRate E S h0 3 (i'.val) (j'.val)
      (rowsOf ⊤ i' j') c0 (labOf (alone l ⊤) i' (rowsOf ⊤ i' j')))) := ⟨_, rfl⟩
    rw [← hA, ← hB, ← hB'] at hbal ⊢
    have q1 : (1 - b) * (2 - b) * Lt * A * B = (a + b + b) * (1 - b) * L l * B' := by
      field_simp at hbal
      linarith
    have e1 : (a + b) / (a + b * 2) * ((1 - b) * (2 - b) * Lt / ((1 + a) * (2 + a))) * A * B =
        (a + b) / ((a + b * 2) * ((1 + a) * (2 + a))) * ((1 - b) * (2 - b) * Lt * A * B) := by
      field_simp
    have e2 : (a + b) * (1 - b) * L l / ((1 + a) * (2 + a)) * B' =
        (a + b) / ((a + b * 2) * ((1 + a) * (2 + a))) * ((a + b + b) * (1 - b) * L l * B') := by
      rw [show a + b + b = a + b * 2 by ring]
      field_simp
    rw [e1, e2, q1]
  · rw [show dampedAt (weight (pyPosterior ⟨a, b⟩ m)) ⊤ ((a + b) / (a + b * 2)) σ =
      weight (pyPosterior ⟨a, b⟩ m) σ from if_neg hσ]
    obtain ⟨s, hs, hps, hb⟩ := pair_balance_iff (st := ⟨a, b⟩) hφ h1 h2 h3 T T.part hex hnew hm hs0
      hij σ τ hst c0
    refine hb.mpr ?_
    rw [two_clusters hs.ok hij (by rw [hps]; exact hst.united) (by rw [hps]; exact hσ)]
    simp

/-- A full scan does not repair what the updates do to the posterior. -/
theorem three_not_invariant {E : Env G H Θ} {S : Scores H} {h0 : H} {a b : ℝ} (h1 : -b < a) (h2 : 0 < b)
    (h3 : b < 1) {m : Finset ℕ → ℝ} (T : Target E S 3 h0 (pyPosterior ⟨a, b⟩ m))
    (hex : ∀ c : ℕ, 1 ≤ c → S.exist 3 2 c = Real.log (c - b)) (hnew : S.fresh 3 2 = Real.log (a + b * 2))
    (hm : MargLik E S h0 m) {s0 : Alg G H Θ} (hs0 : Good E 3 h0 s0) (nRestr nMh nFull : ℕ)
    (hmh : 1 ≤ nMh) (hne : carry (weight (pyPosterior ⟨a, b⟩ m)) 0 1 2 ≠ 0 ∧
      carry (weight (pyPosterior ⟨a, b⟩ m)) 1 2 0 ≠ 0 ∧ carry (weight (pyPosterior ⟨a, b⟩ m)) 2 0 1 ≠ 0) :
    ¬ Invariant (weight (pyPosterior ⟨a, b⟩ m))
      (smK E S h0 nRestr 3 nMh nFull (pyPosterior ⟨a, b⟩ m)) := by
  classical
  intro hinv
  obtain ⟨w, hwd⟩ : ∃ w : Setoid (Fin 3) → ℝ, w = weight (pyPosterior ⟨a, b⟩ m) := ⟨_, rfl⟩
  have hw : ∀ σ : Setoid (Fin 3), 0 < w σ := by rw [hwd]; exact T.weight_pos
  obtain ⟨k, rfl⟩ : ∃ k, nMh = k + 1 := ⟨nMh - 1, by omega⟩
  obtain ⟨c, hc⟩ : ∃ c, c = (a + b) / (a + b * 2) := ⟨_, rfl⟩
  have hφ : 0 < a + b * 2 := by linarith
  have hc1 : c < 1 := by rw [hc, div_lt_one hφ]; linarith
  have hkeep := (mhK_keeps h1 h2.le h3 T hex hnew hm hs0 nRestr).pow (k + 1)
  rw [← hc, ← hwd] at hkeep
  have hst := (mhK_stochastic T hs0 nRestr).pow (k + 1)
  obtain ⟨P, hP⟩ : ∃ P, P = mhK E S h0 nRestr 3 ^ (k + 1) := ⟨_, rfl⟩
  have hap := apart_pos T hs0 nRestr k
  rw [← hP] at hkeep hst hap
  -- the deviation after the updates
  have hdev : ∀ τ, after w P τ - w τ = (1 - c) * w ⊤ * (P ⊤ τ - if τ = ⊤ then 1 else 0) := by
    intro τ
    have e1 : ∀ σ, w σ = dampedAt w ⊤ c σ + if σ = ⊤ then (1 - c) * w ⊤ else 0 := by
      intro σ
      unfold dampedAt
      by_cases h : σ = ⊤
      · rw [if_pos h, if_pos h, h]; ring
      · rw [if_neg h, if_neg h, add_zero]
    have e2 : after w P τ = dampedAt w ⊤ c τ + (1 - c) * w ⊤ * P ⊤ τ := by
      unfold after
      rw [Finset.sum_congr rfl fun σ _ => by rw [e1 σ, add_mul, ite_mul, zero_mul],
        Finset.sum_add_distrib, hkeep τ, Finset.sum_ite_eq' Finset.univ ⊤]
      simp
    rw [e2, e1 τ]
    by_cases h : τ = ⊤
    · rw [if_pos h, if_pos h]; ring
    · rw [if_neg h, if_neg h]; ring
  obtain ⟨v, hv⟩ : ∃ v : Setoid (Fin 3) → ℝ, v = fun τ => after w P τ - w τ := ⟨_, rfl⟩
  have hv0 : ∑ σ, v σ = 0 := by
    rw [hv, Finset.sum_sub_distrib, after_sum w hst.sum_one, sub_self]
  have hneg : mass3 v 0 < 0 := by
    have hs := hst.sum_one ⊤
    rw [three_sum, Fin.sum_univ_three] at hs
    rw [mass3, three_sum, Fin.sum_univ_three]
    simp only [rest3_alone, rest3_top, rest3_bot, ↓reduceIte,
      show (0 : Fin 3) ≠ 1 by decide, show (0 : Fin 3) ≠ 2 by decide]
    rw [hv]
    simp only [hdev, if_true, if_neg (alone_ne_top 0)]
    have hpos : 0 < P ⊤ ⊥ + P ⊤ (alone 1 ⊤) + P ⊤ (alone 2 ⊤) := by
      have q1 := hst.nonneg ⊤ ⊥
      have q2 := hst.nonneg ⊤ (alone 1 ⊤)
      have q3 := hst.nonneg ⊤ (alone 2 ⊤)
      rcases hap with h | h <;> linarith
    have hcw : 0 < (1 - c) * w ⊤ := mul_pos (by linarith) (hw _)
    nlinarith [mul_pos hcw hpos]
  have hsc := mass3_scans (π := pyPosterior ⟨a, b⟩ m) T.weight_pos nFull v hv0
  have hzero : ∀ τ, after v (transition 3 (pyPosterior ⟨a, b⟩ m) ^ nFull) τ = 0 := by
    intro τ
    have h5 := hinv τ
    have h6 := (T.invariant.pow nFull) τ
    rw [← hwd] at h5 h6
    have h7 : after (after w P) (transition 3 (pyPosterior ⟨a, b⟩ m) ^ nFull) τ = w τ := by
      rw [← after_mul, hP]
      exact h5
    rw [hv]
    unfold after at h7 ⊢
    simp only [sub_mul, Finset.sum_sub_distrib]
    rw [h7, h6, sub_self]
  rw [show mass3 (after v (transition 3 (pyPosterior ⟨a, b⟩ m) ^ nFull)) 0 = 0 by
    unfold mass3; simp [hzero]] at hsc
  have hcar := pow_ne_zero nFull (mul_ne_zero (mul_ne_zero hne.2.2 hne.2.1) hne.1)
  exact (mul_ne_zero hcar hneg.ne) hsc.symm

/-- For all strengths except at most three, which depend on the data, an iteration does not keep the
posterior. -/
theorem three_exceptional (E : Env G H Θ) (hfix : ∀ h l r, E.hyperUpdate h l r = h)
    (hk : E.kind ≠ .other) (pred : H → ℕ → ℝ) {b : ℝ} (hb : 0 < b) (h0 : H) (m : Finset ℕ → ℝ)
    (hm : ∀ py, MargLik E (pyScores pred py) h0 m) :
    ∃ X : Finset ℝ, X.card ≤ 3 ∧ ∀ (a : ℝ) (py : PYState), a ∉ X → pyInit a b = .ok py →
      ∀ (nRestr nMh nFull : ℕ) (_ : Θ), 1 ≤ nMh →
        ¬ Invariant (weight (pyPosterior py m))
          (smK E (pyScores pred py) h0 nRestr 3 nMh nFull (pyPosterior py m)) := by
  classical
  obtain ⟨Lt, Lb, L, p1, p2, p3, hW⟩ := three_weights m
  -- the determinant of a carry, divided by a positive factor, is linear in the strength
  obtain ⟨A, hA⟩ : ∃ A : Fin 3 → Fin 3 → ℝ, A = fun i j =>
    (2 - b) * Lt * Lb - (1 - b) * (L i * L j) := ⟨_, rfl⟩
  obtain ⟨B, hB⟩ : ∃ B : Fin 3 → Fin 3 → Fin 3 → ℝ, B = fun i j k =>
    (1 - b) * (2 - b) * Lt * L k + (2 - b) * (2 * b) * Lt * Lb - b * (1 - b) * (L i * L j) := ⟨_, rfl⟩
  refine ⟨{-B 0 1 2 / A 0 1, -B 1 2 0 / A 1 2, -B 2 0 1 / A 2 0}, Finset.card_le_three, ?_⟩
  intro a py ha hpy nRestr nMh nFull θ0 hmh hinv
  have T := py_target E hfix hk pred hpy (by omega : 2 ≤ 3) (hm py)
  obtain ⟨rfl, h1, h2, h3⟩ := pyInit_ok hpy
  have hex : ∀ c : ℕ, 1 ≤ c → (pyScores pred ⟨a, b⟩).exist 3 2 c = Real.log ((c : ℝ) - b) := by
    intro c hc
    have hc' : (1 : ℝ) ≤ c := by exact_mod_cast hc
    have : (c : ℝ) - b ≠ 0 := by linarith
    have hc0 : c ≠ 0 := by omega
    simp [pyScores, pyLogMassExisting, hc0, stdLog, this]
  have hpos : 0 < a + b * 2 := by linarith
  have hnew : (pyScores pred ⟨a, b⟩).fresh 3 2 = Real.log (a + b * 2) := by
    simp [pyScores, pyLogMassNew, stdLog, hpos.ne']
  obtain ⟨s0, -, hs0⟩ := init_good (E := E) (n := 3) T.kind one_pos (by omega) h0 θ0
    ⟨fun _ => 0, fun _ => 0⟩ (u := ⟨θ0, 0, ∅, 0, false, none⟩) rfl
  obtain ⟨w1, w2, w3⟩ := hW a b T.part
  have key : ∀ i j k : Fin 3, a ≠ -B i j k / A i j →
      weight (pyPosterior ⟨a, b⟩ m) (⊤ : Setoid (Fin 3)) *
        (weight (pyPosterior ⟨a, b⟩ m) (⊥ : Setoid (Fin 3)) +
        weight (pyPosterior ⟨a, b⟩ m) (alone k ⊤)) ≠ weight (pyPosterior ⟨a, b⟩ m) (alone i ⊤) *
          weight (pyPosterior ⟨a, b⟩ m) (alone j ⊤) := by
    intro i j k hne heq
    rw [w1, w2, w3, w3, w3] at heq
    have q1 : 0 < 1 + a := by linarith
    have q2 : 0 < 2 + a := by linarith
    have q3 : 0 < a + b := by linarith
    have q4 : 0 < 1 - b := by linarith
    have q5 : 0 < 2 - b := by linarith
    have hlin : A i j * a + B i j k = 0 := by
      rw [hA, hB]
      field_simp at heq
      dsimp only
      linarith
    by_cases hA0 : A i j = 0
    · rw [hA0, zero_mul, zero_add, hB] at hlin
      rw [hA] at hA0
      dsimp only at hlin hA0
      have r1 : 0 < (1 - b) * (2 - b) * Lt * L k := by have := p3 k; positivity
      have r2 : 0 < (2 - b) * Lt * Lb := by positivity
      nlinarith [mul_pos hb r2]
    · apply hne
      rw [eq_div_iff hA0]
      linarith
  simp only [Finset.mem_insert, Finset.mem_singleton, not_or] at ha
  exact three_not_invariant h1 hb h3 T hex hnew (hm _) hs0 nRestr nMh nFull hmh
    ⟨carry_ne_zero T.weight_pos (key 0 1 2 ha.1), carry_ne_zero T.weight_pos (key 1 2 0 ha.2.1),
      carry_ne_zero T.weight_pos (key 2 0 1 ha.2.2)⟩ hinv

/-- **C129, Pitman-Yor process, violation with full scans.** On three rows, with a positive discount and
at least one Metropolis-Hastings update per iteration, runs do not converge to the posterior, however
many restricted and full scans are made: for all strengths except at most three, which depend on
the data. -/
theorem c129_three_rows_violated [MeasurableSpace Θ] (E : Env G H Θ)
    (hfix : ∀ h l r, E.hyperUpdate h l r = h) (hk : E.kind ≠ .other) (like : Θ → ℕ → ℝ)
    (pred : H → ℕ → ℝ) (ν : H → Measure Θ) (V : H → Prop) (C : Conjugate E like pred ν V)
    {b : ℝ} (hb : 0 < b) (h0 : H) (hv : V h0) :
    ∃ X : Finset ℝ, X.card ≤ 3 ∧ ∀ (a : ℝ) (py : PYState), a ∉ X → pyInit a b = .ok py →
      ∀ (nRestr nMh nFull K : ℕ) (θ0 : Θ), 1 ≤ nMh → 0 < K → K ≤ 3 →
        ¬ SMConvergesTo E (pyScores pred py) nRestr nMh nFull K 3 h0 θ0
          (mixPosterior (pyPrior py) like (ν h0)) := by
  obtain ⟨X, hX, h⟩ := three_exceptional E hfix hk pred hb h0 (fun D => Real.log (intLik like (ν h0) D))
    fun py => margLik_intLik C hv (pyScores pred py) rfl
  refine ⟨X, hX, fun a py ha hpy nRestr nMh nFull K θ0 hmh hK hKn hconv => ?_⟩
  have e : pyPosterior py (fun D => Real.log (intLik like (ν h0) D)) =
      mixPosterior (pyPrior py) like (ν h0) := funext fun al => posterior_mix C hv _ _ al
  rw [← e] at hconv
  exact h a py ha hpy nRestr nMh nFull θ0 hmh (hconv.invariant (py_target E hfix hk pred hpy
    (by omega : 2 ≤ 3) (margLik_intLik C hv (pyScores pred py) rfl)) hK hKn)

/-- Normal data, discount one half: almost every strength. -/
example (y : ℕ → ℝ) (draw : NIG → ℕ → UniLS) :
    ∃ X : Finset ℝ, X.card ≤ 3 ∧ ∀ (a : ℝ) (py : PYState), a ∉ X → pyInit a (1 / 2) = .ok py →
      ∀ (nRestr nMh nFull K : ℕ) (θ0 : UniLS), 1 ≤ nMh → 0 < K → K ≤ 3 →
        ¬ SMConvergesTo (nnigEnv y draw fun h _ _ => h)
          (pyScores (fun h i => nnigMargLpdf h (y i)) py) nRestr nMh nFull K 3 ⟨0, 1, 2, 1⟩ θ0
          (mixPosterior (pyPrior py) (fun st i => uniNormLpdf st (y i)) (nigLaw ⟨0, 1, 2, 1⟩)) :=
  c129_three_rows_violated _ (fun _ _ _ => rfl) (by simp [nnigEnv]) _ _ nigLaw NigValid
    (nnig_conjugate y draw _) (by norm_num) ⟨0, 1, 2, 1⟩ (by norm_num [NigValid])

end Bayesmix.Chain
