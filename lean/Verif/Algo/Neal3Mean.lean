import Verif.Algo.AvgRun
import Verif.Algo.PostMean
import Verif.Algo.PropsNeal2Chain

/-!
# Iterations of Neal3 with the laws of all draws

Means over all draws of `BaseAlgorithm::step` with Neal3 and fixed hyperparameters. Every cluster keeps
its posterior hyperparameters, and labels are drawn without looking at the values, so that an iteration
moves from partition to partition and then draws values given the partition.
-/

namespace Bayesmix.Chain
open Bayesmix Cond Gibbs SplitMerge Slice Mixing Density Hierarchies MeasureTheory ENNReal

/-! ### Places drawn without looking at the values -/

section flat

variable {X : Type} [Fintype X] [DecidableEq X] {Y : Type} [MeasurableSpace Y]

/-- Places drawn from a matrix. -/
noncomputable def flatR (Y : Type) (P : Matrix X X ℝ) : X → Y → X → ℝ≥0∞ :=
  fun x _ z => ENNReal.ofReal (P x z)

variable {P : Matrix X X ℝ} {V : X → Measure Y}

theorem flat_ok (hP : Stochastic P) (hV : ∀ x, IsProbabilityMeasure (V x)) : DiscOk (flatR Y P) V := by
  refine ⟨fun _ _ => measurable_const, fun x y => ?_, hV⟩
  unfold flatR
  rw [← ENNReal.ofReal_sum_of_nonneg fun z _ => hP.nonneg x z, hP.sum_one, ENNReal.ofReal_one]

theorem flat_matrix (hP : Stochastic P) (hV : ∀ x, IsProbabilityMeasure (V x)) :
    discMatrix (flatR Y P) V = P := by
  funext x z
  have := hV x
  unfold discMatrix flatR
  rw [lintegral_const, measure_univ, mul_one, ENNReal.toReal_ofReal (hP.nonneg x z)]

/-- Convergence of means of integrable functions. -/
theorem DiscOk.converges_int {r : X → Y → X → ℝ≥0∞} (h : DiscOk r V) {z0 : X}
    (hpos : ∀ x, 0 < discMatrix r V x z0) {w : X → ℝ} (hw : ∀ x, 0 ≤ w x) (hw1 : ∑ x, w x = 1)
    (hinv : Invariant w (discMatrix r V)) :
    ∃ δ : ℝ, 0 < δ ∧ δ ≤ 1 ∧ ∀ (Φ : X → Y → ℝ≥0∞), (∀ z, ∫⁻ y, Φ z y ∂V z ≠ ∞) →
      ∃ b : ℝ, ∀ (k : ℕ) (x : X) (y : Y), (discKernel r V)^[k + 1] Φ x y ≠ ∞ ∧
        |((discKernel r V)^[k + 1] Φ x y).toReal - ∑ z, w z * (∫⁻ y, Φ z y ∂V z).toReal| ≤
          b * (1 - δ) ^ k := by
  obtain ⟨δ, d0, d1, hδ⟩ := h.converges hpos hw hw1 hinv
  refine ⟨δ, d0, d1, fun Φ hfin => ?_⟩
  have hV := h.prob
  obtain ⟨c, hc⟩ : ∃ c : ℝ≥0∞, c = 1 + ∑ z, ∫⁻ y, Φ z y ∂V z := ⟨_, rfl⟩
  have hc1 : c ≠ ∞ := by
    rw [hc]
    exact ENNReal.add_ne_top.mpr ⟨ENNReal.one_ne_top, ENNReal.sum_ne_top.mpr fun z _ => hfin z⟩
  have hc0 : c ≠ 0 := by
    rw [hc]
    exact (lt_of_lt_of_le one_pos le_self_add).ne'
  obtain ⟨Ψ, hΨ⟩ : ∃ Ψ : X → Y → ℝ≥0∞, Ψ = fun z _ => c⁻¹ * ∫⁻ y, Φ z y ∂V z := ⟨_, rfl⟩
  have hΨ1 : ∀ z y, Ψ z y ≤ 1 := by
    intro z y
    rw [hΨ]
    dsimp only
    rw [← ENNReal.inv_mul_cancel hc0 hc1]
    refine mul_le_mul_right (le_trans ?_ (hc ▸ le_add_self)) _
    exact Finset.single_le_sum (f := fun z => ∫⁻ y, Φ z y ∂V z) (fun _ _ => zero_le)
      (Finset.mem_univ z)
  have hcΨ : ∀ z, ∫⁻ y, Φ z y ∂V z = c * ∫⁻ y, Ψ z y ∂V z := by
    intro z
    have := hV z
    rw [hΨ]
    dsimp only
    rw [lintegral_const, measure_univ, mul_one, ← mul_assoc, ENNReal.mul_inv_cancel hc0 hc1, one_mul]
  have hit : ∀ k x y, (discKernel r V)^[k + 1] Φ x y = c * (discKernel r V)^[k + 1] Ψ x y := by
    intro k
    induction k with
    | zero =>
      intro x y
      simp only [Function.iterate_succ, Function.iterate_zero, Function.comp, id]
      unfold discKernel
      rw [Finset.mul_sum]
      refine Finset.sum_congr rfl fun z _ => ?_
      rw [hcΨ z]
      ring
    | succ k ih =>
      intro x y
      rw [Function.iterate_succ_apply' _ (k + 1), Function.iterate_succ_apply' _ (k + 1)]
      conv_lhs => unfold discKernel
      conv_rhs => unfold discKernel
      rw [Finset.mul_sum]
      refine Finset.sum_congr rfl fun z _ => ?_
      have e : ∫⁻ y', (discKernel r V)^[k + 1] Φ z y' ∂V z =
          c * ∫⁻ y', (discKernel r V)^[k + 1] Ψ z y' ∂V z := by
        rw [← lintegral_const_mul' _ _ hc1]
        exact lintegral_congr fun y => ih z y
      unfold discKernel at e
      rw [e]
      ring
  refine ⟨c.toReal, fun k x y => ?_⟩
  have hle : (discKernel r V)^[k + 1] Ψ x y ≤ 1 := by
    clear hit
    induction k generalizing x y with
    | zero =>
      simp only [Function.iterate_succ, Function.iterate_zero, Function.comp, id]
      refine (discKernel_mono hΨ1 x y).trans (le_of_eq ?_)
      unfold discKernel
      simp [h.one]
    | succ k ih =>
      rw [Function.iterate_succ_apply' _ (k + 1)]
      refine (discKernel_mono ih x y).trans (le_of_eq ?_)
      unfold discKernel
      simp [h.one]
  rw [hit k x y]
  refine ⟨ENNReal.mul_ne_top hc1 (ne_top_of_le_ne_top ENNReal.one_ne_top hle), ?_⟩
  have e : ∑ z, w z * (∫⁻ y, Φ z y ∂V z).toReal =
      c.toReal * ∑ z, w z * (∫⁻ y, Ψ z y ∂V z).toReal := by
    rw [Finset.mul_sum]
    refine Finset.sum_congr rfl fun z _ => ?_
    rw [hcΨ z, ENNReal.toReal_mul]
    ring
  rw [e, ENNReal.toReal_mul, ← mul_sub, abs_mul, abs_of_nonneg ENNReal.toReal_nonneg]
  exact mul_le_mul_of_nonneg_left (hδ Ψ hΨ1 k x y) ENNReal.toReal_nonneg

end flat

variable {G H Θ : Type} [AddCommGroup G] {n : ℕ}

/-! ### Means over the draws -/

section means

variable [MeasurableSpace Θ] [Nonempty Θ]

/-- The mean of `g` after Neal3 updated row `i` (`src/algorithms/neal2_algorithm.cc` 29-61 with
`get_cluster_lpdf` of `src/algorithms/neal3_algorithm.cc` 18-32): the label is drawn with the computed
probabilities, the value of a new cluster (line 52) from the law of a draw with its hyperparameters.
Hyperparameters are saved (`update_hierarchy_params`, `src/algorithms/neal3_algorithm.h` 36). Infinite if
something fails. -/
noncomputable def neal3RowMean (E : Env G H Θ) (S : Scores H) (ν : H → Measure Θ)
    (n i : ℕ) (g : Alg G H Θ → ℝ≥0∞) (s : Alg G H Θ) : ℝ≥0∞ :=
  match (do let (s1, _, _) ← detach E true s i; neal3Probas E S n s1 i) with
  | .error _ => ∞
  | .ok p => ∑ c ∈ Finset.range p.length, ENNReal.ofReal (p.getD c 0) *
      ∫⁻ draw, (match neal2Datum (withDraw E draw) true s i c 0 with
        | .error _ => ∞
        | .ok t => g t) ∂valueDraws ν

/-- The mean of `g` after Neal3 updated the given rows one after the other
(`src/algorithms/neal2_algorithm.cc` 24-62). -/
noncomputable def neal3SweepMean (E : Env G H Θ) (S : Scores H) (ν : H → Measure Θ) (n : ℕ) :
    List ℕ → (Alg G H Θ → ℝ≥0∞) → Alg G H Θ → ℝ≥0∞
  | [], g => g
  | i :: is, g => neal3RowMean E S ν n i (neal3SweepMean E S ν n is g)

/-- The mean of `g` after the unique values were drawn and the hyperparameters updated
(`src/algorithms/neal2_algorithm.cc` 64-68, `src/algorithms/base_algorithm.cc` 157-168). -/
noncomputable def values3Mean (E : Env G H Θ) (ν : H → Measure Θ) (g : Alg G H Θ → ℝ≥0∞)
    (s : Alg G H Θ) : ℝ≥0∞ :=
  ∫⁻ draw, (match (do
      let s ← sampleUniqueValues (withDraw E draw) true id s
      updateHypers E 0 s) with
    | .error _ => ∞
    | .ok t => g t) ∂valueDraws ν

/-- The mean of `g` after an iteration of Neal3 (`src/algorithms/base_algorithm.h` 179-184); the
mixing is not updated. -/
noncomputable def neal3IterMean (E : Env G H Θ) (S : Scores H) (ν : H → Measure Θ) (n : ℕ)
    (g : Alg G H Θ → ℝ≥0∞) : Alg G H Θ → ℝ≥0∞ :=
  neal3SweepMean E S ν n (List.range n) (values3Mean E ν g)

end means

/-! ### States without their saved hyperparameters -/

/-- The object without saved hyperparameters. -/
def bare (o : Hier G H Θ) : Hier G H Θ := { o with saved := false, ph := none }

/-- The state without saved hyperparameters. -/
def forget (s : Alg G H Θ) : Alg G H Θ := { s with clus := s.clus.map bare }

theorem forget_get (s : Alg G H Θ) (c : ℕ) : (forget s).clus[c]? = (s.clus[c]?).map bare := by
  simp [forget]

theorem valueOf_forget (s : Alg G H Θ) (j : ℕ) : valueOf (forget s) j = valueOf s j := by
  unfold valueOf
  congr 1
  funext c
  rw [forget_get, Option.map_map]
  rfl

theorem rowValues_forget (d : Θ) (s : Alg G H Θ) : rowValues n d (forget s) = rowValues n d s := by
  funext j
  unfold rowValues
  rw [valueOf_forget]

theorem estimateAt_forget {T : Type} (M : MixOps T) (st : T) (like : Θ → ℕ → ℝ) (marg : ℕ → EReal)
    (x : ℕ) (s : Alg G H Θ) : estimateAt M st like marg x (forget s) = estimateAt M st like marg x s := by
  have e : clusterLpdf like (forget s) = clusterLpdf like s := by
    funext j x
    unfold clusterLpdf
    rw [forget_get]
    cases s.clus[j]? <;> rfl
  unfold estimateAt
  rw [e]
  simp [forget, Function.comp_def, bare]

theorem Good.forget {E : Env G H Θ} {h : H} {s : Alg G H Θ} (hs : Good E n h s) :
    Clean E n h (forget s) := by
  refine ⟨⟨⟨hs.ok.cons.len, ?_⟩, ?_, ?_⟩, hs.hyp, ?_⟩
  · refine consistentOn_congr hs.ok.cons.on rfl (by simp [Chain.forget]) fun k o' ho' => ?_
    rw [forget_get] at ho'
    obtain ⟨o, ho, rfl⟩ := Option.map_eq_some_iff.mp ho'
    exact ⟨o, ho, rfl, rfl, rfl⟩
  · exact noEmpty_congr hs.ok.noEmpty rfl (by simp [Chain.forget])
  · intro o ho
    obtain ⟨p, -, rfl⟩ := List.mem_map.mp ho
    simp [Hier.CacheOk, bare]
  · intro o ho
    obtain ⟨p, -, rfl⟩ := List.mem_map.mp ho
    rfl

/-- Draws from saved hyperparameters are draws from computed ones. -/
theorem draw_forget {E : Env G H Θ} (hk : E.kind ≠ .other) {h : H} {r : ℕ} {o o' : Hier G H Θ}
    (hf : o.Fresh E h) (hd : o.sampleFullCond E h false r = .ok o') :
    ∃ o'', (bare o).sampleFullCond E h true r = .ok o'' ∧ bare o'' = bare o' ∧ o''.saved = false := by
  unfold Hier.sampleFullCond Hier.getPosterior at *
  rw [if_neg hk] at *
  by_cases hc : o.card = 0
  · rw [if_pos hc] at hd
    rw [if_pos (show (bare o).card = 0 from hc)]
    cases hd
    exact ⟨_, rfl, rfl, rfl⟩
  · rw [if_neg hc] at hd
    rw [if_neg (show ¬ (bare o).card = 0 from hc)]
    simp only [hf.1, hf.2, Bool.not_true, Bool.false_and, Bool.and_false, if_false, ok_bind,
      Bool.false_eq_true] at hd
    cases hd
    refine ⟨_, rfl, rfl, rfl⟩

theorem drawAll_forget {E : Env G H Θ} (hk : E.kind ≠ .other) {h : H} {r : ℕ → ℕ} (j : ℕ)
    {l l' : List (Hier G H Θ)} (hf : ∀ o ∈ l, o.Fresh E h) (hd : drawAll E h false r j l = .ok l') :
    ∃ l'', drawAll E h true r j (l.map bare) = .ok l'' ∧ l''.map bare = l'.map bare := by
  induction l generalizing j l' with
  | nil =>
    cases hd
    exact ⟨[], rfl, rfl⟩
  | cons o l ih =>
    unfold drawAll at hd
    cases ho : o.sampleFullCond E h false (r j) with
    | error e => rw [ho] at hd; cases hd
    | ok o' =>
      rw [ho, ok_bind] at hd
      cases hl : drawAll E h false r (j + 1) l with
      | error e => rw [hl] at hd; cases hd
      | ok l1 =>
        rw [hl, ok_bind] at hd
        cases hd
        obtain ⟨o'', e1, e2, -⟩ := draw_forget hk (hf o (by simp)) ho
        obtain ⟨l'', e3, e4⟩ := ih (j + 1) (fun p hp => hf p (by simp [hp])) hl
        refine ⟨o'' :: l'', ?_, by simp [e2, e4]⟩
        rw [List.map_cons]
        unfold drawAll
        rw [e1, ok_bind, e3, ok_bind]

/-! ### What an iteration does to partition and values -/

/-- The state has partition `σ` and values `x`, hyperparameters `h`, and all clusters have saved their
posterior hyperparameters. -/
structure Held (E : Env G H Θ) (h : H) (σ : Setoid (Fin n)) (x : Fin n → Θ) (s : Alg G H Θ) : Prop where
  good : Good E n h s
  part : partOf n s.alloc = σ
  vals : ∀ j : Fin n, valueOf s j = some (x j)

theorem Good.held {E : Env G H Θ} {h : H} {s : Alg G H Θ} (hs : Good E n h s) (d : Θ) :
    Held E h (partOf n s.alloc) (rowValues n d s) s := by
  refine ⟨hs, rfl, fun j => ?_⟩
  have := (hs.forget.seen d).info j
  rw [← valueOf_forget, valueOf_info, this, rowValues_forget]
  rfl

theorem Held.seen {E : Env G H Θ} {h : H} {σ : Setoid (Fin n)} {x : Fin n → Θ} {s : Alg G H Θ}
    (hs : Held E h σ x s) : Seen E h σ ∅ x (forget s) := by
  rcases Nat.eq_zero_or_pos n with rfl | hn
  · exact ⟨hs.good.forget.ok, hs.good.hyp, hs.part, fun j => j.elim0⟩
  have e : x = rowValues n (x ⟨0, hn⟩) (forget s) := by
    funext j
    rw [rowValues_forget, rowValues, hs.vals j]
    rfl
  have := hs.good.forget.seen (x ⟨0, hn⟩)
  rw [← e] at this
  exact hs.part ▸ this

/-- `g` is the function `Φ` of partition and values. -/
def Reads3 (E : Env G H Θ) (h : H) (g : Alg G H Θ → ℝ≥0∞) (Φ : Setoid (Fin n) → (Fin n → Θ) → ℝ≥0∞) :
    Prop :=
  ∀ σ x s, Held E h σ x s → g s = Φ σ x

section run

variable [MeasurableSpace Θ] [Nonempty Θ] {E : Env G H Θ} {like : Θ → ℕ → ℝ} {S : Scores H}
  {ν : H → Measure Θ} {h : H} {prior : List ℕ → ℝ}

/-- What is used of hierarchy, mixing and laws. -/
structure Neal3Ok (E : Env G H Θ) (like : Θ → ℕ → ℝ) (S : Scores H) (ν : H → Measure Θ) (n : ℕ) (h : H)
    (prior : List ℕ → ℝ) : Prop where
  target : ∀ draw, Target (withDraw E draw) S n h (mixPosterior prior like (ν h))
  meas : ∀ i, Measurable fun θ => like θ i
  clusters : BayesClusters E like ν h
  pos : ∀ al : List ℕ, al.length = n → 0 < prior al
  part : ∀ A : Finset (Setoid (Fin n)),
    jointMean prior like (ν h) (fun σ _ => open Classical in if σ ∈ A then 1 else 0) =
      postProb n (mixPosterior prior like (ν h)) A

theorem Neal3Ok.values_reads (hO : Neal3Ok E like S ν n h prior) {g : Alg G H Θ → ℝ≥0∞}
    {Φ : Setoid (Fin n) → (Fin n → Θ) → ℝ≥0∞} (hΦ : ∀ σ, Measurable (Φ σ)) (hg : Reads3 E h g Φ) :
    Reads3 E h (values3Mean E ν g) fun σ _ => ∫⁻ y, Φ σ y ∂valueLaw E ν h (σ, ∅) := by
  intro σ x s hs
  obtain ⟨d⟩ := ‹Nonempty Θ›
  obtain ⟨draw0⟩ : Nonempty (H × ℕ → Θ) := ⟨fun _ => d⟩
  have T0 := hO.target draw0
  have hn : 0 < n := by have := T0.two; omega
  have key := Chain.values_reads (E := E) (Ψ := fun (z : Spot n) y => Φ z.1 y) T0.kind hn hO.clusters
    (fun l r => T0.fix h l r) (fun z => hΦ z.1) (reads_observable d Φ) σ ∅ x (forget s) hs.seen
  dsimp only at key ⊢
  rw [← key]
  unfold values3Mean valuesMean
  refine lintegral_congr fun draw => ?_
  have T := hO.target draw
  have hgood : Good (withDraw E draw) n h s := ⟨hs.good.ok, hs.good.hyp, hs.good.fresh⟩
  obtain ⟨t1, e1, c1, -, a1, -, hy1, -⟩ := sampleUniqueValues_ok (E := withDraw E draw) (upd := true)
    (r := id) hs.good.ok.cons hs.good.ok.caches
  have hdr : ∃ cl, drawAll (withDraw E draw) s.hyp false id 0 s.clus = .ok cl ∧
      t1 = { s with clus := cl } := by
    unfold sampleUniqueValues at e1
    rw [Bool.not_true] at e1
    cases hcl : drawAll (withDraw E draw) s.hyp false id 0 s.clus with
    | error e => rw [hcl] at e1; cases e1
    | ok cl =>
      rw [hcl, ok_bind] at e1
      exact ⟨cl, rfl, (Except.ok.inj e1).symm⟩
  obtain ⟨cl, hcl, rfl⟩ := hdr
  obtain ⟨cl', hcl', hbare⟩ := drawAll_forget (E := withDraw E draw) T.kind 0 hgood.fresh hcl
  have e2 : sampleUniqueValues (withDraw E draw) false id (forget s) =
      .ok { s with clus := cl' } := by
    unfold sampleUniqueValues
    rw [Bool.not_false, show (forget s).clus = s.clus.map bare from rfl,
      show (forget s).hyp = s.hyp from rfl, hcl', ok_bind]
    rfl
  have hlen : cl'.length = cl.length := by
    have := congrArg List.length hbare
    simpa using this
  have hup : ∀ t : Alg G H Θ, 0 < t.clus.length → t.hyp = h → updateHypers E 0 t = .ok t := by
    intro t ht hth
    rw [updateHypers, vget_ok (List.getElem?_eq_getElem ht), ok_bind]
    dsimp only
    have hfix : ∀ l r, E.hyperUpdate h l r = h := T0.fix h
    rw [hth, hfix, ← hth]
  have hpos : 0 < cl.length := clus_pos c1 hn
  obtain ⟨t, et, ht, ha⟩ := T.rest ⟨fun _ => (0, 0), id, 0, fun _ _ => 0⟩ hgood
  have hu1 := hup { s with clus := cl } hpos hs.good.hyp
  have hu2 := hup { s with clus := cl' } (by simpa [hlen] using hpos) hs.good.hyp
  have et' : (do
      let t ← sampleUniqueValues (withDraw E draw) true id s
      updateHypers E 0 t) = .ok t := et
  rw [e1, ok_bind, hu1] at et'
  have htd := Except.ok.inj et'
  subst htd
  have ht' : Good E n h { s with clus := cl } := ⟨ht.ok, ht.hyp, ht.fresh⟩
  rw [e1, ok_bind, hu1, e2, ok_bind, hu2]
  dsimp only
  rw [hg _ _ _ (ht'.held d)]
  have ef : forget { s with clus := cl' } = forget { s with clus := cl } := by
    unfold forget
    dsimp only
    rw [hbare]
  rw [← rowValues_forget d { s with clus := cl }, ← rowValues_forget d { s with clus := cl' }, ef]

/-- A row is placed with the Gibbs kernel. -/
theorem Neal3Ok.row_reads (hO : Neal3Ok E like S ν n h prior) {g : Alg G H Θ → ℝ≥0∞}
    {f : Setoid (Fin n) → ℝ≥0∞} (hg : ∀ s, Good E n h s → g s = f (partOf n s.alloc)) {i : ℕ}
    (hi : i < n) {s : Alg G H Θ} (hs : Good E n h s) :
    neal3RowMean E S ν n i g s = ∑ τ, ENNReal.ofReal
      (gibbsK (weight (mixPosterior prior like (ν h))) i (partOf n s.alloc) τ) * f τ := by
  classical
  have hvd : IsProbabilityMeasure (valueDraws (Θ := Θ) ν) := by unfold valueDraws; infer_instance
  obtain ⟨d⟩ := ‹Nonempty Θ›
  obtain ⟨draw0, -⟩ : ∃ draw0 : H × ℕ → Θ, draw0 = fun _ => d := ⟨_, rfl⟩
  have hgood : ∀ draw, Good (withDraw E draw) n h s := fun _ => ⟨hs.ok, hs.hyp, hs.fresh⟩
  obtain ⟨s1, p, hc⟩ := (hO.target draw0).cond i hi s (hgood draw0)
  obtain ⟨x, hdet, hp⟩ := hc.computed
  have hdet' : detach E true s i = .ok (s1, x) := hdet
  have hp' : neal3Probas E S n s1 i = .ok p := hp
  have hcomp : (do let (s1, _, _) ← detach E true s i; neal3Probas E S n s1 i) = .ok p := by
    rw [hdet', ok_bind]
    exact hp'
  -- the states reached
  have hmove : ∀ draw, ∀ c < p.length, ∃ t, neal2Datum (withDraw E draw) true s i c 0 = .ok t ∧
      t.alloc = s1.alloc.set i c ∧ Good E n h t := by
    intro draw c hcl
    have T := hO.target draw
    obtain ⟨s1', p', hc'⟩ := T.cond i hi s (hgood draw)
    obtain ⟨x', hdet2, hp2⟩ := hc'.computed
    have hdet2' : detach E true s i = .ok (s1', x') := hdet2
    rw [hdet'] at hdet2'
    obtain ⟨rfl, -⟩ := Prod.mk.inj (Except.ok.inj hdet2')
    have hp2' : neal3Probas E S n s1 i = .ok p' := hp2
    rw [hp'] at hp2'
    have hpp := Except.ok.inj hp2'
    subst hpp
    obtain ⟨t, et, hal, -⟩ := hc'.moves c hcl 0
    obtain ⟨t', et', hr, hne⟩ := neal2Datum_ok (E := withDraw E draw) (upd := true) c 0 T.two
      (fun _ => T.kind) hs.ok.cons hs.ok.noEmpty hs.ok.caches hi
    rw [et] at et'
    have htt := Except.ok.inj et'
    subst htt
    refine ⟨t, et, hal, ⟨hr.cons, hne, hr.caches⟩, hr.hyp.trans hs.hyp, fun o ho => ?_⟩
    rw [hr.hyp]
    rcases neal3Datum_objs (E := withDraw E draw) T.kind hs.ok.cons hi et o ho with h | h
    · exact h
    · exact hs.fresh o h.1
  have hmean : ∀ c < p.length, (∫⁻ draw, (match neal2Datum (withDraw E draw) true s i c 0 with
        | .error _ => ∞
        | .ok t => g t) ∂valueDraws ν) = f (partOf n (s1.alloc.set i c)) := by
    intro c hcl
    have e : ∀ draw : H × ℕ → Θ, (match neal2Datum (withDraw E draw) true s i c 0 with
        | .error _ => ∞
        | .ok t => g t) = f (partOf n (s1.alloc.set i c)) := by
      intro draw
      obtain ⟨t, et, ha, ht⟩ := hmove draw c hcl
      rw [et]
      dsimp only
      rw [hg t ht, ha]
    rw [lintegral_congr e, lintegral_const, measure_univ, mul_one]
  unfold neal3RowMean
  rw [hcomp]
  dsimp only
  rw [Finset.sum_congr rfl fun c hcl => by rw [hmean c (Finset.mem_range.mp hcl)]]
  -- the law of the next partition
  obtain ⟨l, el, -, hl⟩ := (hO.target draw0).row (fun _ => 0) hi s (hgood draw0)
  choose t ht using fun c : Fin p.length => hmove draw0 c.val c.isLt
  obtain ⟨t', ht'⟩ : ∃ t' : ℕ → Alg G H Θ, ∀ c < p.length,
      neal2Datum (withDraw E draw0) true s i c 0 = .ok (t' c) ∧ (t' c).alloc = s1.alloc.set i c :=
    ⟨fun c => if h : c < p.length then t ⟨c, h⟩ else s, fun c hcl => by
      dsimp only
      rw [dif_pos hcl]
      exact ⟨(ht ⟨c, hcl⟩).1, (ht ⟨c, hcl⟩).2.1⟩⟩
  have el' : neal3Row (withDraw E draw0) S n (fun _ => 0) i s =
      .ok ((List.range p.length).map fun c => (p.getD c 0, t' c)) := by
    unfold neal3Row
    rw [hdet, ok_bind]
    simp only
    rw [hp, ok_bind]
    exact drawThen_ok fun c hcl => (ht' c hcl).1
  rw [el'] at el
  have hll := Except.ok.inj el
  subst hll
  have hp0 : ∀ c, 0 ≤ p.getD c 0 := by
    intro c
    rw [List.getD_eq_getElem?_getD]
    by_cases hcl : c < p.length
    · rw [List.getElem?_eq_getElem hcl]
      exact (hc.pos _ (List.getElem_mem hcl)).le
    · rw [List.getElem?_eq_none (by omega)]
      exact le_rfl
  have hK : ∀ τ, gibbsK (weight (mixPosterior prior like (ν h))) i (partOf n s.alloc) τ =
      ∑ c ∈ Finset.range p.length,
        if partOf n (s1.alloc.set i c) = τ then p.getD c 0 else 0 := by
    intro τ
    have hr : ∀ f : ℕ → ℝ, ∑ c ∈ Finset.range p.length, f c = ((List.range p.length).map f).sum :=
      fun f => rfl
    rw [← hl τ, Law.prob, List.map_map, hr]
    congr 1
    refine List.map_congr_left fun c hcl => ?_
    rw [List.mem_range] at hcl
    simp only [Function.comp]
    rw [(ht' c hcl).2]
  have hK' : ∀ τ, ENNReal.ofReal
      (gibbsK (weight (mixPosterior prior like (ν h))) i (partOf n s.alloc) τ) * f τ =
      ∑ c ∈ Finset.range p.length, if partOf n (s1.alloc.set i c) = τ then
        ENNReal.ofReal (p.getD c 0) * f τ else 0 := by
    intro τ
    rw [hK τ, ENNReal.ofReal_sum_of_nonneg fun c _ => by split; exacts [hp0 c, le_rfl], Finset.sum_mul]
    refine Finset.sum_congr rfl fun c _ => ?_
    split <;> simp
  rw [Finset.sum_congr rfl fun τ _ => hK' τ, Finset.sum_comm]
  refine Finset.sum_congr rfl fun c _ => ?_
  rw [Finset.sum_ite_eq, if_pos (Finset.mem_univ _)]

theorem Neal3Ok.sweep_reads (hO : Neal3Ok E like S ν n h prior) {g : Alg G H Θ → ℝ≥0∞}
    {f : Setoid (Fin n) → ℝ≥0∞} (hg : ∀ s, Good E n h s → g s = f (partOf n s.alloc)) (l : List ℕ)
    (hl : ∀ i ∈ l, i < n) {s : Alg G H Θ} (hs : Good E n h s) :
    neal3SweepMean E S ν n l g s = ∑ τ, ENNReal.ofReal
      ((l.map (gibbsK (weight (mixPosterior prior like (ν h))))).prod (partOf n s.alloc) τ) * f τ := by
  obtain ⟨d⟩ := ‹Nonempty Θ›
  have hw := (hO.target fun _ => d).weight_pos
  induction l generalizing s with
  | nil =>
    rw [neal3SweepMean, hg s hs]
    simp [Matrix.one_apply, ite_mul, apply_ite ENNReal.ofReal]
  | cons i l ih =>
    rw [neal3SweepMean, hO.row_reads (f := fun σ => ∑ τ, ENNReal.ofReal
      ((l.map (gibbsK (weight (mixPosterior prior like (ν h))))).prod σ τ) * f τ)
      (fun s hs => ih (fun j hj => hl j (by simp [hj])) hs) (hl i (by simp)) hs]
    have hst : Stochastic (l.map (gibbsK (weight (mixPosterior prior like (ν h))) (n := n))).prod :=
      Stochastic.prod fun P hP => by
        obtain ⟨i, -, rfl⟩ := List.mem_map.mp hP
        exact gibbsK_stochastic hw i
    simp only [Finset.mul_sum]
    rw [Finset.sum_comm]
    refine Finset.sum_congr rfl fun τ _ => ?_
    rw [List.map_cons, List.prod_cons, Matrix.mul_apply, ENNReal.ofReal_sum_of_nonneg fun ρ _ =>
      mul_nonneg ((gibbsK_stochastic hw i).nonneg _ _) (hst.nonneg _ _), Finset.sum_mul]
    refine Finset.sum_congr rfl fun ρ _ => ?_
    rw [ENNReal.ofReal_mul ((gibbsK_stochastic hw i).nonneg _ _), mul_assoc]

/-- The law of the values given the partition. -/
noncomputable def partValues (E : Env G H Θ) (ν : H → Measure Θ) (h : H) (σ : Setoid (Fin n)) :
    Measure (Fin n → Θ) := valueLaw E ν h (σ, ∅)

/-- Moves between partitions. -/
noncomputable def partMoves (prior : List ℕ → ℝ) (like : Θ → ℕ → ℝ) (ν : Measure Θ) :
    Setoid (Fin n) → (Fin n → Θ) → Setoid (Fin n) → ℝ≥0∞ :=
  flatR (Fin n → Θ) (transition n (mixPosterior prior like ν))

theorem Neal3Ok.iter_reads (hO : Neal3Ok E like S ν n h prior) {g : Alg G H Θ → ℝ≥0∞}
    {Φ : Setoid (Fin n) → (Fin n → Θ) → ℝ≥0∞} (hΦ : ∀ σ, Measurable (Φ σ)) (hg : Reads3 E h g Φ) :
    Reads3 E h (neal3IterMean E S ν n g)
      (discKernel (partMoves prior like (ν h)) (partValues E ν h) Φ) := by
  intro σ x s hs
  have hv := hO.values_reads hΦ hg
  unfold neal3IterMean
  obtain ⟨d⟩ := ‹Nonempty Θ›
  rw [hO.sweep_reads (f := fun σ => ∫⁻ y, Φ σ y ∂valueLaw E ν h (σ, ∅))
    (fun t ht => hv _ _ t (ht.held d)) (List.range n) (fun i hi => List.mem_range.mp hi) hs.good,
    hs.part]
  rfl

theorem Neal3Ok.discOk (hO : Neal3Ok E like S ν n h prior) :
    DiscOk (partMoves (n := n) prior like (ν h)) (partValues E ν h) := by
  obtain ⟨d⟩ := ‹Nonempty Θ›
  exact flat_ok (hO.target fun _ => d).stochastic fun σ => valueLaw_prob hO.clusters (σ, ∅)

theorem Neal3Ok.iterates (hO : Neal3Ok E like S ν n h prior) {g : Alg G H Θ → ℝ≥0∞}
    {Φ : Setoid (Fin n) → (Fin n → Θ) → ℝ≥0∞} (hΦ : ∀ σ, Measurable (Φ σ)) (hg : Reads3 E h g Φ)
    (k : ℕ) : (∀ σ, Measurable ((discKernel (partMoves prior like (ν h)) (partValues E ν h))^[k] Φ σ)) ∧
      Reads3 E h ((neal3IterMean E S ν n)^[k] g)
        ((discKernel (partMoves prior like (ν h)) (partValues E ν h))^[k] Φ) := by
  induction k with
  | zero => exact ⟨hΦ, hg⟩
  | succ k ih =>
    rw [Function.iterate_succ_apply', Function.iterate_succ_apply']
    exact ⟨fun σ => measurable_discKernel hO.discOk _ σ, hO.iter_reads ih.1 ih.2⟩

/-- Posterior means in terms of partitions and laws of values. -/
theorem Neal3Ok.limit (hO : Neal3Ok E like S ν n h prior) {Φ : Setoid (Fin n) → (Fin n → Θ) → ℝ≥0∞}
    (hΦ : ∀ σ, Measurable (Φ σ)) (hfin : ∀ σ, ∫⁻ y, Φ σ y ∂partValues E ν h σ ≠ ∞) :
    ∑ σ, weight (mixPosterior prior like (ν h)) σ /
        (∑ ρ : Setoid (Fin n), weight (mixPosterior prior like (ν h)) ρ) *
        (∫⁻ y, Φ σ y ∂partValues E ν h σ).toReal = jointMean prior like (ν h) Φ := by
  classical
  have hV : ∀ σ : Setoid (Fin n), IsProbabilityMeasure (partValues E ν h σ) :=
    fun σ => valueLaw_prob hO.clusters (σ, ∅)
  obtain ⟨m, hm, hpp⟩ := partPost_values (n := n) (w := weight prior) hO.clusters hO.meas
    fun σ => hO.pos _ (labelsOf_length σ)
  have h1 : partPost (n := n) (weight prior) like (ν h) (fun _ _ => 1) = ∑ σ, m σ := by
    rw [hpp _ fun _ => measurable_const]
    refine Finset.sum_congr rfl fun σ _ => ?_
    have := hV σ
    rw [lintegral_const]
    rw [show valueLaw E ν h (σ, ∅) = partValues E ν h σ from rfl, measure_univ, one_mul, mul_one]
  have hZ0 : ∑ σ, m σ ≠ 0 := fun e =>
    (hm ⊥).1 ((Finset.sum_eq_zero_iff.mp e) ⊥ (Finset.mem_univ _))
  have hZ1 : ∑ σ, m σ ≠ ∞ := ENNReal.sum_ne_top.mpr fun σ _ => (hm σ).2
  have hw : ∀ σ : Setoid (Fin n), weight (mixPosterior prior like (ν h)) σ /
      (∑ ρ : Setoid (Fin n), weight (mixPosterior prior like (ν h)) ρ) = (m σ / ∑ ρ, m ρ).toReal := by
    intro σ
    have := hO.part {σ}
    rw [postProb, Finset.sum_singleton, jointMean, h1, hpp _ fun _ => measurable_const] at this
    rw [weight]
    simp only [weight]
    rw [← this]
    congr 2
    rw [Finset.sum_eq_single σ]
    · have := hV σ
      rw [lintegral_const]
      rw [show valueLaw E ν h (σ, ∅) = partValues E ν h σ from rfl, measure_univ]
      simp
    · intro ρ _ hρ
      simp [hρ]
    · simp
  have h2 : partPost (weight prior) like (ν h) Φ = ∑ σ, m σ * ∫⁻ y, Φ σ y ∂partValues E ν h σ :=
    hpp Φ hΦ
  rw [jointMean, h1, h2, ENNReal.div_eq_inv_mul, Finset.mul_sum, ENNReal.toReal_sum fun σ _ =>
    ENNReal.mul_ne_top (ENNReal.inv_ne_top.mpr hZ0) (ENNReal.mul_ne_top (hm σ).2 (hfin σ))]
  refine Finset.sum_congr rfl fun σ _ => ?_
  rw [hw, ← ENNReal.toReal_mul, ENNReal.div_eq_inv_mul, mul_assoc]

/-- Means of integrable functions converge to posterior means. -/
theorem Neal3Ok.converges (hO : Neal3Ok E like S ν n h prior) :
    ∃ δ : ℝ, 0 < δ ∧ δ ≤ 1 ∧ ∀ (Φ : Setoid (Fin n) → (Fin n → Θ) → ℝ≥0∞), (∀ σ, Measurable (Φ σ)) →
      (∀ σ, ∫⁻ y, Φ σ y ∂partValues E ν h σ ≠ ∞) → ∃ b : ℝ, ∀ (k : ℕ) (σ : Setoid (Fin n)) (y : Fin n → Θ),
        (discKernel (partMoves prior like (ν h)) (partValues E ν h))^[k + 1] Φ σ y ≠ ∞ ∧
        |((discKernel (partMoves prior like (ν h)) (partValues E ν h))^[k + 1] Φ σ y).toReal -
          jointMean prior like (ν h) Φ| ≤ b * (1 - δ) ^ k := by
  have hok := hO.discOk
  have hV := hok.prob
  have hlim := fun (Φ : Setoid (Fin n) → (Fin n → Θ) → ℝ≥0∞) => hO.limit (Φ := Φ)
  obtain ⟨d⟩ := ‹Nonempty Θ›
  have T := hO.target fun _ => d
  have hmat : discMatrix (partMoves (n := n) prior like (ν h)) (partValues E ν h) =
      transition n (mixPosterior prior like (ν h)) := flat_matrix T.stochastic hV
  have hZ : 0 < ∑ ρ : Setoid (Fin n), weight (mixPosterior prior like (ν h)) ρ :=
    Finset.sum_pos (fun σ _ => T.weight_pos σ) Finset.univ_nonempty
  obtain ⟨δ, d0, d1, hδ⟩ := hok.converges_int (z0 := (⊥ : Setoid (Fin n)))
    (w := fun σ => weight (mixPosterior prior like (ν h)) σ /
      ∑ ρ : Setoid (Fin n), weight (mixPosterior prior like (ν h)) ρ)
    (fun σ => by rw [hmat]; exact sweep_pos T.weight_pos σ ⊥)
    (fun σ => div_nonneg (T.weight_pos σ).le hZ.le)
    (by rw [← Finset.sum_div, div_self hZ.ne']) (by
      rw [hmat]
      intro τ
      simp only [div_mul_eq_mul_div]
      rw [← Finset.sum_div, T.invariant τ])
  refine ⟨δ, d0, d1, fun Φ hΦ hfin => ?_⟩
  obtain ⟨b, hb⟩ := hδ Φ hfin
  refine ⟨b, fun k σ y => ?_⟩
  rw [← hlim Φ hΦ hfin]
  exact hb k σ y

/-- Means of functions bounded by one. -/
theorem Neal3Ok.converges_one (hO : Neal3Ok E like S ν n h prior) :
    ∃ δ : ℝ, 0 < δ ∧ δ ≤ 1 ∧ ∀ (Φ : Setoid (Fin n) → (Fin n → Θ) → ℝ≥0∞), (∀ σ, Measurable (Φ σ)) →
      (∀ σ y, Φ σ y ≤ 1) → ∀ (k : ℕ) (σ : Setoid (Fin n)) (y : Fin n → Θ),
        |((discKernel (partMoves prior like (ν h)) (partValues E ν h))^[k + 1] Φ σ y).toReal -
          jointMean prior like (ν h) Φ| ≤ (1 - δ) ^ k := by
  have hok := hO.discOk
  have hV := hok.prob
  have hlim := fun (Φ : Setoid (Fin n) → (Fin n → Θ) → ℝ≥0∞) => hO.limit (Φ := Φ)
  obtain ⟨d⟩ := ‹Nonempty Θ›
  have T := hO.target fun _ => d
  have hmat : discMatrix (partMoves (n := n) prior like (ν h)) (partValues E ν h) =
      transition n (mixPosterior prior like (ν h)) := flat_matrix T.stochastic hV
  have hZ : 0 < ∑ ρ : Setoid (Fin n), weight (mixPosterior prior like (ν h)) ρ :=
    Finset.sum_pos (fun σ _ => T.weight_pos σ) Finset.univ_nonempty
  obtain ⟨δ, d0, d1, hδ⟩ := hok.converges (z0 := (⊥ : Setoid (Fin n)))
    (w := fun σ => weight (mixPosterior prior like (ν h)) σ /
      ∑ ρ : Setoid (Fin n), weight (mixPosterior prior like (ν h)) ρ)
    (fun σ => by rw [hmat]; exact sweep_pos T.weight_pos σ ⊥)
    (fun σ => div_nonneg (T.weight_pos σ).le hZ.le)
    (by rw [← Finset.sum_div, div_self hZ.ne']) (by
      rw [hmat]
      intro τ
      simp only [div_mul_eq_mul_div]
      rw [← Finset.sum_div, T.invariant τ])
  refine ⟨δ, d0, d1, fun Φ hΦ hle k σ y => ?_⟩
  rw [← hlim Φ hΦ fun σ => ?_]
  · exact hδ Φ hle k σ y
  · refine ne_top_of_le_ne_top ENNReal.one_ne_top ((lintegral_mono (hle σ)).trans (le_of_eq ?_))
    have := hV σ
    simp

/-! ### Sums over a run -/

variable {Ω : Type} [MeasurableSpace Ω] {P : Measure Ω}

theorem Neal3Ok.moments [IsProbabilityMeasure P] (hO : Neal3Ok E like S ν n h prior)
    {φ : Setoid (Fin n) → (Fin n → Θ) → Ω → ℝ≥0∞} (hφ : Square E ν h P φ) : ∃ b δ,
      TwoMoments (liftR Ω (partMoves (n := n) prior like (ν h))) (liftV (partValues E ν h) P)
        (fun σ p => (φ σ p.1 p.2).toReal) (jointMean prior like (ν h) (overDraw P φ)) b δ := by
  have hok := hO.discOk
  have hp := hok.prob
  obtain ⟨δ, d0, d1, hδ⟩ := hO.converges
  have hmm : ∀ σ, Measurable (overDraw P φ σ) := fun σ => (hφ.meas σ).lintegral_prod_right'
  have htwo : ∀ σ, MemLp (fun p : (Fin n → Θ) × Ω => (φ σ p.1 p.2).toReal) 2
      ((partValues E ν h σ).prod P) := fun σ => hφ.two (σ, ∅)
  have hone : ∀ σ, Integrable (fun p : (Fin n → Θ) × Ω => (φ σ p.1 p.2).toReal)
      ((partValues E ν h σ).prod P) := fun σ => (htwo σ).integrable (by norm_num)
  have hint : ∀ σ, ∫⁻ y, overDraw P φ σ y ∂partValues E ν h σ ≠ ∞ := by
    intro σ
    unfold overDraw
    rw [← lintegral_prod (fun p => φ σ p.1 p.2) (hφ.meas σ).aemeasurable]
    have := (hone σ).lintegral_lt_top
    simp only [ENNReal.ofReal_toReal (hφ.fin _ _ _)] at this
    exact this.ne
  obtain ⟨b, hb⟩ := hδ (overDraw P φ) hmm hint
  have hΦ : (fun (σ : Setoid (Fin n)) (p : (Fin n → Θ) × Ω) => ENNReal.ofReal (φ σ p.1 p.2).toReal) =
      fun σ p => φ σ p.1 p.2 := by
    funext σ p
    exact ENNReal.ofReal_toReal (hφ.fin _ _ _)
  refine ⟨b, δ, ⟨fun σ => (hφ.meas σ).ennreal_toReal, fun σ p => ENNReal.toReal_nonneg, hone,
    fun σ => (htwo σ).integrable_sq, d0, d1, fun k σ p => ?_, fun k σ p => ?_⟩⟩
  · rw [hΦ, lift_iterate hok (fun σ => hφ.meas σ) k σ p.1 p.2]
    exact (hb k σ p.1).1
  · rw [hΦ, lift_iterate hok (fun σ => hφ.meas σ) k σ p.1 p.2]
    exact (hb k σ p.1).2

/-- What the sum over a run reads as. -/
noncomputable def partSum (prior : List ℕ → ℝ) (like : Θ → ℕ → ℝ) (E : Env G H Θ) (ν : H → Measure Θ)
    (h : H) (P : Measure Ω) (F : ℝ → ℝ≥0∞) (φ : Setoid (Fin n) → (Fin n → Θ) → Ω → ℝ≥0∞) (ω0 : Ω)
    (N : ℕ) (acc : ℝ) (σ : Setoid (Fin n)) (y : Fin n → Θ) : ℝ≥0∞ :=
  discSum (liftR Ω (partMoves (n := n) prior like (ν h))) (liftV (partValues E ν h) P) F
    (fun σ p => (φ σ p.1 p.2).toReal) N acc σ (y, ω0)

theorem Neal3Ok.partSum_meas [IsProbabilityMeasure P] (hO : Neal3Ok E like S ν n h prior)
    {F : ℝ → ℝ≥0∞} (hF : Measurable F) {φ : Setoid (Fin n) → (Fin n → Θ) → Ω → ℝ≥0∞}
    (hφ : Square E ν h P φ) (ω0 : Ω) (N : ℕ) (acc : ℝ) :
    (∀ σ, Measurable (partSum prior like E ν h P F φ ω0 N acc σ)) ∧ ∀ σ, Measurable fun y =>
      ∫⁻ ω, partSum prior like E ν h P F φ ω0 N (acc + (φ σ y ω).toReal) σ y ∂P := by
  have hm : ∀ σ, Measurable fun p : (Fin n → Θ) × Ω => (φ σ p.1 p.2).toReal :=
    fun σ => (hφ.meas σ).ennreal_toReal
  refine ⟨fun σ => ?_, fun σ => measurable_lift_sum hO.discOk hF hm N acc σ ω0⟩
  exact (measurable_discSum (hO.discOk.lift (P := P)) hF hm N σ).comp
    (measurable_const.prodMk (measurable_id.prodMk measurable_const))

theorem Neal3Ok.sum_reads [IsProbabilityMeasure P] (hO : Neal3Ok E like S ν n h prior) {F : ℝ → ℝ≥0∞}
    (hF : Measurable F) {φ : Setoid (Fin n) → (Fin n → Θ) → Ω → ℝ≥0∞} (hφ : Square E ν h P φ) (ω0 : Ω)
    {est : Alg G H Θ → Ω → ℝ≥0∞}
    (he : ∀ (σ : Setoid (Fin n)) x s, Held E h σ x s → ∀ ω, est s ω = φ σ x ω) (N : ℕ) (acc : ℝ) :
    Reads3 E h (runSum (neal3IterMean E S ν n) P F est N acc)
      (partSum prior like E ν h P F φ ω0 N acc) := by
  induction N generalizing acc with
  | zero => exact fun _ _ _ _ => rfl
  | succ N ih =>
    have e : partSum prior like E ν h P F φ ω0 (N + 1) acc =
        discKernel (partMoves prior like (ν h)) (partValues E ν h) fun σ y =>
          ∫⁻ ω, partSum prior like E ν h P F φ ω0 N (acc + (φ σ y ω).toReal) σ y ∂P := by
      funext σ y
      exact discSum_lift hO.discOk hF (fun σ => (hφ.meas σ).ennreal_toReal) N acc σ y ω0
    rw [e]
    refine hO.iter_reads (hO.partSum_meas hF hφ ω0 N acc).2 fun σ x s hs => ?_
    refine lintegral_congr fun ω => ?_
    rw [he σ x s hs ω, if_neg (hφ.fin σ x ω)]
    exact ih _ σ x s hs

theorem Neal3Ok.iterate_le (hO : Neal3Ok E like S ν n h prior)
    {Φ : Setoid (Fin n) → (Fin n → Θ) → ℝ≥0∞} {c : ℝ≥0∞} (hle : ∀ σ y, Φ σ y ≤ c) (k : ℕ)
    (σ : Setoid (Fin n)) (y : Fin n → Θ) :
    (discKernel (partMoves prior like (ν h)) (partValues E ν h))^[k] Φ σ y ≤ c := by
  have hok := hO.discOk
  have hp := hok.prob
  induction k generalizing σ y with
  | zero => exact hle σ y
  | succ k ih =>
    rw [Function.iterate_succ_apply']
    refine (discKernel_mono ih σ y).trans (le_of_eq ?_)
    unfold discKernel
    simp only [lintegral_const, measure_univ, mul_one]
    rw [← Finset.sum_mul, hok.one, one_mul]

/-- Chebyshev's inequality for the sum over a run. -/
theorem Neal3Ok.sum_away [IsProbabilityMeasure P] (hO : Neal3Ok E like S ν n h prior)
    {φ : Setoid (Fin n) → (Fin n → Θ) → Ω → ℝ≥0∞} (hφ : Square E ν h P φ) (ω0 : Ω) {L : ℝ}
    (hL : jointMean prior like (ν h) (overDraw P φ) = L) :
    ∃ C : ℝ, 0 < C ∧ ∀ N : ℕ, 0 < N → ∀ ε : ℝ, 0 < ε → ∀ D : Set ℝ, (∀ t ∈ D, ε ≤ |t - L|) → ∀ σ y,
      partSum prior like E ν h P (Set.indicator {t : ℝ | t / N ∈ D} 1) φ ω0 N 0 σ y ≤
        ENNReal.ofReal (C / (N * ε ^ 2)) := by
  obtain ⟨b, δ, hm⟩ := hO.moments hφ
  rw [hL] at hm
  obtain ⟨C, hC, h⟩ := hm.average hO.discOk.lift
  refine ⟨C, hC, fun N hN ε hε D hD σ y => le_trans ?_ (h N hN ε hε σ (y, ω0))⟩
  refine discSum_mono (fun t => ?_) _ N 0 σ (y, ω0)
  exact Set.indicator_le_indicator_of_subset (s := {t : ℝ | t / N ∈ D})
    (t := {t : ℝ | ε ≤ |t / N - L|}) (f := (1 : ℝ → ℝ≥0∞)) (fun t ht => hD _ ht) (fun _ => zero_le) t

end run

end Bayesmix.Chain
