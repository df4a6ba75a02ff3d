import Verif.Algo.PropsSMTwo
import Verif.Algo.PartKernel

/-!
# Split-merge runs on three rows

Partitions of three rows, what a full scan does to a deviation from the posterior, and what a
Metropolis-Hastings update does to the posterior of a Pitman-Yor mixture.
-/

namespace Bayesmix.Chain
open Bayesmix Cond Gibbs SplitMerge Slice Mixing Hierarchies

variable {G H Θ : Type} [AddCommGroup G]

/-! ### Partitions of three rows -/

/-- The two rows other than `i` are together. -/
def rest3 (i : Fin 3) (σ : Setoid (Fin 3)) : Prop := σ (i + 1) (i + 2)

theorem rest3_top (i : Fin 3) : rest3 i ⊤ := trivial

theorem rest3_bot (i : Fin 3) : ¬ rest3 i ⊥ := by
  unfold rest3
  rw [Setoid.bot_def]
  fin_cases i <;> simp

theorem rest3_alone (i j : Fin 3) : rest3 i (alone j ⊤) ↔ i = j := by
  unfold rest3
  rw [alone_rel]
  fin_cases i <;> fin_cases j <;> simp [Setoid.top_def]

theorem three_ext {σ τ : Setoid (Fin 3)} (h : ∀ i, rest3 i σ ↔ rest3 i τ) : σ = τ := by
  refine Setoid.ext fun a b => ?_
  have h0 := h 0
  have h1 := h 1
  have h2 := h 2
  unfold rest3 at h0 h1 h2
  simp only [zero_add, Fin.reduceAdd] at h0 h1 h2
  fin_cases a <;> fin_cases b
  · exact iff_of_true (σ.refl _) (τ.refl _)
  · exact h2
  · exact ⟨fun e => τ.symm (h1.mp (σ.symm e)), fun e => σ.symm (h1.mpr (τ.symm e))⟩
  · exact ⟨fun e => τ.symm (h2.mp (σ.symm e)), fun e => σ.symm (h2.mpr (τ.symm e))⟩
  · exact iff_of_true (σ.refl _) (τ.refl _)
  · exact h0
  · exact h1
  · exact ⟨fun e => τ.symm (h0.mp (σ.symm e)), fun e => σ.symm (h0.mpr (τ.symm e))⟩
  · exact iff_of_true (σ.refl _) (τ.refl _)

theorem rest3_trans {σ : Setoid (Fin 3)} {i j : Fin 3} (hij : i ≠ j) (hi : rest3 i σ)
    (hj : rest3 j σ) (k : Fin 3) : rest3 k σ := by
  have key : ∀ a b c : Fin 3, σ a b → σ b c → σ a c := fun a b c => σ.trans
  unfold rest3 at *
  fin_cases i <;> fin_cases j <;> fin_cases k <;>
    simp only [Fin.zero_eta, Fin.mk_one, Fin.reduceFinMk, zero_add, Fin.reduceAdd, ne_eq, not_true,
      Fin.isValue] at * <;>
    first
    | exact absurd rfl hij
    | exact hi
    | exact hj
    | exact σ.trans hi hj
    | exact σ.trans hj hi
    | exact σ.symm (σ.trans hi hj)
    | exact σ.symm (σ.trans hj hi)

theorem three_cases (σ : Setoid (Fin 3)) : σ = ⊤ ∨ σ = ⊥ ∨ ∃ i, σ = alone i ⊤ := by
  by_cases h : ∃ i, rest3 i σ
  · obtain ⟨i, hi⟩ := h
    by_cases h' : ∃ j, j ≠ i ∧ rest3 j σ
    · obtain ⟨j, hj, hj'⟩ := h'
      exact Or.inl (three_ext fun k => iff_of_true (rest3_trans hj hj' hi k) trivial)
    · push Not at h'
      refine Or.inr (Or.inr ⟨i, three_ext fun k => ?_⟩)
      rw [rest3_alone]
      constructor
      · intro hk
        by_contra hne
        exact h' k hne hk
      · rintro rfl
        exact hi
  · push Not at h
    exact Or.inr (Or.inl (three_ext fun k => iff_of_false (h k) (rest3_bot k)))

theorem alone_ne_top (i : Fin 3) : alone i (⊤ : Setoid (Fin 3)) ≠ ⊤ := by
  intro h
  have : rest3 (i + 1) (alone i ⊤) := by rw [h]; trivial
  rw [rest3_alone] at this
  fin_cases i <;> simp at this

theorem alone_ne_bot (i : Fin 3) : alone i (⊤ : Setoid (Fin 3)) ≠ ⊥ := by
  intro h
  have : rest3 i (alone i ⊤) := (rest3_alone i i).mpr rfl
  rw [h] at this
  exact rest3_bot i this

theorem top_ne_bot : (⊤ : Setoid (Fin 3)) ≠ ⊥ := by
  intro h
  exact rest3_bot 0 (h ▸ rest3_top 0)

theorem alone_inj {i j : Fin 3} (h : alone i (⊤ : Setoid (Fin 3)) = alone j ⊤) : i = j := by
  have : rest3 i (alone i ⊤) := (rest3_alone i i).mpr rfl
  rw [h, rest3_alone] at this
  exact this

theorem three_sum (f : Setoid (Fin 3) → ℝ) :
    ∑ σ, f σ = f ⊤ + f ⊥ + ∑ i : Fin 3, f (alone i ⊤) := by
  classical
  have hu : (Finset.univ : Finset (Setoid (Fin 3))) =
      insert ⊤ (insert ⊥ (Finset.univ.image fun i : Fin 3 => alone i ⊤)) := by
    ext σ
    simp only [Finset.mem_univ, Finset.mem_insert, Finset.mem_image, true_and, true_iff]
    rcases three_cases σ with h | h | ⟨i, h⟩
    · exact Or.inl h
    · exact Or.inr (Or.inl h)
    · exact Or.inr (Or.inr ⟨i, h.symm⟩)
  rw [hu, Finset.sum_insert, Finset.sum_insert, Finset.sum_image, add_assoc]
  · intro i _ j _ h
    exact alone_inj h
  · simp only [Finset.mem_image, Finset.mem_univ, true_and, not_exists]
    exact fun i => alone_ne_bot i
  · simp only [Finset.mem_insert, Finset.mem_image, Finset.mem_univ, true_and, not_or, not_exists]
    exact ⟨top_ne_bot, fun i => alone_ne_top i⟩

theorem sameOff3 (i : Fin 3) (σ τ : Setoid (Fin 3)) :
    SameOff i.val σ τ ↔ (rest3 i σ ↔ rest3 i τ) := by
  constructor
  · intro h
    refine h _ _ ?_ ?_ <;> fin_cases i <;> simp
  · intro h a b ha hb
    have ha' : a ≠ i := fun e => ha (by rw [e])
    have hb' : b ≠ i := fun e => hb (by rw [e])
    have h' : σ (i + 2) (i + 1) ↔ τ (i + 2) (i + 1) :=
      ⟨fun e => τ.symm (h.mp (σ.symm e)), fun e => σ.symm (h.mpr (τ.symm e))⟩
    have hc : ∀ c : Fin 3, c ≠ i → c = i + 1 ∨ c = i + 2 := by
      intro c
      fin_cases i <;> fin_cases c <;> simp
    rcases hc a ha' with rfl | rfl <;> rcases hc b hb' with rfl | rfl
    · exact iff_of_true (σ.refl _) (τ.refl _)
    · exact h
    · exact h'
    · exact iff_of_true (σ.refl _) (τ.refl _)

/-! ### Full scans -/

open Classical in
/-- Sum of `v` over the partitions in which the two rows other than `i` are together. -/
noncomputable def mass3 (v : Setoid (Fin 3) → ℝ) (i : Fin 3) : ℝ := ∑ σ, if rest3 i σ then v σ else 0

/-- The vector `v` after a step of the kernel `P`. -/
noncomputable def after {X : Type} [Fintype X] (v : X → ℝ) (P : Matrix X X ℝ) (y : X) : ℝ := ∑ x, v x * P x y

theorem after_mul {X : Type} [Fintype X] [DecidableEq X] (v : X → ℝ) (P Q : Matrix X X ℝ) :
    after v (P * Q) = after (after v P) Q := by
  funext y
  simp only [after, Matrix.mul_apply, Finset.mul_sum, Finset.sum_mul]
  rw [Finset.sum_comm]
  exact Finset.sum_congr rfl fun z _ => Finset.sum_congr rfl fun x _ => by ring

theorem after_one {X : Type} [Fintype X] [DecidableEq X] (v : X → ℝ) : after v (1 : Matrix X X ℝ) = v := by
  funext y
  simp [after, Matrix.one_apply]

theorem after_sum {X : Type} [Fintype X] [DecidableEq X] (v : X → ℝ) {P : Matrix X X ℝ}
    (hP : ∀ x, ∑ y, P x y = 1) : ∑ y, after v P y = ∑ x, v x := by
  unfold after
  rw [Finset.sum_comm]
  exact Finset.sum_congr rfl fun x _ => by rw [← Finset.mul_sum, hP, mul_one]

/-- How a deviation in the position of the rows other than `i` goes over, when row `i` is drawn, to the
rows other than `j`: the difference between two conditional probabilities. -/
noncomputable def carry (w : Setoid (Fin 3) → ℝ) (i j k : Fin 3) : ℝ :=
  w ⊤ / (w ⊤ + w (alone i ⊤)) - w (alone j ⊤) / (w ⊥ + w (alone j ⊤) + w (alone k ⊤))

theorem after_gibbs (w v : Setoid (Fin 3) → ℝ) (hv : ∑ σ, v σ = 0) {i j k : Fin 3} (hij : i ≠ j)
    (hik : i ≠ k) (hjk : j ≠ k) :
    (∀ τ, after v (gibbsK w i) τ = if τ = ⊤ ∨ τ = alone i ⊤ then
        w τ * (mass3 v i / (w ⊤ + w (alone i ⊤)))
      else w τ * (-mass3 v i / (w ⊥ + w (alone j ⊤) + w (alone k ⊤)))) := by
  classical
  have hsum : ∀ f : Fin 3 → ℝ, ∑ l, f l = f i + f j + f k := by
    intro f
    rw [Fin.sum_univ_three]
    revert hij hik hjk
    fin_cases i <;> fin_cases j <;> fin_cases k <;> simp <;> ring
  have hm : mass3 v i = v ⊤ + v (alone i ⊤) := by
    unfold mass3
    rw [three_sum, hsum]
    simp only [rest3_alone, rest3_top, rest3_bot, hij, hik, ↓reduceIte]
    ring
  rw [three_sum, hsum] at hv
  have hK : ∀ σ τ, gibbsK w i σ τ = if (rest3 i σ ↔ rest3 i τ) then
      w τ / (if rest3 i σ then w ⊤ + w (alone i ⊤) else w ⊥ + w (alone j ⊤) + w (alone k ⊤)) else 0 := by
    intro σ τ
    have hd : ∑ ρ ∈ Finset.univ.filter (SameOff i.val σ), w ρ =
        if rest3 i σ then w ⊤ + w (alone i ⊤) else w ⊥ + w (alone j ⊤) + w (alone k ⊤) := by
      rw [Finset.sum_filter, three_sum, hsum]
      simp only [sameOff3, rest3_alone, rest3_top, rest3_bot, hij, hik, iff_true, iff_false]
      by_cases h : rest3 i σ
      · simp [h]
      · simp [h]; ring
    unfold gibbsK
    rw [hd]
    by_cases h : rest3 i σ ↔ rest3 i τ
    · rw [if_pos h, if_pos ((sameOff3 i σ τ).mpr h)]
    · rw [if_neg h, if_neg fun h' => h ((sameOff3 i σ τ).mp h')]
  intro τ
  have hτ : (τ = ⊤ ∨ τ = alone i ⊤) ↔ rest3 i τ := by
    constructor
    · rintro (rfl | rfl)
      · exact rest3_top i
      · exact (rest3_alone i i).mpr rfl
    · intro h
      rcases three_cases τ with h' | h' | ⟨l, h'⟩
      · exact Or.inl h'
      · rw [h'] at h
        exact absurd h (rest3_bot i)
      · rw [h', rest3_alone] at h
        rw [h', ← h]
        exact Or.inr rfl
  unfold after
  simp only [hK]
  rw [three_sum, hsum]
  simp only [hτ, rest3_alone, rest3_top, rest3_bot, hij, hik, hm]
  by_cases h : rest3 i τ
  · simp [h]; ring
  · have e : v ⊥ + v (alone j ⊤) + v (alone k ⊤) = -(v ⊤ + v (alone i ⊤)) := by linarith
    simp [h]
    rw [show -v (alone i ⊤) + -v ⊤ = v ⊥ + v (alone j ⊤) + v (alone k ⊤) by linarith]
    ring

theorem mass3_gibbs (w v : Setoid (Fin 3) → ℝ) (hw : ∀ σ, 0 < w σ) (hv : ∑ σ, v σ = 0)
    {i j k : Fin 3} (hij : i ≠ j) (hik : i ≠ k) (hjk : j ≠ k) :
    mass3 (after v (gibbsK w i)) j = carry w i j k * mass3 v i := by
  classical
  have h := after_gibbs w v hv hij hik hjk
  have hsum : ∀ f : Fin 3 → ℝ, ∑ l, f l = f i + f j + f k := by
    intro f
    rw [Fin.sum_univ_three]
    revert hij hik hjk
    fin_cases i <;> fin_cases j <;> fin_cases k <;> simp <;> ring
  rw [mass3, three_sum, hsum]
  simp only [rest3_alone, rest3_top, rest3_bot, hij.symm, hjk, ↓reduceIte]
  rw [h ⊤, h (alone j ⊤), if_pos (Or.inl rfl), if_neg (by
    rintro (h' | h')
    · exact alone_ne_top j h'
    · exact hij (alone_inj h').symm), carry]
  ring

theorem mass3_scan {π : List ℕ → ℝ} (hw : ∀ σ : Setoid (Fin 3), 0 < weight π σ)
    (v : Setoid (Fin 3) → ℝ) (hv : ∑ σ, v σ = 0) :
    mass3 (after v (transition 3 π)) 0 =
      carry (weight π) 2 0 1 * carry (weight π) 1 2 0 * carry (weight π) 0 1 2 * mass3 v 0 := by
  have ht : transition 3 π =
      gibbsK (weight π) (0 : Fin 3) * gibbsK (weight π) (1 : Fin 3) * gibbsK (weight π) (2 : Fin 3) := by
    simp [transition, List.range_succ, mul_assoc]
  have hs : ∀ i, ∀ x, ∑ y, gibbsK (weight π) i x y = 1 := fun i => (gibbsK_stochastic hw i).sum_one
  have h1 : ∑ σ, after v (gibbsK (weight π) (0 : Fin 3)) σ = 0 := by rw [after_sum v (hs _), hv]
  have h2 : ∑ σ, after (after v (gibbsK (weight π) (0 : Fin 3))) (gibbsK (weight π) (1 : Fin 3)) σ = 0 := by
    rw [after_sum _ (hs _), h1]
  rw [ht, after_mul, after_mul, mass3_gibbs (k := 1) _ _ hw h2 (by decide) (by decide) (by decide),
    mass3_gibbs (k := 0) _ _ hw h1 (by decide) (by decide) (by decide),
    mass3_gibbs (k := 2) _ _ hw hv (by decide) (by decide) (by decide)]
  ring

theorem mass3_scans {π : List ℕ → ℝ} (hw : ∀ σ : Setoid (Fin 3), 0 < weight π σ) (f : ℕ)
    (v : Setoid (Fin 3) → ℝ) (hv : ∑ σ, v σ = 0) :
    mass3 (after v (transition 3 π ^ f)) 0 =
      (carry (weight π) 2 0 1 * carry (weight π) 1 2 0 * carry (weight π) 0 1 2) ^ f * mass3 v 0 := by
  induction f generalizing v with
  | zero => rw [pow_zero, pow_zero, one_mul, after_one]
  | succ f ih =>
    have hst : ∀ x, ∑ y, transition 3 π x y = 1 := by
      refine Stochastic.sum_one (Stochastic.prod fun P hP => ?_)
      obtain ⟨i, -, rfl⟩ := List.mem_map.mp hP
      exact gibbsK_stochastic hw i
    rw [pow_succ', after_mul, ih _ (by rw [after_sum _ hst, hv]), mass3_scan hw v hv, pow_succ]
    ring

theorem carry_ne_zero {w : Setoid (Fin 3) → ℝ} (hw : ∀ σ, 0 < w σ) {i j k : Fin 3}
    (h : w ⊤ * (w ⊥ + w (alone k ⊤)) ≠ w (alone i ⊤) * w (alone j ⊤)) : carry w i j k ≠ 0 := by
  intro hc
  apply h
  unfold carry at hc
  have h1 : w ⊤ + w (alone i ⊤) ≠ 0 := (add_pos (hw _) (hw _)).ne'
  have h2 : w ⊥ + w (alone j ⊤) + w (alone k ⊤) ≠ 0 := (add_pos (add_pos (hw _) (hw _)) (hw _)).ne'
  rw [sub_eq_zero, div_eq_div_iff h1 h2] at hc
  linarith

end Bayesmix.Chain
