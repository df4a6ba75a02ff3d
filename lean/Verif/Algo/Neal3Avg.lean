import Verif.Algo.FinChainAvg
import Verif.Algo.Neal3Chain

/-!
# The iterations that a run of the collapsed Gibbs sampler stores
-/

namespace Bayesmix.Chain
open Bayesmix Cond Gibbs SplitMerge Slice

variable {G H Θ : Type} [AddCommGroup G]

/-- The loop of `BaseAlgorithm::run` (`base_algorithm.h` 61-71) for Neal3, from iteration `iter` on,
with one entry of the list per iteration: `step()`, then `save_state` if `iter >= burnin`. The law of
the state and of the list of stored states. -/
noncomputable def neal3Run (E : Env G H Θ) (S : Scores H) (n burnin : ℕ) : List Noise → ℕ →
    Alg G H Θ × List (Alg G H Θ) → Except Fault (Law (Alg G H Θ × List (Alg G H Θ)))
  | [], _, x => .ok [(1, x)]
  | z :: zs, iter, x => do
    let l ← neal3Iter E S n z x.1
    Law.andThen (l.map fun y => (y.1, (y.2, if burnin ≤ iter then x.2 ++ [y.2] else x.2)))
      (neal3Run E S n burnin zs (iter + 1))

section run

variable {E : Env G H Θ} {S : Scores H} {n : ℕ} {h0 : H} {π : List ℕ → ℝ}

/-- Which iterations are stored. -/
def stored (burnin i : ℕ) : ℝ := if burnin ≤ i then 1 else 0

theorem stored_sum (burnin k : ℕ) :
    ∑ m ∈ Finset.range k, stored burnin (0 + m) = ((k - burnin : ℕ) : ℝ) := by
  induction k with
  | zero => simp
  | succ k ih =>
    rw [Finset.sum_range_succ, ih, stored, zero_add]
    split
    · rw [Nat.succ_sub ‹_›]; push_cast; ring
    · rw [add_zero, Nat.sub_eq_zero_of_le (by omega), Nat.sub_eq_zero_of_le (by omega)]

theorem Target.run (T : Target E S n h0 π) (burnin : ℕ) (g : Setoid (Fin n) → ℝ) (zs : List Noise)
    (i : ℕ) {x : Alg G H Θ × List (Alg G H Θ)} (hs : Good E n h0 x.1) :
    ∃ l, neal3Run E S n burnin zs i x = .ok l ∧
      (∀ y ∈ l, 0 ≤ y.1 ∧ y.2.2.length = x.2.length + (i + zs.length - max i burnin)) ∧
      ∀ φ : ℝ → ℝ, mean l (fun y => φ (y.2.map fun t => g (partOf n t.alloc)).sum) =
        sumLaw (transition n π) (stored burnin) g φ zs.length i
          (x.2.map fun t => g (partOf n t.alloc)).sum (partOf n x.1.alloc) := by
  induction zs generalizing i x with
  | nil => exact ⟨[(1, x)], rfl, by simp, fun φ => by simp [mean, sumLaw]⟩
  | cons z zs ih =>
    obtain ⟨l, e, h1, h2⟩ := T.iter z x.1 hs
    obtain ⟨a, ha⟩ : ∃ a, a = (x.2.map fun t => g (partOf n t.alloc)).sum := ⟨_, rfl⟩
    obtain ⟨m, e2, h3, h4⟩ := andThen_mean (S := Alg G H Θ × List (Alg G H Θ))
      (I := fun y => y.2.length = x.2.length + (i + (zs.length + 1) - max i burnin))
      (φ := fun (φ : ℝ → ℝ) y => φ (y.2.map fun t => g (partOf n t.alloc)).sum)
      (ψ := fun φ y => sumLaw (transition n π) (stored burnin) g φ zs.length (i + 1)
          (a + stored burnin i * g (partOf n y.1.alloc)) (partOf n y.1.alloc))
      (f := neal3Run E S n burnin zs (i + 1))
      (l := l.map fun y => (y.1, (y.2, if burnin ≤ i then x.2 ++ [y.2] else x.2))) (by
        intro y hy
        obtain ⟨t, ht, rfl⟩ := List.mem_map.mp hy
        obtain ⟨m, e', h5, h6⟩ := ih (i + 1)
          (x := (t.2, if burnin ≤ i then x.2 ++ [t.2] else x.2)) (h1 t ht).2
        refine ⟨(h1 t ht).1, m, e', fun y hy => ⟨(h5 y hy).1, ?_⟩, fun φ => ?_⟩
        · rw [(h5 y hy).2]
          simp only
          split
          · simp only [List.length_append, List.length_singleton]; omega
          · omega
        · rw [h6 φ, ha]
          simp only
          congr 1
          unfold stored
          split <;> simp)
    refine ⟨m, by rw [neal3Run, e, ok_bind, e2], h3, fun φ => ?_⟩
    rw [h4 φ, List.length_cons, sumLaw, ← ha]
    have e3 : ∀ ψ : Alg G H Θ → ℝ, mean (l.map fun y => (y.1, (y.2, if burnin ≤ i then x.2 ++ [y.2]
        else x.2))) (fun y => ψ y.1) = mean l ψ := by
      intro ψ
      unfold mean
      rw [List.map_map]
      rfl
    rw [e3 fun t => sumLaw (transition n π) (stored burnin) g φ zs.length (i + 1)
      (a + stored burnin i * g (partOf n t.alloc)) (partOf n t.alloc)]
    rw [mean_image (g := fun t : Alg G H Θ => partOf n t.alloc) l fun σ =>
      sumLaw (transition n π) (stored burnin) g φ zs.length (i + 1) (a + stored burnin i * g σ) σ]
    exact Finset.sum_congr rfl fun σ _ => by rw [h2]

/-- Posterior mean of a function of the partition. -/
noncomputable def postMean (n : ℕ) (π : List ℕ → ℝ) (f : Setoid (Fin n) → ℝ) : ℝ :=
  (∑ σ : Setoid (Fin n), π (labelsOf σ) * f σ) / ∑ σ : Setoid (Fin n), π (labelsOf σ)

/-- Average of a function of the partition over stored states. -/
noncomputable def average (n : ℕ) (f : Setoid (Fin n) → ℝ) (st : List (Alg G H Θ)) : ℝ :=
  (st.map fun t => f (partOf n t.alloc)).sum / st.length

theorem sumLaw_const {X : Type} [Fintype X] [DecidableEq X] {P : Matrix X X ℝ} (hP : Stochastic P)
    (c : ℕ → ℝ) (g : X → ℝ) (k i : ℕ) (a : ℝ) (x : X) : sumLaw P c g (fun _ => 1) k i a x = 1 := by
  induction k generalizing i a x with
  | zero => rfl
  | succ k ih => rw [sumLaw]; simp only [ih, mul_one, hP.sum_one]

theorem Target.averages (T : Target E S n h0 π) :
    ∃ δ : ℝ, 0 < δ ∧ δ ≤ 1 ∧ ∀ s, Good E n h0 s → ∀ (burnin : ℕ) (zs : List Noise),
      burnin < zs.length →
      ∃ l, neal3Run E S n burnin zs 0 (s, []) = .ok l ∧
        (∀ x ∈ l, 0 ≤ x.1 ∧ x.2.2.length = zs.length - burnin) ∧ l.prob (fun _ => True) = 1 ∧
        ∀ (f : Setoid (Fin n) → ℝ) (C : ℝ), (∀ σ τ, f σ - f τ ≤ C) → ∀ ε : ℝ, 0 < ε →
          l.prob (fun x => ε ≤ |average n f x.2 - postMean n π f|) ≤
            2 * C ^ 2 / (δ * ((zs.length - burnin : ℕ) : ℝ) * ε ^ 2) := by
  obtain ⟨q, hq, q0, q1⟩ := lower_bound T.stochastic fun σ τ => sweep_pos T.weight_pos σ τ
  refine ⟨∑ y, q y, q0, q1, fun s hs burnin zs hb => ?_⟩
  obtain ⟨l, e, h1, h2⟩ := T.run burnin (fun _ => 0) zs 0 (x := (s, [])) hs
  have hlen : ∀ x ∈ l, 0 ≤ x.1 ∧ x.2.2.length = zs.length - burnin := by
    intro x hx
    refine ⟨(h1 x hx).1, ?_⟩
    rw [(h1 x hx).2]
    simp
  refine ⟨l, e, hlen, ?_, ?_⟩
  · have := h2 fun _ => 1
    rw [sumLaw_const T.stochastic] at this
    rw [← this]
    unfold Law.prob mean
    simp
  · intro f C hf ε hε
    have hZ : 0 < ∑ σ : Setoid (Fin n), weight π σ :=
      Finset.sum_pos (fun σ _ => T.weight_pos σ) Finset.univ_nonempty
    obtain ⟨w, hw⟩ : ∃ w : Setoid (Fin n) → ℝ, w = fun σ => weight π σ /
      ∑ ρ : Setoid (Fin n), weight π ρ := ⟨_, rfl⟩
    have hw0 : ∀ σ, 0 ≤ w σ := fun σ => by rw [hw]; exact div_nonneg (T.weight_pos σ).le hZ.le
    have hw1 : ∑ σ, w σ = 1 := by rw [hw, ← Finset.sum_div]; exact div_self hZ.ne'
    have hinv : Invariant w (transition n π) := by
      intro τ
      rw [hw]
      simp only [div_mul_eq_mul_div]
      rw [← Finset.sum_div, T.invariant τ]
    have hpm : postMean n π f = ∑ σ, w σ * f σ := by
      rw [postMean, hw, Finset.sum_div]
      exact Finset.sum_congr rfl fun σ _ => by unfold weight; ring
    obtain ⟨μ, hμ⟩ : ∃ μ, μ = ∑ σ, w σ * f σ := ⟨_, rfl⟩
    obtain ⟨l', e', -, h4⟩ := T.run burnin (fun σ => f σ - ∑ τ, w τ * f τ) zs 0 (x := (s, [])) hs
    rw [e] at e'
    cases e'
    have h5 := h4 fun t => t ^ 2
    rw [sumLaw_sq T.stochastic] at h5
    simp only [List.map_nil, List.sum_nil] at h5
    have hk : (0 : ℝ) < ((zs.length - burnin : ℕ) : ℝ) := by
      exact_mod_cast Nat.sub_pos_of_lt hb
    have h6 := sumSq_bound T.stochastic hq q0 q1 hw0 hw1 hinv hf (c := stored burnin)
      (fun i => by unfold stored; split <;> simp) zs.length 0 (partOf n s.alloc)
    rw [stored_sum] at h6
    obtain ⟨k, hkd⟩ : ∃ k : ℝ, k = ((zs.length - burnin : ℕ) : ℝ) := ⟨_, rfl⟩
    rw [← hkd] at h6 hk ⊢
    have h7 := prob_le_mean (l := l) (fun x hx => (h1 x hx).1)
      (fun y => (y.2.map fun t => f (partOf n t.alloc) - ∑ τ, w τ * f τ).sum) (mul_pos hk hε)
    rw [h5] at h7
    have h8 : l.prob (fun x => ε ≤ |average n f x.2 - postMean n π f|) =
        l.prob (fun x => k * ε ≤ |(x.2.map fun t => f (partOf n t.alloc) - ∑ τ, w τ * f τ).sum|) := by
      refine Law.prob_congr fun x hx => ?_
      have hl := (hlen x hx).2
      have e9 : (x.2.2.map fun t => f (partOf n t.alloc) - ∑ τ, w τ * f τ).sum =
          k * (average n f x.2.2 - postMean n π f) := by
        have : ∀ st : List (Alg G H Θ), (st.map fun t => f (partOf n t.alloc) - ∑ τ, w τ * f τ).sum =
            (st.map fun t => f (partOf n t.alloc)).sum - st.length * ∑ τ, w τ * f τ := by
          intro st
          induction st with
          | nil => simp
          | cons t st ih =>
            simp only [List.map_cons, List.sum_cons, List.length_cons]
            rw [ih]
            push_cast
            ring
        rw [this, average, hpm, hl, ← hkd, mul_sub, mul_div_cancel₀ _ hk.ne']
      rw [e9, abs_mul, abs_of_pos hk, mul_le_mul_iff_right₀ hk]
    rw [h8]
    refine h7.trans ?_
    have hC : 0 ≤ C ^ 2 := sq_nonneg C
    rw [div_le_div_iff₀ (by positivity) (by positivity)]
    have h10 : (0 : ℝ) ^ 2 + 2 * 0 * sumMean (transition n π) (stored burnin)
        (fun σ => f σ - ∑ τ, w τ * f τ) zs.length 0 (partOf n s.alloc) +
        sumSq (transition n π) (stored burnin) (fun σ => f σ - ∑ τ, w τ * f τ) zs.length 0
          (partOf n s.alloc) ≤ k * (2 * C ^ 2 / ∑ y, q y) := by
      refine le_trans (by linarith) (h6.trans (mul_le_mul_of_nonneg_left ?_ hk.le))
      have : C ^ 2 * (2 / (∑ y, q y) - 1) = 2 * C ^ 2 / (∑ y, q y) - C ^ 2 := by ring
      linarith
    refine le_trans (mul_le_mul_of_nonneg_right h10 (by positivity)) (le_of_eq ?_)
    field_simp

end run

end Bayesmix.Chain
