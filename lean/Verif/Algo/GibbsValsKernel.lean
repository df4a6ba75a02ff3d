import Verif.Algo.GibbsValsLemmas
import Verif.Alloc.InitLemmas
import Mathlib.MeasureTheory.Function.SpecialFunctions.Basic

/-! The transition of the place of one row in Neal8 and Neal2. -/

namespace Bayesmix.Gibbs
open Bayesmix.SplitMerge MeasureTheory ENNReal

variable {G H Θ : Type}

/-- Expectation of `φ` over the choice of the new place, given the auxiliary values: choice `c < K`
is an existing cluster, choice `K + j` a new cluster with the `j`-th auxiliary value. -/
noncomputable def chosen (like : Θ → ℕ → ℝ) (S : Scores H) (n : ℕ) (s1 : Alg G H Θ) (i : ℕ) {m : ℕ}
    (a : Fin m → Θ) (φ : Place Θ → ℝ≥0∞) : ℝ≥0∞ :=
  ∑ c ∈ Finset.range s1.clus.length,
      ENNReal.ofReal ((neal8Probas like S n (List.ofFn a) s1 i).getD c 0) * φ (.inl c) +
    ∑ j : Fin m, ENNReal.ofReal
      ((neal8Probas like S n (List.ofFn a) s1 i).getD (s1.clus.length + j) 0) * φ (.inr (a j))

/-- Expectation of `φ` at the new place of row `i`, from the old place, with `m + 1` auxiliary
blocks: a row of a shared cluster sees `m + 1` draws from `ν`, a row that is alone its own value and
`m` draws. -/
noncomputable def neal8Kernel [MeasurableSpace Θ] (like : Θ → ℕ → ℝ) (S : Scores H) (n : ℕ)
    (s1 : Alg G H Θ) (i : ℕ) (ν : Measure Θ) (m : ℕ) (φ : Place Θ → ℝ≥0∞) : Place Θ → ℝ≥0∞
  | .inl _ => ∫⁻ a : Fin (m + 1) → Θ, chosen like S n s1 i a φ ∂(Measure.pi fun _ => ν)
  | .inr θ => ∫⁻ a : Fin m → Θ, chosen like S n s1 i (Fin.cons θ a : Fin (m + 1) → Θ) φ
      ∂(Measure.pi fun _ => ν)

/-- Integral of `φ` over the place of row `i` under the joint density, everything else as in `s1`. -/
noncomputable def target [MeasurableSpace Θ] (π : List ℕ → ℝ) (like : Θ → ℕ → ℝ) (n : ℕ)
    (s1 : Alg G H Θ) (i : ℕ) (ν : Measure Θ) (φ : Place Θ → ℝ≥0∞) : ℝ≥0∞ :=
  ∑ c ∈ Finset.range s1.clus.length,
      ENNReal.ofReal (joint π like n (labelsAt s1 i (.inl c)) (valuesAt s1 (.inl c))) * φ (.inl c) +
    ∫⁻ θ, ENNReal.ofReal (joint π like n (labelsAt s1 i (.inr θ)) (valuesAt s1 (.inr θ))) *
      φ (.inr θ) ∂ν

/-! ### Dependence on the state -/

theorem set_agree {α : Type} {l l' : List α} {i : ℕ} (hl : l'.length = l.length)
    (h : ∀ x, x ≠ i → l'[x]? = l[x]?) (c : α) : l'.set i c = l.set i c := by
  apply List.ext_getElem?
  intro x
  by_cases hx : x = i
  · subst hx
    by_cases hlt : x < l.length
    · rw [List.getElem?_set_self hlt, List.getElem?_set_self (by omega)]
    · rw [List.getElem?_eq_none (by simp; omega), List.getElem?_eq_none (by simp; omega)]
  · rw [List.getElem?_set_ne (Ne.symm hx), List.getElem?_set_ne (Ne.symm hx), h x hx]

section
variable [MeasurableSpace Θ] {like : Θ → ℕ → ℝ} {S : Scores H} {n i : ℕ} {s1 s1' : Alg G H Θ}

theorem neal8Kernel_agree (hc : s1'.clus = s1.clus) (ν : Measure Θ) (m : ℕ)
    (φ : Place Θ → ℝ≥0∞) (x : Place Θ) :
    neal8Kernel like S n s1' i ν m φ x = neal8Kernel like S n s1 i ν m φ x := by
  cases x <;> simp only [neal8Kernel, chosen, neal8Probas, neal8PriorMass, neal8ClusterLpdf, hc]

theorem target_agree (hc : s1'.clus = s1.clus) (hl : s1'.alloc.length = s1.alloc.length)
    (h : ∀ x, x ≠ i → s1'.alloc[x]? = s1.alloc[x]?) (π : List ℕ → ℝ) (ν : Measure Θ)
    (φ : Place Θ → ℝ≥0∞) : target π like n s1' i ν φ = target π like n s1 i ν φ := by
  simp only [target, labelsAt, valuesAt, valuesOf, hc, set_agree hl h]

end

/-! ### The probabilities of Neal8 -/

/-- Weight of an existing cluster. -/
noncomputable def exWeight (like : Θ → ℕ → ℝ) (S : Scores H) (n : ℕ) (s1 : Alg G H Θ) (i c : ℕ) :
    ℝ≥0∞ :=
  ((s1.clus[c]?).map fun o =>
    ENNReal.ofReal (Real.exp (S.exist (n - 1) s1.clus.length o.card + like o.state i))).getD 0

/-- Weight of a new cluster. -/
noncomputable def newWeight (like : Θ → ℕ → ℝ) (S : Scores H) (n : ℕ) (s1 : Alg G H Θ) (i : ℕ)
    (θ : Θ) : ℝ≥0∞ :=
  ENNReal.ofReal (Real.exp (S.fresh (n - 1) s1.clus.length + like θ i))

theorem ofReal_list_sum {l : List ℝ} (h : ∀ x ∈ l, 0 ≤ x) :
    ENNReal.ofReal l.sum = (l.map ENNReal.ofReal).sum := by
  induction l with
  | nil => simp
  | cons a l ih =>
    rw [List.sum_cons, List.map_cons, List.sum_cons, ENNReal.ofReal_add (h a (by simp))
      (List.sum_nonneg fun x hx => h x (by simp [hx])), ih fun x hx => h x (by simp [hx])]

theorem sum_map_range {α : Type} (l : List α) (f : α → ℝ≥0∞) :
    (l.map f).sum = ∑ c ∈ Finset.range l.length, ((l[c]?).map f).getD 0 := by
  rw [Finset.sum_range, ← List.sum_ofFn]
  congr 1
  apply List.ext_getElem (by simp)
  intro k h1 h2
  simp at h1
  simp [h1]

theorem chosen_eq (like : Θ → ℕ → ℝ) (S : Scores H) (n : ℕ) (s1 : Alg G H Θ) (i : ℕ) {m : ℕ}
    (a : Fin (m + 1) → Θ) (φ : Place Θ → ℝ≥0∞) :
    chosen like S n s1 i a φ =
      offerSum (exWeight like S n s1 i) s1.clus.length (newWeight like S n s1 i) φ a /
        offerSum (exWeight like S n s1 i) s1.clus.length (newWeight like S n s1 i) (fun _ => 1) a := by
  obtain ⟨l, hl⟩ : ∃ l, l = s1.clus.map (fun o => S.exist (n - 1) s1.clus.length o.card +
      like o.state i) ++ List.ofFn fun j => S.fresh (n - 1) s1.clus.length +
        (like (a j) i - Real.log ((m + 1 : ℕ) : ℝ)) := ⟨_, rfl⟩
  have hp : neal8Probas like S n (List.ofFn a) s1 i = softmax l := by
    unfold neal8Probas neal8PriorMass neal8ClusterLpdf
    congr 1
    rw [hl, List.zipWith_append (by simp), List.zipWith_map]
    congr 1
    · simp [List.zipWith_self]
    · apply List.ext_getElem (by simp)
      intro k h1 h2
      simp [-List.ofFn_succ]
  have hm : (0 : ℝ) < ((m + 1 : ℕ) : ℝ) := by positivity
  have hinv : ENNReal.ofReal (((m + 1 : ℕ) : ℝ)⁻¹) = (((m + 1 : ℕ) : ℝ≥0∞))⁻¹ := by
    rw [ENNReal.ofReal_inv_of_pos hm, ENNReal.ofReal_natCast]
  have hexp : ∀ θ, ENNReal.ofReal (Real.exp (S.fresh (n - 1) s1.clus.length +
      (like θ i - Real.log ((m + 1 : ℕ) : ℝ)))) =
      newWeight like S n s1 i θ * (((m + 1 : ℕ) : ℝ≥0∞))⁻¹ := by
    intro θ
    rw [← add_sub_assoc, Real.exp_sub, Real.exp_log hm, div_eq_mul_inv,
      ENNReal.ofReal_mul (Real.exp_pos _).le, hinv]
    rfl
  obtain ⟨T, hT⟩ : ∃ T, T = (l.map Real.exp).sum := ⟨_, rfl⟩
  have hTpos : 0 < T := by
    rw [hT]
    apply List.sum_pos _ (by simp [Real.exp_pos])
    intro h
    have := congrArg List.length h
    simp [hl] at this
  have hTsum : ENNReal.ofReal T = offerSum (exWeight like S n s1 i) s1.clus.length
      (newWeight like S n s1 i) (fun _ => 1) a := by
    have h0 : ∀ x ∈ l.map Real.exp, 0 ≤ x := by
      intro x hx
      obtain ⟨y, -, rfl⟩ := List.mem_map.mp hx
      exact (Real.exp_pos y).le
    rw [hT, ofReal_list_sum h0, hl]
    simp only [List.map_append, List.map_map, List.sum_append, List.map_ofFn, List.sum_ofFn,
      Function.comp_def, hexp]
    rw [sum_map_range, offerSum]
    simp only [mul_one]
    rfl
  have hget : ∀ (k : ℕ) x, l[k]? = some x →
      ENNReal.ofReal ((neal8Probas like S n (List.ofFn a) s1 i).getD k 0) =
        ENNReal.ofReal (Real.exp x) * (ENNReal.ofReal T)⁻¹ := by
    intro k x hx
    rw [hp, List.getD_eq_getElem?_getD, softmax, List.getElem?_map, hx, Option.map_some,
      Option.getD_some, ← hT, ENNReal.ofReal_div_of_pos hTpos, div_eq_mul_inv]
  have hex : ∀ c ∈ Finset.range s1.clus.length,
      ENNReal.ofReal ((neal8Probas like S n (List.ofFn a) s1 i).getD c 0) * φ (.inl c) =
        exWeight like S n s1 i c * φ (.inl c) * (ENNReal.ofReal T)⁻¹ := by
    intro c hc
    have hc := Finset.mem_range.mp hc
    rw [hget c _ (by
      rw [hl, List.getElem?_append_left (by simpa using hc), List.getElem?_map,
        List.getElem?_eq_getElem hc, Option.map_some])]
    rw [exWeight, List.getElem?_eq_getElem hc, Option.map_some, Option.getD_some]
    ring
  have hnw : ∀ j : Fin (m + 1), ENNReal.ofReal
      ((neal8Probas like S n (List.ofFn a) s1 i).getD (s1.clus.length + j) 0) * φ (.inr (a j)) =
        newWeight like S n s1 i (a j) * φ (.inr (a j)) * (((m + 1 : ℕ) : ℝ≥0∞))⁻¹ *
          (ENNReal.ofReal T)⁻¹ := by
    intro j
    rw [hget (s1.clus.length + j) (S.fresh (n - 1) s1.clus.length +
        (like (a j) i - Real.log ((m + 1 : ℕ) : ℝ))) (by
      rw [hl, List.getElem?_append_right (by simp)]
      simp [-List.ofFn_succ]; omega), hexp]
    ring
  rw [← hTsum, chosen, Finset.sum_congr rfl hex, Finset.sum_congr rfl fun j _ => hnw j,
    ← Finset.sum_mul, ← Finset.sum_mul, ← add_mul, div_eq_mul_inv]
  rfl

theorem offerSum_one_ne {like : Θ → ℕ → ℝ} {S : Scores H} {n : ℕ} {s1 : Alg G H Θ} {i m : ℕ}
    (a : Fin (m + 1) → Θ) :
    offerSum (exWeight like S n s1 i) s1.clus.length (newWeight like S n s1 i) (fun _ => 1) a ≠ 0 ∧
    offerSum (exWeight like S n s1 i) s1.clus.length (newWeight like S n s1 i) (fun _ => 1) a ≠ ∞ := by
  have hm : (((m + 1 : ℕ) : ℝ≥0∞))⁻¹ ≠ 0 := ENNReal.inv_ne_zero.mpr (ENNReal.natCast_ne_top _)
  have hm' : (((m + 1 : ℕ) : ℝ≥0∞))⁻¹ ≠ ∞ := ENNReal.inv_ne_top.mpr (by simp)
  constructor
  · rw [offerSum]
    intro h
    have h2 := (add_eq_zero.mp h).2
    have h3 := (Finset.sum_eq_zero_iff.mp h2) 0 (Finset.mem_univ _)
    simp only [mul_one] at h3
    rcases mul_eq_zero.mp h3 with h4 | h4
    · exact (ENNReal.ofReal_pos.mpr (Real.exp_pos _)).ne' h4
    · exact hm h4
  · rw [offerSum]
    refine ENNReal.add_ne_top.mpr ⟨ENNReal.sum_ne_top.mpr fun c _ => ?_,
      ENNReal.sum_ne_top.mpr fun j _ => ?_⟩
    · rw [mul_one, exWeight]
      cases s1.clus[c]? with
      | none => exact ENNReal.zero_ne_top
      | some o => exact ENNReal.ofReal_ne_top
    · rw [mul_one]
      exact ENNReal.mul_ne_top ENNReal.ofReal_ne_top hm'

theorem chosen_one (like : Θ → ℕ → ℝ) (S : Scores H) (n : ℕ) (s1 : Alg G H Θ) (i : ℕ) {m : ℕ}
    (a : Fin (m + 1) → Θ) : chosen like S n s1 i a (fun _ => 1) = 1 := by
  obtain ⟨h1, h2⟩ := offerSum_one_ne (like := like) (S := S) (n := n) (s1 := s1) (i := i) a
  rw [chosen_eq]
  exact ENNReal.div_self h1 h2

variable [MeasurableSpace Θ]

theorem neal8Kernel_one (like : Θ → ℕ → ℝ) (S : Scores H) (n : ℕ) (s1 : Alg G H Θ) (i : ℕ)
    (ν : Measure Θ) [IsProbabilityMeasure ν] (m : ℕ) (x : Place Θ) :
    neal8Kernel like S n s1 i ν m (fun _ => 1) x = 1 := by
  cases x <;> simp [neal8Kernel, chosen_one]

/-- The weights `(e, L)` of the places in which the choice of Neal8 is balanced. -/
noncomputable def flow (like : Θ → ℕ → ℝ) (S : Scores H) (n : ℕ) (s1 : Alg G H Θ) (i : ℕ)
    (ν : Measure Θ) (φ : Place Θ → ℝ≥0∞) : ℝ≥0∞ :=
  ∑ c ∈ Finset.range s1.clus.length, exWeight like S n s1 i c * φ (.inl c) +
    ∫⁻ θ, newWeight like S n s1 i θ * φ (.inr θ) ∂ν

theorem newWeight_measurable {like : Θ → ℕ → ℝ} {S : Scores H} {n : ℕ} {s1 : Alg G H Θ} {i : ℕ}
    (hlike : Measurable fun θ => like θ i) : Measurable (newWeight like S n s1 i) := by
  unfold newWeight
  exact ENNReal.measurable_ofReal.comp (Real.measurable_exp.comp (hlike.const_add _))

theorem flow_reversible {like : Θ → ℕ → ℝ} (S : Scores H) (n : ℕ) (s1 : Alg G H Θ) {i : ℕ}
    (hlike : Measurable fun θ => like θ i) (ν : Measure Θ) [IsProbabilityMeasure ν] (m : ℕ)
    {φ ψ : Place Θ → ℝ≥0∞} (hφ : Measurable fun θ => φ (.inr θ))
    (hψ : Measurable fun θ => ψ (.inr θ)) :
    flow like S n s1 i ν (fun x => ψ x * neal8Kernel like S n s1 i ν m φ x) =
      flow like S n s1 i ν (fun x => φ x * neal8Kernel like S n s1 i ν m ψ x) := by
  simp only [flow, neal8Kernel, chosen_eq]
  exact offer_reversible ν _ _ (newWeight_measurable hlike) hφ hψ

end Bayesmix.Gibbs
