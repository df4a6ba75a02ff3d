import Mathlib.Analysis.Calculus.Deriv.Comp
import Mathlib.Analysis.Calculus.Deriv.Inv
import Mathlib.Tactic.Module
import Verif.Mixing.SBLemmas

/-! Gradient of the full conditional of the logit stick-breaking mixing -/

namespace Bayesmix.Mixing
open Bayesmix

variable {d : ℕ}

theorem sigmoid_eq (x : ℝ) : sigmoid x = (1 + Real.exp (-x))⁻¹ := by
  unfold sigmoid; norm_num

theorem hasDerivAt_sigmoid (x : ℝ) :
    HasDerivAt sigmoid (sigmoid x * (1 - sigmoid x)) x := by
  have h1 : HasDerivAt (fun x : ℝ => 1 + Real.exp (-x)) (-Real.exp (-x)) x := by
    have := ((hasDerivAt_neg x).exp).const_add 1
    simpa using this
  have hne : 1 + Real.exp (-x) ≠ 0 := by positivity
  have h2 := h1.inv hne
  have hf : sigmoid = fun x => (1 + Real.exp (-x))⁻¹ := funext sigmoid_eq
  rw [hf]
  refine h2.congr_deriv ?_
  field_simp
  ring

theorem hasDerivAt_log_sigmoid (x : ℝ) :
    HasDerivAt (fun x => Real.log (sigmoid x)) (1 - sigmoid x) x := by
  have := (hasDerivAt_sigmoid x).log (sigmoid_pos x).ne'
  refine this.congr_deriv ?_
  have := (sigmoid_pos x).ne'
  field_simp

theorem hasDerivAt_log_one_sub_sigmoid (x : ℝ) :
    HasDerivAt (fun x => Real.log (1 - sigmoid x)) (-sigmoid x) x := by
  have hpos : 0 < 1 - sigmoid x := by linarith [sigmoid_lt_one x]
  have := ((hasDerivAt_sigmoid x).const_sub 1).log hpos.ne'
  refine this.congr_deriv ?_
  field_simp

theorem hasDerivAt_line (x α v : Fin d → ℝ) :
    HasDerivAt (fun τ : ℝ => x ⬝ᵥ (α + τ • v)) (x ⬝ᵥ v) 0 := by
  have e : (fun τ : ℝ => x ⬝ᵥ (α + τ • v)) = fun τ : ℝ => x ⬝ᵥ α + τ * (x ⬝ᵥ v) := by
    funext τ
    rw [dotProduct_add, dotProduct_smul, smul_eq_mul]
  rw [e]
  simpa using ((hasDerivAt_id (0 : ℝ)).mul_const (x ⬝ᵥ v)).const_add (x ⬝ᵥ α)

theorem hasDerivAt_quad (mean : Fin d → ℝ) (P : Matrix (Fin d) (Fin d) ℝ)
    (hP : P.transpose = P) (α v : Fin d → ℝ) :
    HasDerivAt (fun τ : ℝ => -0.5 * ((α + τ • v - mean) ⬝ᵥ P.mulVec (α + τ • v - mean)))
      (P.mulVec (mean - α) ⬝ᵥ v) 0 := by
  set u := α - mean with hu
  have hsym : v ⬝ᵥ P.mulVec u = u ⬝ᵥ P.mulVec v := by
    rw [Matrix.dotProduct_mulVec, ← Matrix.mulVec_transpose, hP, dotProduct_comm]
  have e : (fun τ : ℝ => -0.5 * ((α + τ • v - mean) ⬝ᵥ P.mulVec (α + τ • v - mean))) =
      fun τ : ℝ => -0.5 * (u ⬝ᵥ P.mulVec u) + τ * (-(u ⬝ᵥ P.mulVec v))
        + τ ^ 2 * (-0.5 * (v ⬝ᵥ P.mulVec v)) := by
    funext τ
    have : α + τ • v - mean = u + τ • v := by rw [hu]; module
    rw [this, Matrix.mulVec_add, Matrix.mulVec_smul]
    simp only [add_dotProduct, dotProduct_add, smul_dotProduct, dotProduct_smul, smul_eq_mul,
      hsym]
    ring
  rw [e]
  have h1 := ((hasDerivAt_id (0 : ℝ)).mul_const (-(u ⬝ᵥ P.mulVec v))).const_add
    (-0.5 * (u ⬝ᵥ P.mulVec u))
  have h2 := ((hasDerivAt_pow 2 (0 : ℝ)).mul_const (-0.5 * (v ⬝ᵥ P.mulVec v)))
  have h3 := h1.add h2
  refine h3.congr_deriv ?_
  have hm : mean - α = -u := by rw [hu]; abel
  rw [hm, Matrix.mulVec_neg, neg_dotProduct, dotProduct_comm (P.mulVec u) v, hsym]
  simp

theorem hasDerivAt_fold (data : List (LogitDatum d)) (clust : ℕ) (α v : Fin d → ℝ)
    (f : ℝ → ℝ) (g : Fin d → ℝ) (h : HasDerivAt f (g ⬝ᵥ v) 0) :
    HasDerivAt (fun τ : ℝ => data.foldl (fullCondStep (α + τ • v) clust) (f τ))
      (data.foldl (gradStep α clust) g ⬝ᵥ v) 0 := by
  induction data generalizing f g with
  | nil => simpa using h
  | cons x xs ih =>
    simp only [List.foldl_cons]
    apply ih
    unfold fullCondStep gradStep
    by_cases hc : clust ≤ x.2
    · simp only [if_pos hc]
      have hline := hasDerivAt_line x.1 α v
      by_cases he : x.2 = clust
      · simp only [if_pos he]
        have hl := (hasDerivAt_log_sigmoid (x.1 ⬝ᵥ (α + (0 : ℝ) • v))).comp (0 : ℝ) hline
        have h2 := h.add hl
        simp only [zero_smul, add_zero] at h2
        refine (h2.congr_deriv ?_).congr_of_eventuallyEq ?_
        · rw [add_dotProduct, smul_dotProduct, smul_eq_mul]
        · refine Filter.Eventually.of_forall fun τ => ?_
          simp only [Function.comp, Pi.add_apply]
          norm_num
      · simp only [if_neg he]
        have hl := (hasDerivAt_log_one_sub_sigmoid (x.1 ⬝ᵥ (α + (0 : ℝ) • v))).comp (0 : ℝ) hline
        have h2 := h.add hl
        simp only [zero_smul, add_zero] at h2
        refine (h2.congr_deriv ?_).congr_of_eventuallyEq ?_
        · rw [add_dotProduct, smul_dotProduct, smul_eq_mul]; ring
        · refine Filter.Eventually.of_forall fun τ => ?_
          simp only [Function.comp, Pi.add_apply]
          norm_num
    · simp only [if_neg hc]; exact h

theorem hasDerivAt_fullCond (mean : Fin d → ℝ) (P : Matrix (Fin d) (Fin d) ℝ)
    (hP : P.transpose = P) (data : List (LogitDatum d)) (clust : ℕ) (α v : Fin d → ℝ) :
    HasDerivAt (fun τ : ℝ => fullCond mean P data clust (α + τ • v))
      (gradFullCond mean P data clust α ⬝ᵥ v) 0 :=
  hasDerivAt_fold data clust α v _ _ (hasDerivAt_quad mean P hP α v)

end Bayesmix.Mixing

namespace Bayesmix.Mixing
open Bayesmix

/-- effect of one stick on the weights -/
theorem stickWeights_set (l : List ℝ) (hl : ∀ v ∈ l, 0 < v ∧ v < 1) (h c : ℕ)
    (hh : h < l.length) (hc : c < l.length) :
    ∃ K : ℝ, 0 < K ∧ ∀ s : ℝ, (stickWeights (l.set h s)).getD c 0 =
      K * (if c < h then 1 else if c = h then s else 1 - s) := by
  induction l generalizing h c with
  | nil => simp at hh
  | cons v t ih =>
    have hv := hl v (by simp)
    have ht : ∀ x ∈ t, 0 < x ∧ x < 1 := fun x hx => hl x (by simp [hx])
    cases h with
    | zero =>
      cases c with
      | zero => exact ⟨1, one_pos, fun s => by simp [stickWeights]⟩
      | succ c =>
        have hc' : c < t.length := by simpa using hc
        have hlen : c < (stickWeights t).length := by rw [stickWeights_length]; exact hc'
        refine ⟨(stickWeights t).getD c 0, ?_, ?_⟩
        · have e := stickWeights_getElem? t c hc'
          simp only [List.getD, e, Option.getD_some]
          apply mul_pos (ht _ (List.getElem_mem hc')).1
          exact leftover_pos (fun x hx => (ht x (List.mem_of_mem_take hx)).2)
        · intro s
          simp [stickWeights, List.getD, hlen, mul_comm]
    | succ h =>
      have hh' : h < t.length := by simpa using hh
      cases c with
      | zero => exact ⟨v, hv.1, fun s => by simp [stickWeights]⟩
      | succ c =>
        have hc' : c < t.length := by simpa using hc
        obtain ⟨K, hK, hs⟩ := ih ht h c hh' hc'
        refine ⟨(1 - v) * K, mul_pos (by linarith [hv.2]) hK, ?_⟩
        intro s
        have hlen : c < (stickWeights (t.set h s)).length := by
          rw [stickWeights_length]; simpa using hc'
        have := hs s
        simp only [List.getD, List.getElem?_eq_getElem hlen, Option.getD_some] at this
        simp only [List.set_cons_succ, stickWeights, List.getD, List.getElem?_cons_succ,
          List.getElem?_map, List.getElem?_eq_getElem hlen, Option.map_some, Option.getD_some,
          this, Nat.add_lt_add_iff_right, Nat.add_right_cancel_iff]
        ring

variable {d : ℕ}

/-- Contribution of one datum to the log likelihood in `LogitSBMixing::full_cond_lpdf`,
logit_sb_mixing.cc:126-143. -/
noncomputable def fullCondTerm (alpha : Fin d → ℝ) (clust : ℕ) (xc : LogitDatum d) : ℝ :=
  if xc.2 < clust then 0
  else if xc.2 = clust then Real.log (sigmoid (xc.1 ⬝ᵥ alpha))
  else Real.log (1 - sigmoid (xc.1 ⬝ᵥ alpha))

theorem fullCond_eq (data : List (LogitDatum d)) (clust : ℕ) (alpha : Fin d → ℝ) (a : ℝ) :
    data.foldl (fullCondStep alpha clust) a = a + (data.map (fullCondTerm alpha clust)).sum := by
  induction data generalizing a with
  | nil => simp
  | cons x xs ih =>
    rw [List.foldl_cons, ih, List.map_cons, List.sum_cons, ← add_assoc]
    congr 1
    unfold fullCondStep fullCondTerm
    by_cases h1 : x.2 < clust
    · simp [h1, Nat.not_le.mpr h1]
    · have h1' : clust ≤ x.2 := Nat.not_lt.mp h1
      by_cases h2 : x.2 = clust
      · simp only [h2, le_refl, lt_irrefl, if_true, if_false]; norm_num
      · simp only [if_pos h1', if_neg h1, if_neg h2]; norm_num

theorem sum_map_sub {α : Type} (l : List α) (f g : α → ℝ) :
    (l.map f).sum - (l.map g).sum = (l.map fun x => f x - g x).sum := by
  induction l with
  | nil => simp
  | cons a t ih => simp only [List.map_cons, List.sum_cons, ← ih]; ring

theorem sum_set_sub {β : Type} (l : List β) (f : β → ℝ) (h : ℕ) (hh : h < l.length) (a b : β) :
    ((l.set h a).map f).sum - ((l.set h b).map f).sum = f a - f b := by
  induction l generalizing h with
  | nil => simp at hh
  | cons x t ih =>
    cases h with
    | zero => simp
    | succ h =>
      simp only [List.set_cons_succ, List.map_cons, List.sum_cons]
      have := ih h (by simpa using hh)
      linarith

theorem logit_term_diff {num : ℕ} (hn : 0 < num) (coefs : List (Fin d → ℝ))
    (hc : coefs.length = num - 1) (h : ℕ) (hh : h < num - 1) (xc : LogitDatum d)
    (hx : xc.2 < num) (a b : Fin d → ℝ) :
    logitLogWeightOf num (coefs.set h a) xc.1 xc.2 -
    logitLogWeightOf num (coefs.set h b) xc.1 xc.2 =
    fullCondTerm a h xc - fullCondTerm b h xc := by
  set l := (coefs.map fun c => sigmoid (xc.1 ⬝ᵥ c)) ++ [sigmoid 1] with hl
  have key : ∀ e : Fin d → ℝ, logitWeights num (coefs.set h e) xc.1 =
      .ok (stickWeights (l.set h (sigmoid (xc.1 ⬝ᵥ e)))) := by
    intro e
    rw [logit_weights_eq hn (by simp; omega), List.take_of_length_le (by simp; omega), hl,
      List.map_set, List.set_append_left _ _ (by simp; omega)]
  have hpos : ∀ v ∈ l, 0 < v ∧ v < 1 := by
    intro v hv
    rw [hl, List.mem_append, List.mem_map, List.mem_singleton] at hv
    rcases hv with ⟨c, _, rfl⟩ | rfl <;> exact ⟨sigmoid_pos _, sigmoid_lt_one _⟩
  obtain ⟨K, hK, hs⟩ := stickWeights_set l hpos h xc.2 (by rw [hl]; simp; omega)
    (by rw [hl]; simp; omega)
  unfold logitLogWeightOf
  rw [key, key]
  simp only [hs]
  unfold fullCondTerm
  have h1 := fun e : Fin d → ℝ => sigmoid_pos (xc.1 ⬝ᵥ e)
  have h2 := fun e : Fin d → ℝ => sigmoid_lt_one (xc.1 ⬝ᵥ e)
  split
  · simp
  · split
    · rw [Real.log_mul hK.ne' (h1 a).ne', Real.log_mul hK.ne' (h1 b).ne']; ring
    · rw [Real.log_mul hK.ne' (by linarith [h2 a]), Real.log_mul hK.ne' (by linarith [h2 b])]; ring

theorem fullCond_posterior (mean : Fin d → ℝ) (prec : Matrix (Fin d) (Fin d) ℝ) {num : ℕ}
    (hn : 0 < num) (coefs : List (Fin d → ℝ)) (hc : coefs.length = num - 1) (h : ℕ)
    (hh : h < num - 1) (data : List (LogitDatum d)) (hx : ∀ xc ∈ data, xc.2 < num)
    (a b : Fin d → ℝ) :
    fullCond mean prec data h a - fullCond mean prec data h b =
      logitPosterior mean prec num (coefs.set h a) data -
      logitPosterior mean prec num (coefs.set h b) data := by
  unfold fullCond logitPosterior
  rw [fullCond_eq, fullCond_eq]
  have e1 := sum_set_sub coefs
    (fun a => -(1 / 2) * ((a - mean) ⬝ᵥ (prec.mulVec (a - mean)))) h (by omega) a b
  have e2 := sum_map_sub data
    (fun xc => logitLogWeightOf num (coefs.set h a) xc.1 xc.2)
    (fun xc => logitLogWeightOf num (coefs.set h b) xc.1 xc.2)
  have e3 : (data.map fun xc =>
      logitLogWeightOf num (coefs.set h a) xc.1 xc.2 -
      logitLogWeightOf num (coefs.set h b) xc.1 xc.2) =
      data.map fun xc => fullCondTerm a h xc - fullCondTerm b h xc := by
    apply List.map_congr_left
    intro xc hm
    exact logit_term_diff hn coefs hc h hh xc (hx xc hm) a b
  beta_reduce at e2
  rw [e3, ← sum_map_sub] at e2
  have e5 : (-0.5 : ℝ) = -(1 / 2) := by norm_num
  rw [e5]
  beta_reduce at e1 e2
  linarith

end Bayesmix.Mixing
