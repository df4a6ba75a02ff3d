import Mathlib.Analysis.SpecialFunctions.Log.Deriv
import Mathlib.Analysis.SpecialFunctions.ExpDeriv
import Mathlib.Analysis.SpecialFunctions.Gamma.Basic
import Mathlib.Analysis.Calculus.Deriv.Mul
import Mathlib.Analysis.Calculus.Deriv.Add
import Verif.Mixing.Lemmas

namespace Bayesmix.Mixing
open Bayesmix

/-! ### truncated stick-breaking -/

/-- There are as many sticks as components, and the log weights are those of the sticks. -/
def SBInv (s : SBState) : Prop :=
  s.num = s.sticks.length ∧ logweightsFromSticks s.num s.sticks = .ok s.logweights

theorem sbInit_inv {prior : SBPrior} {num : ℕ} {s : SBState} (h : sbInit prior num = .ok s) :
    SBInv s ∧ ∃ shapes, sbCheck prior num = .ok () ∧ priorShapes prior num = .ok shapes ∧
      s.sticks = shapes.map (fun ab => ab.1 / (ab.1 + ab.2)) ∧ s.num = num := by
  unfold sbInit at h
  cases hc : sbCheck prior num with
  | error e => rw [hc] at h; cases h
  | ok u =>
    rw [hc, ok_bind] at h
    cases hs : priorShapes prior num with
    | error e => rw [hs] at h; cases h
    | ok shapes =>
      rw [hs, ok_bind] at h
      simp only at h
      cases hl : logweightsFromSticks num (shapes.map fun ab => ab.1 / (ab.1 + ab.2)) with
      | error e => rw [hl] at h; cases h
      | ok lw =>
        rw [hl] at h
        cases h
        have hlen : shapes.length = num := by
          have := mapM_ok_length hs; simpa using this
        exact ⟨⟨by simp [hlen], hl⟩, shapes, rfl, rfl, rfl, rfl⟩

theorem sbSet_inv {sticks : List ℝ} {s : SBState} (h : sbSetSticks sticks = .ok s) :
    SBInv s ∧ s.sticks = sticks := by
  unfold sbSetSticks at h
  cases hl : logweightsFromSticks sticks.length sticks with
  | error e => rw [hl] at h; cases h
  | ok lw => rw [hl] at h; cases h; exact ⟨⟨rfl, hl⟩, rfl⟩

theorem sbUpdate_inv {s s' : SBState} {prior : SBPrior} {inf : Bool} {cards : List ℕ}
    {draws : ℕ → ℝ → ℝ → ℝ} (hs : SBInv s) (h : sbUpdate s prior inf cards draws = .ok s') :
    SBInv s' ∧ ∃ shapes new, priorShapes prior s.num = .ok shapes ∧
      (List.range s.num).mapM (drawStick shapes cards draws) = .ok new ∧
      s'.sticks = (if inf then new else new.set (s.num - 1) 1) ∧ s'.num = s.num ∧
      (inf = false → s.num ≠ 0) ∧ cards.length = s.num := by
  unfold sbUpdate at h
  split at h
  · cases h
  · rename_i hcl
    push Not at hcl
    cases hp : priorShapes prior s.num with
    | error e => rw [hp] at h; cases h
    | ok shapes =>
      rw [hp, ok_bind] at h
      cases hm : (List.range s.num).mapM (drawStick shapes cards draws) with
      | error e => rw [hm] at h; cases h
      | ok new =>
        rw [hm, ok_bind] at h
        have hlen : new.length = s.num := by simpa using mapM_ok_length hm
        have hdrop : s.sticks.drop s.num = [] := by
          rw [List.drop_eq_nil_iff]; exact hs.1.ge
        unfold storeSticks at h
        rw [if_neg (by have := hs.1; omega), hdrop, List.append_nil] at h
        cases inf with
        | true =>
          simp only [if_true, ok_bind] at h
          cases hl : logweightsFromSticks s.num new with
          | error e => rw [hl] at h; cases h
          | ok lw =>
            rw [hl] at h; cases h
            exact ⟨⟨hlen.symm, hl⟩, shapes, new, rfl, hm, by simp, rfl, by simp, hcl⟩
        | false =>
          simp only [Bool.false_eq_true, if_false] at h
          split at h
          · cases h
          · rename_i hne
            simp only [ok_bind] at h
            cases hl : logweightsFromSticks s.num (new.set (s.num - 1) 1) with
            | error e => rw [hl] at h; cases h
            | ok lw =>
              rw [hl] at h; cases h
              exact ⟨⟨by simp [hlen], hl⟩, shapes, new, rfl, hm, by simp, rfl,
                fun _ => hne, hcl⟩

theorem keepBreaking_inv {s s' : SBState} {prior : SBPrior} {k : ℕ} {draws : ℕ → ℝ → ℝ → ℝ} {r : ℝ}
    (hs : SBInv s) (h : keepBreaking s prior k draws = .ok (s', r)) :
    SBInv s' ∧ ∃ new, (List.range k).mapM (breakStick prior s.num draws) = .ok new ∧
      s'.sticks = s.sticks ++ new ∧ new.length = k ∧ s'.num = s.num + k ∧
      r = (sbWeights s').sum - (sbWeights s).sum := by
  unfold keepBreaking at h
  cases hm : (List.range k).mapM (breakStick prior s.num draws) with
  | error e => simp only [hm] at h; cases h
  | ok new =>
    have hlen : new.length = k := by simpa using mapM_ok_length hm
    have htake : s.sticks.take s.num = s.sticks := List.take_of_length_le hs.1.ge
    simp only [hm, ok_bind, htake] at h
    cases hl : logweightsFromSticks (s.num + k) (s.sticks ++ new) with
    | error e => rw [hl] at h; cases h
    | ok lw =>
      rw [hl, ok_bind] at h
      cases h
      exact ⟨⟨by simp [hs.1, hlen], hl⟩, new, rfl, rfl, hlen, rfl, rfl⟩

theorem SBRun.inv {prior : SBPrior} {inf : Bool} {s : SBState} (h : SBRun prior inf s) :
    SBInv s := by
  induction h with
  | init h => exact (sbInit_inv h).1
  | set h => exact (sbSet_inv h).1
  | update _ h ih => exact (sbUpdate_inv ih h).1
  | breaks _ h ih => exact (keepBreaking_inv ih h).1

theorem SBInv.weights {s : SBState} (hs : SBInv s) (hv : ∀ v ∈ s.sticks, 0 ≤ v ∧ v ≤ 1) :
    sbWeights s = stickWeights s.sticks := by
  have h := hs.2
  rw [hs.1] at h
  exact logweights_exp hv h

theorem cumsum_append (l m : List ℝ) (h : ℕ) (hh : h ≤ l.length) :
    cumsum (l ++ m) h = cumsum l h := by
  induction h with
  | zero => rfl
  | succ h ih =>
    rw [cumsum, cumsum, ih (by omega)]
    have : (l ++ m).getD h 0 = l.getD h 0 := by
      simp [List.getD, List.getElem?_append_left (show h < l.length from hh)]
    rw [this]

theorem logweights_prefix (l m : List ℝ) (lw lw' : List EReal)
    (h : logweightsFromSticks l.length l = .ok lw)
    (h' : logweightsFromSticks (l ++ m).length (l ++ m) = .ok lw') :
    ∃ app, lw' = lw ++ app ∧ app.length = m.length := by
  unfold logweightsFromSticks at h h'
  rw [if_pos (Nat.le_refl _)] at h h'
  cases h; cases h'
  rw [List.length_append, List.range_add, List.map_append]
  refine ⟨_, congrArg (· ++ _) ?_, by simp⟩
  apply List.map_congr_left
  intro i hi
  have hi' : i < l.length := by simpa using hi
  rw [cumsum_append _ _ _ hi'.le]
  have : (l ++ m).getD i 0 = l.getD i 0 := by
    simp [List.getD, List.getElem?_append_left hi']
  rw [this]

/-! ### logit stick-breaking -/

theorem sigmoid_pos (x : ℝ) : 0 < sigmoid x := by
  unfold sigmoid; positivity

theorem sigmoid_lt_one (x : ℝ) : sigmoid x < 1 := by
  unfold sigmoid
  rw [div_lt_one (by positivity)]
  linarith [Real.exp_pos (-x)]

theorem sigmoid_neg (x : ℝ) : sigmoid (-x) = 1 - sigmoid x := by
  unfold sigmoid
  have h1 : (1.0 : ℝ) + Real.exp (-x) ≠ 0 := by positivity
  have h2 : (1.0 : ℝ) + Real.exp (- -x) ≠ 0 := by positivity
  rw [eq_sub_iff_add_eq, div_add_div _ _ h2 h1, div_eq_one_iff_eq (mul_ne_zero h2 h1)]
  have h3 : Real.exp (- -x) * Real.exp (-x) = 1 := by
    rw [← Real.exp_add]; simp
  norm_num at *
  nlinarith

theorem logit_weights_eq {d : ℕ} {num : ℕ} {coefs : List (Fin d → ℝ)} {x : Fin d → ℝ}
    (hn : 0 < num) (hc : num - 1 ≤ coefs.length) :
    logitWeights num coefs x =
      .ok (stickWeights (((coefs.take (num - 1)).map (fun c => sigmoid (x ⬝ᵥ c))) ++
        [sigmoid 1])) := by
  unfold logitWeights logitLogWeights
  rw [if_neg (by omega)]
  simp only [ok_bind]
  set eta := (coefs.take (num - 1)).map (fun c => x ⬝ᵥ c) ++ [(1.0 : ℝ)] with heta
  have hlen : eta.length = num := by
    rw [heta]; simp; omega
  have hst : ((coefs.take (num - 1)).map (fun c => sigmoid (x ⬝ᵥ c))) ++ [sigmoid 1] =
      eta.map sigmoid := by
    rw [heta, List.map_append, List.map_map]; norm_num [Function.comp_def]
  rw [hst]
  congr 1
  have key := weights_of_logs (f := logitCumsum eta) (sticks := eta.map sigmoid) rfl ?_ ?_
  · rw [← key, List.length_map, hlen]
    congr 1
    apply List.map_congr_left
    intro i hi
    have hi' : i < eta.length := by simpa [hlen] using hi
    simp [List.getD, hi']
  · intro h hh
    rw [logitCumsum, sigmoid_neg]
    have hh' : h < eta.length := by simpa using hh
    simp [List.getD, hh']
  · intro v hv
    rw [List.mem_map] at hv
    obtain ⟨e, _, rfl⟩ := hv
    exact ⟨(sigmoid_pos e).le, (sigmoid_lt_one e).le⟩

end Bayesmix.Mixing
