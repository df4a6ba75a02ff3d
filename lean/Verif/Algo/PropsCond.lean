import Verif.Algo.CondRows
import Verif.Algo.PropsSlice
import Mathlib.MeasureTheory.Integral.Pi
import Mathlib.MeasureTheory.Integral.IntervalIntegral.Basic

/-!
# C98, C99: the labels in the conditional samplers
-/

namespace Bayesmix.Cond
open Bayesmix Mixing Slice Gibbs MeasureTheory

variable {G H Θ : Type} [AddCommGroup G]

/-! ### C98: blocked Gibbs -/

/-- The labels have the law `∏ w i (c i)`, normalized. -/
def LabelsFrom {n K : ℕ} (l : Law (Alg G H Θ)) (w : Fin n → Fin K → ℝ) : Prop :=
  ∀ c : Fin n → Fin K, l.prob (fun t => t.alloc = List.ofFn fun i => (c i).val) =
    (∏ i, w i (c i)) / ∑ c' : Fin n → Fin K, ∏ i, w i (c' i)

/-- Weights of broken sticks. -/
noncomputable def stickWeight {K : ℕ} (v : Fin K → ℝ) (k : Fin K) : ℝ :=
  v k * ∏ h : Fin k.val, (1 - v (h.castLE k.isLt.le))

theorem stickWeight_eq {K : ℕ} (v : Fin K → ℝ) :
    stickWeights (List.ofFn v) = List.ofFn (stickWeight v) := by
  refine List.ext_getElem? fun k => ?_
  by_cases hk : k < K
  · rw [stickWeights_getElem? _ _ (by simpa using hk), List.getElem?_ofFn, dif_pos hk]
    simp only [List.getElem_ofFn, stickWeight, leftover]
    congr 2
    rw [← List.prod_ofFn]
    congr 1
    refine List.ext_getElem (by simp; omega) fun j h1 h2 => ?_
    simp [Fin.castLE]
  · rw [List.getElem?_eq_none (by simp [stickWeights_length]; omega),
      List.getElem?_eq_none (by simp; omega)]

theorem blocked_core (E : Env G H Θ) (like : Θ → ℕ → ℝ) {K n : ℕ} (θ : Fin K → Θ) (s : Alg G H Θ)
    (hs : Consistent E.contrib n s) (hca : ∀ o ∈ s.clus, o.saved = true → o.ph.isSome)
    (hθ : s.clus.map Hier.state = List.ofFn θ) (lw : ℕ → List EReal) (w : Fin n → Fin K → ℝ)
    (hlw : ∀ i : Fin n, (lw i).map stdExp = List.ofFn (w i))
    (htop : ∀ i : Fin n, ∀ x ∈ lw i, x ≠ ⊤) (hpos : ∀ i : Fin n, ∃ k, 0 < w i k) :
    ∃ l, blockedLaw E like lw K n s = .ok l ∧
      (∀ x ∈ l, Consistent E.contrib n x.2 ∧ x.2.clus.map Hier.state = List.ofFn θ) ∧
      LabelsFrom l fun i k => w i k * Real.exp (like (θ k) i) := by
  obtain ⟨θl, hθl⟩ : ∃ θl, θl = List.ofFn θ := ⟨_, rfl⟩
  have hlen : θl.length = K := by rw [hθl]; simp
  have hg : Good E n θl s := ⟨hs, hca, by rw [hθ, hθl]⟩
  obtain ⟨l, e, h1, h2⟩ := sweep_all (row := blockedRow E like lw θl.length) (lab := Alg.alloc)
    (I := Good E n θl) (n := n)
    (p := fun i k => rowWeight like θl ((lw i).map stdExp) i k /
      ∑ j ∈ Finset.range θl.length, rowWeight like θl ((lw i).map stdExp) i j)
    (fun s hs => hs.cons.len) (fun i hi s hs => by
      refine blockedRow_ok hi ?_ (htop ⟨i, hi⟩) ?_ hs
      · have := congrArg List.length (hlw ⟨i, hi⟩)
        simpa [hlen] using this
      · obtain ⟨k, hk⟩ := hpos ⟨i, hi⟩
        have hkl : k.val < (lw i).length := by
          have := congrArg List.length (hlw ⟨i, hi⟩)
          simp only [List.length_map, List.length_ofFn] at this
          omega
        refine ⟨(lw i)[k.val], List.getElem_mem _, fun hb => ?_⟩
        have := congrArg (fun l => l[k.val]?) (hlw ⟨i, hi⟩)
        simp only [List.getElem?_map, List.getElem?_eq_getElem hkl, Option.map_some,
          List.getElem?_ofFn, k.isLt, dif_pos, hb] at this
        have h0 := Option.some.inj this
        simp only [stdExp, if_true] at h0
        exact hk.ne h0) s hg
  rw [hlen] at e
  refine ⟨l, e, fun x hx => ⟨(h1 x hx).cons, by rw [(h1 x hx).vals, hθl]⟩, fun c => ?_⟩
  have hrow : ∀ (i : Fin n) (k : Fin K), rowWeight like θl ((lw i).map stdExp) i k =
      w i k * Real.exp (like (θ k) i) := by
    intro i k
    subst hθl
    rw [rowWeight, dif_pos (by rw [hlen]; exact k.isLt), hlw i]
    simp [List.getD_eq_getElem?_getD]
  rw [h2 _ (by simp), Finset.prod_range]
  have hden : ∑ c' : Fin n → Fin K, ∏ i, w i (c' i) * Real.exp (like (θ (c' i)) i) =
      ∏ i : Fin n, ∑ k : Fin K, w i k * Real.exp (like (θ k) i) := by
    rw [Finset.prod_univ_sum, Fintype.piFinset_univ]
  rw [hden, ← Finset.prod_div_distrib]
  refine Finset.prod_congr rfl fun i _ => ?_
  have hci : (List.ofFn fun i => (c i).val).getD i.val 0 = (c i).val := by
    simp [List.getD_eq_getElem?_getD]
  rw [hci, hrow, hlen, Finset.sum_range]
  simp only [hrow]

theorem logweights_ne_top {num : ℕ} {sticks : List ℝ} {lw : List EReal}
    (h : logweightsFromSticks num sticks = .ok lw) : ∀ x ∈ lw, x ≠ ⊤ := by
  unfold logweightsFromSticks at h
  split at h
  · rw [← Except.ok.inj h]
    intro x hx
    obtain ⟨j, -, rfl⟩ := List.mem_map.mp hx
    exact EReal.add_ne_top (Density.stdLog_ne_top _) (Density.cumsum_ne_top _ _)
  · cases h

/-- **C98, truncated stick breaking.** The labels after a sweep are drawn from their joint
conditional distribution given the values of the components and the weights: row `i` in component
`k` counts `v_k ∏_{h<k} (1 - v_h) f(y_i | θ_k)`. The values are left as they were. -/
theorem c98_blocked_truncated_sb (E : Env G H Θ) (like : Θ → ℕ → ℝ) (K n : ℕ) (hK : 0 < K)
    (θ : Fin K → Θ) (s : Alg G H Θ) (hs : Consistent E.contrib n s)
    (hca : ∀ o ∈ s.clus, o.saved = true → o.ph.isSome)
    (hθ : s.clus.map Hier.state = List.ofFn θ) (prior : SBPrior) (inf : Bool) (mix : SBState)
    (hmix : SBRun prior inf mix) (v : Fin K → ℝ) (hv : mix.sticks = List.ofFn v)
    (hv01 : ∀ k, 0 < v k ∧ v k ≤ 1) :
    ∃ l, blockedLaw E like (fun _ => mix.logweights) K n s = .ok l ∧
      (∀ x ∈ l, Consistent E.contrib n x.2 ∧ x.2.clus.map Hier.state = List.ofFn θ) ∧
      LabelsFrom l fun (i : Fin n) k => stickWeight v k * Real.exp (like (θ k) i) := by
  have h01 : ∀ x ∈ mix.sticks, 0 ≤ x ∧ x ≤ 1 := by
    intro x hx
    rw [hv, List.mem_ofFn] at hx
    obtain ⟨k, rfl⟩ := hx
    exact ⟨(hv01 k).1.le, (hv01 k).2⟩
  refine blocked_core E like θ s hs hca hθ _ (fun _ => stickWeight v) (fun _ => ?_)
    (fun _ => logweights_ne_top hmix.inv.2) fun _ => ⟨⟨0, hK⟩, ?_⟩
  · have := hmix.inv.weights h01
    rw [hv, stickWeight_eq] at this
    exact this
  · simpa [stickWeight] using (hv01 ⟨0, hK⟩).1

/-- One row with label `k` and two components with values 7 and 8. -/
def pairAlg (k : Fin 2) : Alg ℤ ℕ ℕ :=
  ⟨[k.val], [⟨7, if k = 0 then 1 else 0, if k = 0 then {0} else ∅, if k = 0 then 1 else 0, false,
      none⟩,
    ⟨8, if k = 1 then 1 else 0, if k = 1 then {0} else ∅, if k = 1 then 1 else 0, false, none⟩], 3⟩

theorem pairAlg_cons (k : Fin 2) : Consistent exEnv.contrib 1 (pairAlg k) := by
  have hcl : ∀ (j : ℕ) o, (pairAlg k).clus[j]? = some o →
      j = 0 ∧ o = ⟨7, if k = 0 then 1 else 0, if k = 0 then {0} else ∅, if k = 0 then 1 else 0,
        false, none⟩ ∨
      j = 1 ∧ o = ⟨8, if k = 1 then 1 else 0, if k = 1 then {0} else ∅, if k = 1 then 1 else 0,
        false, none⟩ := by
    intro j o ho
    match j with
    | 0 => exact .inl ⟨rfl, (Option.some.inj ho).symm⟩
    | 1 => exact .inr ⟨rfl, (Option.some.inj ho).symm⟩
    | j + 2 => simp [pairAlg] at ho
  have h00 : membersIn {0} [0] 0 = {0} := by decide
  have h01 : membersIn {0} [0] 1 = ∅ := by decide
  have h10 : membersIn {0} [1] 0 = ∅ := by decide
  have h11 : membersIn {0} [1] 1 = {0} := by decide
  refine ⟨rfl, ⟨?_, ?_, ?_, ?_⟩⟩
  · intro i hi
    have : i = 0 := by simpa using hi
    subst this
    exact ⟨k.val, rfl, by simpa [pairAlg] using k.isLt⟩
  all_goals
    intro j o ho
    rcases hcl j o ho with ⟨rfl, rfl⟩ | ⟨rfl, rfl⟩ <;> fin_cases k <;>
      simp [pairAlg, h00, h01, h10, h11, exEnv]

theorem pairAlg_caches (k : Fin 2) : ∀ o ∈ (pairAlg k).clus, o.saved = true → o.ph.isSome := by
  intro o ho h
  simp only [pairAlg, List.mem_cons, List.not_mem_nil, or_false] at ho
  rcases ho with rfl | rfl <;> cases h

theorem pairAlg_vals (k : Fin 2) : (pairAlg k).clus.map Hier.state = List.ofFn ![7, 8] := by
  simp [pairAlg]

/-- Two sticks, the last one being one. -/
theorem pair_run : ∃ mix, SBRun (.dp 1) false mix ∧ mix.sticks = List.ofFn ![1 / 3, 1] := by
  refine ⟨_, .set (sticks := [1 / 3, 1]) rfl, by simp⟩

/-- Non-vacuity: two components with weights 1/3 and 2/3. -/
example : ∃ (s : Alg ℤ ℕ ℕ) (mix : SBState), Consistent exEnv.contrib 1 s ∧
    (∀ o ∈ s.clus, o.saved = true → o.ph.isSome) ∧
    s.clus.map Hier.state = List.ofFn ![7, 8] ∧ SBRun (.dp 1) false mix ∧
    mix.sticks = List.ofFn ![1 / 3, 1] ∧ ∀ k : Fin 2, 0 < ![1 / 3, (1 : ℝ)] k ∧
      ![1 / 3, (1 : ℝ)] k ≤ 1 := by
  obtain ⟨mix, h1, h2⟩ := pair_run
  refine ⟨pairAlg 0, mix, pairAlg_cons 0, pairAlg_caches 0, pairAlg_vals 0, h1, h2, fun k => ?_⟩
  fin_cases k <;> norm_num

/-- The sticks of the logit stick-breaking mixing, the last one being `last`. -/
noncomputable def logitSticks {d K : ℕ} (α : Fin K → Fin d → ℝ) (last : ℝ) (x : Fin d → ℝ)
    (k : Fin (K + 1)) : ℝ :=
  if h : k.val < K then 1 / (1 + Real.exp (-(x ⬝ᵥ α ⟨k, h⟩))) else last

theorem logit_logs {d K : ℕ} {α : Fin K → Fin d → ℝ} {x : Fin d → ℝ} {lw : List EReal}
    (h : logitLogWeights (K + 1) (List.ofFn α) x = .ok lw) :
    lw.map stdExp = List.ofFn (stickWeight (logitSticks α (sigmoid 1) x)) ∧ ∀ y ∈ lw, y ≠ ⊤ := by
  constructor
  · have hw := logit_weights_eq (x := x) (num := K + 1) (coefs := List.ofFn α) (by omega) (by simp)
    unfold logitWeights at hw
    rw [h, ok_bind] at hw
    rw [Except.ok.inj hw, ← stickWeight_eq]
    congr 1
    refine List.ext_getElem? fun k => ?_
    by_cases hk : k < K
    · rw [List.getElem?_append_left (by simpa using hk), List.getElem?_ofFn,
        dif_pos (by omega : k < K + 1)]
      simp [logitSticks, hk, sigmoid]
      norm_num
    · by_cases hk2 : k = K
      · subst hk2
        rw [List.getElem?_append_right (by simp), List.getElem?_ofFn, dif_pos (by omega)]
        simp [logitSticks]
      · rw [List.getElem?_eq_none (by simp; omega), List.getElem?_eq_none (by simp; omega)]
  · unfold logitLogWeights at h
    split at h
    · cases h
    · rw [← Except.ok.inj h]
      intro y hy
      obtain ⟨j, -, rfl⟩ := List.mem_map.mp hy
      exact EReal.add_ne_top (Density.stdLog_ne_top _) (Density.logitCumsum_ne_top _ _)

/-- **C98, logit stick breaking, what holds.** As for truncated stick breaking with weights that
depend on the covariates of the row. Missing: the last stick is `sigmoid 1` instead of one (C33). -/
theorem c98_blocked_logit_partial (E : Env G H Θ) (like : Θ → ℕ → ℝ) (d K n : ℕ)
    (θ : Fin (K + 1) → Θ) (s : Alg G H Θ) (hs : Consistent E.contrib n s)
    (hca : ∀ o ∈ s.clus, o.saved = true → o.ph.isSome)
    (hθ : s.clus.map Hier.state = List.ofFn θ) (α : Fin K → Fin d → ℝ) (x : ℕ → Fin d → ℝ)
    (lw : ℕ → List EReal) (hlw : ∀ i, logitLogWeights (K + 1) (List.ofFn α) (x i) = .ok (lw i)) :
    ∃ l, blockedLaw E like lw (K + 1) n s = .ok l ∧
      (∀ x ∈ l, Consistent E.contrib n x.2 ∧ x.2.clus.map Hier.state = List.ofFn θ) ∧
      LabelsFrom l fun (i : Fin n) k =>
        stickWeight (logitSticks α (1 / (1 + Real.exp (-1))) (x i)) k *
          Real.exp (like (θ k) i) := by
  have hsig : sigmoid 1 = 1 / (1 + Real.exp (-1)) := by unfold sigmoid; norm_num
  rw [← hsig]
  refine blocked_core E like θ s hs hca hθ _ _ (fun i => (logit_logs (hlw i)).1)
    (fun i => (logit_logs (hlw i)).2) fun i => ⟨⟨0, by omega⟩, ?_⟩
  have : 0 < logitSticks α (sigmoid 1) (x i) ⟨0, by omega⟩ := by
    unfold logitSticks
    split
    · positivity
    · exact sigmoid_pos _
  simpa [stickWeight] using this

/-- Non-vacuity: two components, one covariate equal to the index of the row. -/
example : ∃ (s : Alg ℤ ℕ ℕ) (lw : ℕ → List EReal), Consistent exEnv.contrib 1 s ∧
    (∀ o ∈ s.clus, o.saved = true → o.ph.isSome) ∧
    s.clus.map Hier.state = List.ofFn ![7, 8] ∧
    ∀ i : ℕ, logitLogWeights (1 + 1) (List.ofFn fun (_ : Fin 1) (_ : Fin 1) => (2 : ℝ))
      (fun _ => (i : ℝ)) = .ok (lw i) :=
  ⟨pairAlg 0, _, pairAlg_cons 0, pairAlg_caches 0, pairAlg_vals 0, fun _ => rfl⟩

theorem logit_violated_core (E : Env G H Θ) (like : Θ → ℕ → ℝ) (θ : Fin 2 → Θ)
    (hlike : like (θ 0) 0 = like (θ 1) 0) (s : Alg G H Θ) (hs : Consistent E.contrib 1 s)
    (hca : ∀ o ∈ s.clus, o.saved = true → o.ph.isSome)
    (hθ : s.clus.map Hier.state = List.ofFn θ) (lw : ℕ → List EReal)
    (hlw : ∀ i, logitLogWeights 2 [fun _ : Fin 1 => 0] (fun _ => 1) = .ok (lw i)) :
    ∃ l, blockedLaw E like lw 2 1 s = .ok l ∧
      ¬ LabelsFrom l fun (i : Fin 1) k =>
        stickWeight (logitSticks (fun (_ : Fin 1) (_ : Fin 1) => 0) 1 (fun _ => 1)) k *
          Real.exp (like (θ k) i) := by
  obtain ⟨l, e, -, h2⟩ := c98_blocked_logit_partial E like 1 1 1 θ s hs hca hθ
    (fun _ _ => 0) (fun _ _ => 1) lw (by simpa using hlw)
  refine ⟨l, e, fun h => ?_⟩
  have h3 := (h2 fun _ => 0).symm.trans (h fun _ => 0)
  have hsum : ∀ g : Fin 2 → ℝ, ∑ c : Fin 1 → Fin 2, ∏ i, g (c i) = g 0 + g 1 := by
    intro g
    have := Finset.prod_univ_sum (fun _ : Fin 1 => (Finset.univ : Finset (Fin 2)))
      (fun _ k => g k)
    rw [Fintype.piFinset_univ] at this
    rw [← this]
    simp
  simp only [Fin.isValue, Fin.val_eq_zero, Finset.univ_unique, Finset.prod_const,
    Finset.card_singleton, pow_one] at h3
  have hs1 : ∀ a : ℝ, ∑ c : Fin 1 → Fin 2, ∏ i : Fin 1,
      stickWeight (logitSticks (fun (_ : Fin 1) (_ : Fin 1) => 0) a (fun _ => 1)) (c i) *
        Real.exp (like (θ (c i)) 0) = (1 / 2 + a / 2) * Real.exp (like (θ 0) 0) := by
    intro a
    rw [hsum fun k => stickWeight (logitSticks (fun (_ : Fin 1) (_ : Fin 1) => 0) a (fun _ => 1)) k *
      Real.exp (like (θ k) 0), hlike]
    simp [stickWeight, logitSticks]
    ring
  have hs0 : ∀ a : ℝ,
      stickWeight (logitSticks (fun (_ : Fin 1) (_ : Fin 1) => 0) a (fun _ => 1)) (0 : Fin 2) =
        1 / 2 := by
    intro a
    simp [stickWeight, logitSticks]
    norm_num
  simp only [Finset.univ_unique, Finset.prod_singleton, Fin.isValue] at hs1 h3
  rw [hs1, hs1, hs0, hs0] at h3
  have he := Real.exp_pos (like (θ 0) 0)
  have hx := Real.exp_pos (-1)
  rw [div_eq_div_iff (by positivity) (by positivity)] at h3
  have h4 : 1 / (1 + Real.exp (-1)) = 1 := by
    have : (1 / 2 : ℝ) * Real.exp (like (θ 0) 0) * Real.exp (like (θ 0) 0) ≠ 0 := by positivity
    have h5 : (1 / 2 : ℝ) * Real.exp (like (θ 0) 0) * Real.exp (like (θ 0) 0) *
        (1 / (1 + Real.exp (-1)) - 1) = 0 := by linarith
    rcases mul_eq_zero.1 h5 with h | h
    · exact absurd h this
    · linarith
  rw [div_eq_one_iff_eq (by positivity)] at h4
  linarith

/-- **C98, violated for logit stick breaking.** With the documented weights (last stick one) the
statement fails: one row, two components with equal likelihood and documented weights 1/2. -/
theorem c98_blocked_logit_violated : ∃ (s : Alg ℤ ℕ ℕ) (lw : ℕ → List EReal)
    (l : Law (Alg ℤ ℕ ℕ)), Consistent exEnv.contrib 1 s ∧
    (∀ o ∈ s.clus, o.saved = true → o.ph.isSome) ∧ s.clus.map Hier.state = List.ofFn ![7, 8] ∧
    (∀ i : ℕ, logitLogWeights 2 [fun _ : Fin 1 => 0] (fun _ => 1) = .ok (lw i)) ∧
    blockedLaw exEnv (fun _ _ => 0) lw 2 1 s = .ok l ∧
    ¬ LabelsFrom l fun (_ : Fin 1) k =>
      stickWeight (logitSticks (fun (_ : Fin 1) (_ : Fin 1) => 0) 1 (fun _ => 1)) k *
        Real.exp 0 := by
  obtain ⟨l, e, h⟩ := logit_violated_core exEnv (fun _ _ => 0) ![7, 8] rfl (pairAlg 0)
    (pairAlg_cons 0) (pairAlg_caches 0) (pairAlg_vals 0) _ fun _ => rfl
  exact ⟨pairAlg 0, _, l, pairAlg_cons 0, pairAlg_caches 0, pairAlg_vals 0, fun _ => rfl, e, h⟩

/-! ### C99: the slice sampler -/

/-- Probability that row `i` gets component `k` when its level is `u`. -/
noncomputable def sliceProb (like : Θ → ℕ → ℝ) {K : ℕ} (θ : Fin K → Θ) (w : Fin K → ℝ) (i : ℕ)
    (u : ℝ) (k : Fin K) : ℝ :=
  (if u < w k then Real.exp (like (θ k) i) else 0) /
    ∑ j, if u < w j then Real.exp (like (θ j) i) else 0

/-- Numbers for the rows, as a stream. -/
def stream {n : ℕ} (x : Fin n → ℝ) (i : ℕ) : ℝ := if h : i < n then x ⟨i, h⟩ else 0

/-- The outcomes, if there was no fault. -/
def outcomes {S : Type} : Except Fault (Law S) → Law S
  | .ok l => l
  | .error _ => []

theorem sliceLaw_ok (E : Env G H Θ) (like : Θ → ℕ → ℝ) (prior : SBPrior) {n K : ℕ}
    (s : State G H Θ) (hs : StateOk E.contrib prior n s) (θ : Fin K → Θ) (w : Fin K → ℝ)
    (c : Fin n → Fin K) (hθ : s.alg.clus.map Hier.state = List.ofFn θ)
    (hw : sbWeights s.mix = List.ofFn w) (hc : s.alg.alloc = List.ofFn fun i => (c i).val)
    (x : Fin n → ℝ) (hpos : ∀ i, 0 < w (c i))
    (hex : ∀ i, ∃ k, max 1e-16 (w (c i) * x i) < w k) :
    ∃ l, sliceLaw E like n (stream x) s = .ok l ∧
      (∀ y ∈ l, Consistent E.contrib n y.2 ∧ y.2.clus.map Hier.state = List.ofFn θ) ∧
      ∀ c' : Fin n → Fin K, l.prob (fun t => t.alloc = List.ofFn fun i => (c' i).val) =
        ∏ i : Fin n, sliceProb like θ w i (max 1e-16 (w (c i) * x i)) (c' i) := by
  have ha := stateOk_iff.mp hs
  obtain ⟨θl, hθl⟩ : ∃ θl, θl = List.ofFn θ := ⟨_, rfl⟩
  have hlen : θl.length = K := by rw [hθl]; simp
  have hg : Good E n θl s.alg := ⟨ha.cons, ha.caches, by rw [hθ, hθl]⟩
  have hnum : s.mix.num = θl.length := by rw [← ha.num, hg.len]
  obtain ⟨u, hu⟩ : ∃ u : List ℝ, u = List.ofFn fun i => max 1e-16 (w (c i) * x i) := ⟨_, rfl⟩
  have hul : u.length = n := by rw [hu]; simp
  have hui : ∀ i : Fin n, u.getD i 0 = max 1e-16 (w (c i) * x i) := by
    intro i
    rw [hu]
    simp [List.getD_eq_getElem?_getD]
  have hwg : ∀ k : Fin K, (sbWeights s.mix).getD k 0 = w k := by
    intro k
    rw [hw]
    simp [List.getD_eq_getElem?_getD]
  have hslice : sampleSlice n (fun i w => w * stream x i) s = .ok { s with u := u } := by
    unfold sampleSlice
    have : (List.range n).mapM (sliceDatum s.alg.alloc (sbWeights s.mix)
        fun i w => w * stream x i) = .ok u := by
      rw [Gibbs.mapM_ok _ (fun i => u.getD i 0)]
      · congr 1
        refine List.ext_getElem (by simp [hul]) fun i h1 h2 => ?_
        simp [List.getD_eq_getElem?_getD, List.getElem?_eq_getElem h2]
      · intro i hi
        have hi' := List.mem_range.mp hi
        have h1 : s.alg.alloc[i]? = some (c ⟨i, hi'⟩).val := by
          rw [hc, List.getElem?_ofFn, dif_pos hi']
        have h2 : (sbWeights s.mix)[(c ⟨i, hi'⟩).val]? = some (w (c ⟨i, hi'⟩)) := by
          rw [hw, List.getElem?_ofFn, dif_pos (c ⟨i, hi'⟩).isLt]
        rw [sliceDatum, vget_ok h1, ok_bind, eigenAt, h2, ok_bind, uniformRng, if_pos (hpos _),
          ok_bind, hui ⟨i, hi'⟩]
        simp only [stream, hi', dif_pos]
    rw [this, ok_bind]
  have hsw : ∀ (i : Fin n) (k : Fin K) (v : ℝ), sliceWeight like θl (sbWeights s.mix) i v k =
      if v < w k then Real.exp (like (θ k) i) else 0 := by
    intro i k v
    subst hθl
    rw [sliceWeight, dif_pos (by rw [hlen]; exact k.isLt), hwg k]
    simp
  obtain ⟨l, e, h1, h2⟩ := sweep_all (row := sliceRow E like s.mix u) (lab := Alg.alloc)
    (I := Good E n θl) (n := n)
    (p := fun i k => sliceWeight like θl (sbWeights s.mix) i (u.getD i 0) k /
      ∑ j ∈ Finset.range θl.length, sliceWeight like θl (sbWeights s.mix) i (u.getD i 0) j)
    (fun s hs => hs.cons.len) (fun i hi s' hs' => by
      refine sliceRow_ok ha.inv hnum hi (by omega) ?_ hs'
      obtain ⟨k, hk⟩ := hex ⟨i, hi⟩
      exact ⟨k, by rw [hlen]; exact k.isLt, by rw [hwg k, hui ⟨i, hi⟩]; exact hk⟩) s.alg hg
  refine ⟨l, ?_, fun y hy => ⟨(h1 y hy).cons, by rw [(h1 y hy).vals, hθl]⟩, fun c' => ?_⟩
  · unfold sliceLaw
    rw [hslice, ok_bind]
    exact e
  · rw [h2 _ (by simp), Finset.prod_range]
    refine Finset.prod_congr rfl fun i _ => ?_
    have hci : (List.ofFn fun i => (c' i).val).getD i.val 0 = (c' i).val := by
      simp [List.getD_eq_getElem?_getD]
    rw [hci, hsw, hlen, Finset.sum_range, hui]
    simp only [hsw]
    rfl

/-- The uniform draws of the rows. -/
noncomputable def cube (n : ℕ) : Measure (Fin n → ℝ) :=
  Measure.pi fun _ => volume.restrict (Set.Ioo 0 1)

/-- The probability that `sample_slice` and `sample_allocations` lead from `s` to the labels `c`. -/
noncomputable def moveProb (E : Env G H Θ) (like : Θ → ℕ → ℝ) {n K : ℕ} (s : State G H Θ)
    (c : Fin n → Fin K) : ℝ :=
  ∫ x, (outcomes (sliceLaw E like n (stream x) s)).prob
    (fun t => t.alloc = List.ofFn fun i => (c i).val) ∂cube n

instance (n : ℕ) : IsProbabilityMeasure (cube n) := by
  have : IsProbabilityMeasure ((volume : Measure ℝ).restrict (Set.Ioo 0 1)) := ⟨by simp⟩
  unfold cube
  infer_instance

theorem cube_ae (n : ℕ) : ∀ᵐ x ∂cube n, ∀ i, 0 < x i ∧ x i < 1 := by
  rw [ae_all_iff]
  intro i
  have h : ∀ᵐ y ∂(volume : Measure ℝ).restrict (Set.Ioo 0 1), 0 < y ∧ y < 1 :=
    ae_restrict_mem measurableSet_Ioo
  exact (Measure.quasiMeasurePreserving_eval (μ := fun _ : Fin n =>
    (volume : Measure ℝ).restrict (Set.Ioo 0 1)) i).ae h

theorem moveProb_eq (E : Env G H Θ) (like : Θ → ℕ → ℝ) (prior : SBPrior) {n K : ℕ}
    (s : State G H Θ) (hs : StateOk E.contrib prior n s) (θ : Fin K → Θ) (w : Fin K → ℝ)
    (c : Fin n → Fin K) (hθ : s.alg.clus.map Hier.state = List.ofFn θ)
    (hw : sbWeights s.mix = List.ofFn w) (hc : s.alg.alloc = List.ofFn fun i => (c i).val)
    (hpos : ∀ i, 0 < w (c i))
    (hex : ∀ x : Fin n → ℝ, (∀ i, 0 < x i ∧ x i < 1) → ∀ i, ∃ k, max 1e-16 (w (c i) * x i) < w k)
    (c' : Fin n → Fin K) :
    moveProb E like s c' = ∏ i : Fin n, ∫ x in Set.Ioo (0 : ℝ) 1,
      sliceProb like θ w i (max 1e-16 (w (c i) * x)) (c' i) := by
  rw [← integral_fintype_prod_eq_prod (μ := fun _ => (volume : Measure ℝ).restrict (Set.Ioo 0 1))
    (f := fun (i : Fin n) x => sliceProb like θ w i (max 1e-16 (w (c i) * x)) (c' i))]
  refine integral_congr_ae ?_
  filter_upwards [cube_ae n] with x hx
  obtain ⟨l, e, -, h⟩ := sliceLaw_ok E like prior s hs θ w c hθ hw hc x hpos (hex x hx)
  rw [e]
  exact h c'

/-- One row: uniform level below the weight, then a choice among the components above it. -/
theorem slice_row_balance (like : Θ → ℕ → ℝ) {K : ℕ} (θ : Fin K → Θ) (w : Fin K → ℝ) (i : ℕ)
    (a b : Fin K) (ha : 1e-16 < w a) (hb : 1e-16 < w b) :
    w a * Real.exp (like (θ a) i) *
        ∫ x in Set.Ioo (0 : ℝ) 1, sliceProb like θ w i (max 1e-16 (w a * x)) b =
      Real.exp (like (θ a) i) * Real.exp (like (θ b) i) *
        ∫ u in Set.Ioo 0 (min (w a) (w b)),
          (∑ j, if max 1e-16 u < w j then Real.exp (like (θ j) i) else 0)⁻¹ := by
  have ha0 : 0 < w a := lt_trans (by norm_num) ha
  have h1 : w a * ∫ x in Set.Ioo (0 : ℝ) 1, sliceProb like θ w i (max 1e-16 (w a * x)) b =
      ∫ u in Set.Ioo 0 (w a), sliceProb like θ w i (max 1e-16 u) b := by
    rw [← integral_Ioc_eq_integral_Ioo, ← integral_Ioc_eq_integral_Ioo,
      ← intervalIntegral.integral_of_le zero_le_one, ← intervalIntegral.integral_of_le ha0.le]
    have := intervalIntegral.mul_integral_comp_mul_left (a := 0) (b := 1) (c := w a)
      (f := fun u => sliceProb like θ w i (max 1e-16 u) b)
    rw [mul_zero, mul_one] at this
    exact this
  have h2 : ∫ u in Set.Ioo 0 (w a), sliceProb like θ w i (max 1e-16 u) b =
      ∫ u in Set.Ioo 0 (w a), (Set.Iio (w b)).indicator (fun u => Real.exp (like (θ b) i) *
        (∑ j, if max 1e-16 u < w j then Real.exp (like (θ j) i) else 0)⁻¹) u := by
    refine integral_congr_ae (Filter.Eventually.of_forall fun u => ?_)
    simp only [sliceProb, Set.indicator, Set.mem_Iio]
    by_cases hu : u < w b
    · rw [if_pos (max_lt hb hu), if_pos hu, div_eq_mul_inv]
    · rw [if_neg fun h => hu (lt_of_le_of_lt (le_max_right _ _) h), if_neg hu, zero_div]
  rw [mul_comm (w a), mul_assoc, h1, h2, setIntegral_indicator measurableSet_Iio,
    integral_const_mul, Set.Ioo_inter_Iio, mul_assoc]

/-- **C99, what holds.** `sample_slice` followed by `sample_allocations` satisfies detailed balance
with respect to the joint conditional distribution of the labels, in which row `i` in component `k`
counts `w_k f(y_i | θ_k)`, between any two labellings that use components of weight above `1e-16`
only. The probabilities of all labellings sum to one.

Missing: components of smaller weight (`c99_floor_violated`), and those beyond the truncation
(`c08_truncation_violated`). -/
theorem c99_slice_partial (E : Env G H Θ) (like : Θ → ℕ → ℝ) (prior : SBPrior) (n K : ℕ)
    (θ : Fin K → Θ) (w : Fin K → ℝ) (s t : State G H Θ) (hs : StateOk E.contrib prior n s)
    (ht : StateOk E.contrib prior n t) (hθs : s.alg.clus.map Hier.state = List.ofFn θ)
    (hθt : t.alg.clus.map Hier.state = List.ofFn θ) (hws : sbWeights s.mix = List.ofFn w)
    (hwt : sbWeights t.mix = List.ofFn w) (c c' : Fin n → Fin K)
    (hc : s.alg.alloc = List.ofFn fun i => (c i).val)
    (hc' : t.alg.alloc = List.ofFn fun i => (c' i).val) (hwc : ∀ i, 1e-16 < w (c i))
    (hwc' : ∀ i, 1e-16 < w (c' i)) :
    (∏ i, w (c i) * Real.exp (like (θ (c i)) i)) * moveProb E like s c' =
        (∏ i, w (c' i) * Real.exp (like (θ (c' i)) i)) * moveProb E like t c ∧
      ∑ d : Fin n → Fin K, moveProb E like s d = 1 := by
  have hp : ∀ k, (1e-16 : ℝ) < w k → 0 < w k := fun k h => lt_trans (by norm_num) h
  have hex : ∀ c : Fin n → Fin K, (∀ i, 1e-16 < w (c i)) → ∀ x : Fin n → ℝ,
      (∀ i, 0 < x i ∧ x i < 1) → ∀ i, ∃ k, max 1e-16 (w (c i) * x i) < w k := by
    intro c hc x hx i
    refine ⟨c i, max_lt (hc i) ?_⟩
    have := mul_lt_mul_of_pos_left (hx i).2 (hp _ (hc i))
    rwa [mul_one] at this
  have e1 := moveProb_eq E like prior s hs θ w c hθs hws hc (fun i => hp _ (hwc i)) (hex c hwc)
  have e2 := moveProb_eq E like prior t ht θ w c' hθt hwt hc' (fun i => hp _ (hwc' i))
    (hex c' hwc')
  constructor
  · rw [e1, e2, ← Finset.prod_mul_distrib, ← Finset.prod_mul_distrib]
    refine Finset.prod_congr rfl fun i _ => ?_
    rw [slice_row_balance like θ w i _ _ (hwc i) (hwc' i),
      slice_row_balance like θ w i _ _ (hwc' i) (hwc i), min_comm,
      mul_comm (Real.exp (like (θ (c i)) i))]
  · simp only [e1]
    have hsum := Finset.prod_univ_sum (fun _ : Fin n => (Finset.univ : Finset (Fin K)))
      fun i k => ∫ x in Set.Ioo (0 : ℝ) 1, sliceProb like θ w i (max 1e-16 (w (c i) * x)) k
    rw [Fintype.piFinset_univ] at hsum
    rw [← hsum]
    refine Finset.prod_eq_one fun i _ => ?_
    have hm : ∀ k, Measurable fun u => sliceProb like θ w i u k := by
      intro k
      unfold sliceProb
      refine Measurable.div ?_ (Finset.measurable_sum _ fun j _ => ?_) <;>
      exact Measurable.ite (measurableSet_lt measurable_id measurable_const) measurable_const
        measurable_const
    have hnn : ∀ u (k : Fin K), 0 ≤ (if u < w k then Real.exp (like (θ k) i) else 0) := by
      intro u k
      split
      · exact (Real.exp_pos _).le
      · exact le_rfl
    have hint : ∀ k, Integrable (fun x : ℝ => sliceProb like θ w i (max 1e-16 (w (c i) * x)) k)
        (volume.restrict (Set.Ioo (0 : ℝ) 1)) := by
      intro k
      refine Measure.integrableOn_of_bounded (M := 1) (by simp)
        (((hm k).comp (measurable_const.max
          (measurable_id.const_mul (w (c i)))) : Measurable fun x : ℝ =>
          sliceProb like θ w i (max 1e-16 (w (c i) * x)) k)).aestronglyMeasurable
        (Filter.Eventually.of_forall fun x => ?_)
      unfold sliceProb
      rw [Real.norm_eq_abs, abs_of_nonneg (div_nonneg (hnn _ _)
        (Finset.sum_nonneg fun j _ => hnn _ j))]
      exact div_le_one_of_le₀ (Finset.single_le_sum (fun j _ => hnn _ j) (Finset.mem_univ k))
        (Finset.sum_nonneg fun j _ => hnn _ j)
    rw [← integral_finsetSum _ fun k _ => hint k]
    have : ∫ x in Set.Ioo (0 : ℝ) 1, (1 : ℝ) = 1 := by simp
    refine (setIntegral_congr_fun measurableSet_Ioo fun x hx => ?_).trans this
    have hlt : max 1e-16 (w (c i) * x) < w (c i) := by
      refine max_lt (hwc i) ?_
      have := mul_lt_mul_of_pos_left hx.2 (hp _ (hwc i))
      rwa [mul_one] at this
    simp only [sliceProb]
    rw [← Finset.sum_div, div_self]
    refine (Finset.sum_pos' (fun j _ => hnn _ j) ⟨c i, Finset.mem_univ _, ?_⟩).ne'
    rw [if_pos hlt]
    exact Real.exp_pos _

/-- One row, two components with sticks `v`. -/
noncomputable def pairState (v : Fin 2 → ℝ) (k : Fin 2) : State ℤ ℕ ℕ :=
  ⟨pairAlg k, ⟨List.ofFn v, [stdLog (v 0) + 0, stdLog (v 1) + (0 + stdLog (1 - v 0))], 2⟩,
    [1 / 10]⟩

theorem pairState_ok (v : Fin 2 → ℝ) (k : Fin 2) :
    StateOk exEnv.contrib (.dp 1) 1 (pairState v k) := by
  refine ⟨pairAlg_cons k, pairAlg_caches k, by simp [pairState, pairAlg], by simp [pairState], ?_,
    (fun l hl => by cases hl), rfl, ?_⟩
  · simp [pairState, logweightsFromSticks, cumsum, List.range_succ]
  · intro x hx
    simp only [pairState, List.mem_singleton] at hx
    subst hx
    norm_num

theorem pairState_weights (v : Fin 2 → ℝ) (k : Fin 2) (hv : ∀ j, 0 ≤ v j ∧ v j ≤ 1) :
    sbWeights (pairState v k).mix = List.ofFn (stickWeight v) := by
  have := (stateOk_iff.mp (pairState_ok v k)).inv.weights (by
    intro x hx
    have hx : x ∈ List.ofFn v := hx
    rw [List.mem_ofFn] at hx
    obtain ⟨j, rfl⟩ := hx
    exact hv j)
  rw [this, ← stickWeight_eq]
  rfl

/-- Non-vacuity: sticks 1/2 and 1/2, the row in the first and in the second component. -/
example (E : ℕ → ℕ → ℝ) :
    stickWeight ![1 / 2, 1 / 2] 0 * Real.exp (E 7 0) *
        moveProb exEnv E (pairState ![1 / 2, 1 / 2] 0) (fun _ : Fin 1 => (1 : Fin 2)) =
      stickWeight ![1 / 2, 1 / 2] 1 * Real.exp (E 8 0) *
        moveProb exEnv E (pairState ![1 / 2, 1 / 2] 1) (fun _ : Fin 1 => (0 : Fin 2)) := by
  have hv : ∀ j : Fin 2, 0 ≤ ![1 / 2, (1 / 2 : ℝ)] j ∧ ![1 / 2, (1 / 2 : ℝ)] j ≤ 1 := by
    intro j
    fin_cases j <;> norm_num
  have := (c99_slice_partial exEnv E (.dp 1) 1 2 ![7, 8] (stickWeight ![1 / 2, 1 / 2])
    (pairState ![1 / 2, 1 / 2] 0) (pairState ![1 / 2, 1 / 2] 1) (pairState_ok _ _) (pairState_ok _ _)
    (pairAlg_vals _) (pairAlg_vals _) (pairState_weights _ _ hv) (pairState_weights _ _ hv)
    (fun _ => 0) (fun _ => 1) (by simp [pairState, pairAlg]) (by simp [pairState, pairAlg])
    (by simp [stickWeight]; norm_num) (by simp [stickWeight]; norm_num)).1
  simpa using this

/-- **C99, violated for small weights.** The floor `1e-16` of the slice levels: with weights 1/2
and 5e-17 and a constant likelihood, the row leaves the second component with probability one and
never returns, although both labels have positive probability under the target. -/
theorem c99_floor_violated : ∃ s t : State ℤ ℕ ℕ,
    StateOk exEnv.contrib (.dp 1) 1 s ∧ StateOk exEnv.contrib (.dp 1) 1 t ∧ s.mix = t.mix ∧
    s.mix.sticks = List.ofFn ![1 / 2, 1e-16] ∧
    s.alg.clus.map Hier.state = List.ofFn ![7, 8] ∧ t.alg.clus.map Hier.state = List.ofFn ![7, 8] ∧
    s.alg.alloc = [1] ∧ t.alg.alloc = [0] ∧
    sbWeights s.mix = List.ofFn (stickWeight ![1 / 2, 1e-16]) ∧
    0 < stickWeight ![1 / 2, 1e-16] (0 : Fin 2) ∧ 0 < stickWeight ![1 / 2, 1e-16] (1 : Fin 2) ∧
    moveProb exEnv (fun _ _ => 0) s (fun _ : Fin 1 => (0 : Fin 2)) = 1 ∧
    moveProb exEnv (fun _ _ => 0) t (fun _ : Fin 1 => (1 : Fin 2)) = 0 := by
  have hv : ∀ j : Fin 2, 0 ≤ ![1 / 2, (1e-16 : ℝ)] j ∧ ![1 / 2, (1e-16 : ℝ)] j ≤ 1 := by
    intro j
    fin_cases j <;> norm_num
  have h0 : stickWeight ![1 / 2, (1e-16 : ℝ)] (0 : Fin 2) = 1 / 2 := by simp [stickWeight]
  have h1 : stickWeight ![1 / 2, (1e-16 : ℝ)] (1 : Fin 2) = 5e-17 := by
    simp [stickWeight]
    norm_num
  have hpos : ∀ j : Fin 2, 0 < stickWeight ![1 / 2, (1e-16 : ℝ)] j := by
    intro j
    fin_cases j
    · exact lt_of_lt_of_eq (by norm_num) h0.symm
    · exact lt_of_lt_of_eq (by norm_num) h1.symm
  have hmax : ∀ (j : Fin 2) (x : ℝ), 0 < x ∧ x < 1 →
      max 1e-16 (stickWeight ![1 / 2, (1e-16 : ℝ)] j * x) < 1 / 2 := by
    intro j x hx
    refine max_lt (by norm_num) ?_
    fin_cases j
    · show stickWeight ![1 / 2, (1e-16 : ℝ)] (0 : Fin 2) * x < 1 / 2
      rw [h0]
      linarith
    · show stickWeight ![1 / 2, (1e-16 : ℝ)] (1 : Fin 2) * x < 1 / 2
      rw [h1]
      norm_num
      linarith
  have hex : ∀ j : Fin 2, ∀ x : Fin 1 → ℝ, (∀ i, 0 < x i ∧ x i < 1) → ∀ i, ∃ k,
      max 1e-16 (stickWeight ![1 / 2, (1e-16 : ℝ)] j * x i) <
        stickWeight ![1 / 2, (1e-16 : ℝ)] k := by
    intro j x hx i
    exact ⟨0, by rw [h0]; exact hmax j _ (hx i)⟩
  have hnot : ∀ y : ℝ, ¬ max 1e-16 y < stickWeight ![1 / 2, (1e-16 : ℝ)] (1 : Fin 2) := by
    intro y h
    rw [h1] at h
    have := lt_of_le_of_lt (le_max_left (1e-16 : ℝ) y) h
    norm_num at this
  refine ⟨pairState ![1 / 2, 1e-16] 1, pairState ![1 / 2, 1e-16] 0, pairState_ok _ _,
    pairState_ok _ _, rfl, rfl, pairAlg_vals _, pairAlg_vals _, rfl, rfl,
    pairState_weights _ _ hv, hpos 0, hpos 1, ?_, ?_⟩
  · rw [moveProb_eq exEnv _ (.dp 1) _ (pairState_ok _ _) ![7, 8] _ (fun _ => 1) (pairAlg_vals _)
      (pairState_weights _ _ hv) (by simp [pairState, pairAlg]) (fun _ => hpos 1)
      (fun x hx i => hex 1 x hx i)]
    refine Finset.prod_eq_one fun i _ => ?_
    have : ∫ x in Set.Ioo (0 : ℝ) 1, (1 : ℝ) = 1 := by simp
    refine (setIntegral_congr_fun measurableSet_Ioo fun x hx => ?_).trans this
    simp only [sliceProb, Fin.sum_univ_two, if_neg (hnot _)]
    rw [h0, if_pos (hmax 1 x hx)]
    simp
  · rw [moveProb_eq exEnv _ (.dp 1) _ (pairState_ok _ _) ![7, 8] _ (fun _ => 0) (pairAlg_vals _)
      (pairState_weights _ _ hv) (by simp [pairState, pairAlg]) (fun _ => hpos 0)
      (fun x hx i => hex 0 x hx i)]
    refine Finset.prod_eq_zero (Finset.mem_univ 0) ?_
    simp only [sliceProb, if_neg (hnot _), zero_div, integral_zero]

end Bayesmix.Cond
