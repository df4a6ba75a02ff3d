import Mathlib.Tactic.Linarith
import Mathlib.Tactic.FieldSimp
import Mathlib.Tactic.Ring
import Mathlib.Tactic.NormNum
import Mathlib.Tactic.Positivity
import Verif.FaultLemmas
import Verif.Mixing.Spec

namespace Bayesmix.Mixing
open Bayesmix

/-! ### logs -/

theorem isLogOf_stdLog {x : ℝ} (h : 0 ≤ x) : IsLogOf (stdLog x) x := by
  unfold IsLogOf stdLog
  rcases h.eq_or_lt with h | h
  · subst h; right; simp
  · left; refine ⟨h, ?_⟩; simp [h.ne']

theorem stdLog_pos {x : ℝ} (h : 0 < x) : stdLog x = ((Real.log x : ℝ) : EReal) := by
  simp [stdLog, h.ne']

theorem stdLog_zero : stdLog 0 = ⊥ := by simp [stdLog]

/-- dividing by a positive number on the log scale -/
theorem isLogOf_div {l : EReal} {x y : ℝ} (h : IsLogOf l x) (hy : 0 < y) :
    IsLogOf (l - stdLog y) (x / y) := by
  rw [stdLog_pos hy]
  rcases h with ⟨hx, rfl⟩ | ⟨rfl, rfl⟩
  · left
    refine ⟨by positivity, ?_⟩
    rw [Real.log_div hx.ne' hy.ne', EReal.coe_sub]
  · right
    refine ⟨by simp, ?_⟩
    rfl

theorem stdExp_of_isLogOf {l : EReal} {x : ℝ} (h : IsLogOf l x) : stdExp l = x := by
  rcases h with ⟨hx, rfl⟩ | ⟨rfl, rfl⟩
  · simp [stdExp, Real.exp_log hx]
  · simp [stdExp]

theorem isLogOf_mul {l m : EReal} {x y : ℝ} (h : IsLogOf l x) (h' : IsLogOf m y) :
    IsLogOf (l + m) (x * y) := by
  rcases h with ⟨hx, rfl⟩ | ⟨rfl, rfl⟩
  · rcases h' with ⟨hy, rfl⟩ | ⟨rfl, rfl⟩
    · left
      refine ⟨by positivity, ?_⟩
      rw [Real.log_mul hx.ne' hy.ne', EReal.coe_add]
    · right; simp
  · right; simp

theorem isLogOf_one : IsLogOf 0 1 := by
  left; simp

theorem isLogOf_unique {l : EReal} {x y : ℝ} (h : IsLogOf l x) (h' : IsLogOf l y) : x = y := by
  rw [← stdExp_of_isLogOf h, ← stdExp_of_isLogOf h']

/-! ### Dirichlet process -/

theorem dpInit_pos {s s' : DPState} {prior : DPPrior} (h : dpInit s prior = .ok s') :
    0 < s'.totalmass ∧ s'.logtotmass = s.logtotmass := by
  cases prior with
  | fixed m =>
    simp only [dpInit] at h
    split at h
    · cases h
    · cases h; simp_all
  | gamma a b =>
    simp only [dpInit] at h
    split at h
    · cases h
    · split at h
      · cases h
      · cases h
        rename_i ha hb
        refine ⟨div_pos (by linarith) (by linarith), rfl⟩
  | other => cases h

theorem dpUpdate_spec {s s' : DPState} {prior : DPPrior} {n k : ℕ} {phi draw : ℝ → ℝ → ℝ}
    {p : ℝ} (h : dpUpdate s prior n k phi p draw = .ok s') :
    (s' = s ∨ ∃ a b, s'.totalmass = draw a b) ∧ s'.logtotmass = s.logtotmass := by
  cases prior with
  | fixed m => cases h; simp
  | other => cases h
  | gamma a b =>
    simp only [dpUpdate, gammaRng] at h
    split at h
    · simp only [ok_bind] at h
      split at h <;> split at h <;> simp only [ok_bind, error_bind] at h <;> cases h <;>
        exact ⟨.inr ⟨_, _, rfl⟩, rfl⟩
    · cases h

theorem DPRun.pos {prior : DPPrior} {s : DPState} (h : DPRun prior s) :
    0 < s.totalmass ∧ s.logtotmass = 0 := by
  induction h with
  | init h => exact dpInit_pos h
  | update _ _ hd h ih =>
    obtain ⟨h1, h2⟩ := dpUpdate_spec h
    refine ⟨?_, h2.trans ih.2⟩
    rcases h1 with rfl | ⟨a, b, h1⟩
    · exact ih.1
    · rw [h1]; exact hd a b

theorem isLogOf_logCard (c : ℕ) : IsLogOf (logCard c) (c : ℝ) := by
  unfold logCard
  rcases Nat.eq_zero_or_pos c with rfl | h
  · right; simp
  · left
    refine ⟨by exact_mod_cast h, ?_⟩
    rw [if_neg h.ne']

theorem sum_map_div (l : List ℝ) (d : ℝ) : (l.map (fun x => x / d)).sum = l.sum / d := by
  induction l with
  | nil => simp
  | cons a t ih => simp [ih, add_div]

/-! ### Pitman-Yor -/

theorem pyInit_ok {a b : ℝ} {s : PYState} (h : pyInit a b = .ok s) :
    s = ⟨a, b⟩ ∧ -b < a ∧ 0 ≤ b ∧ b < 1 := by
  unfold pyInit at h
  split at h
  · cases h
  · split at h
    · cases h
    · cases h
      rename_i h1 h2
      push Not at h1 h2
      exact ⟨rfl, h1, h2.1, h2.2⟩

theorem sum_card_sub (l : List ℕ) (d : ℝ) :
    (l.map (fun c : ℕ => (c : ℝ) - d)).sum = (l.sum : ℝ) - d * l.length := by
  induction l with
  | nil => simp
  | cons a t ih => simp [ih]; ring

/-! ### finite mixtures -/

/-- tables all of whose values are the coefficients for `n` data -/
def TabOK (coef : ℕ → ℕ → ℝ) (n : ℕ) (o : Option (List (Option ℝ))) : Prop :=
  ∀ tab, o = some tab → tab.length = n + 1 ∧
    ∀ t v, tab[t]? = some (some v) → v = coef t (n + 1)

theorem getV_ok {coef : ℕ → ℕ → ℝ} {n t : ℕ} {s : MFMState}
    (hs : TabOK coef n s.table) (ht : t ≤ n) :
    ∃ s', getV coef s t n = .ok (coef t (n + 1), s') ∧ s'.gamma = s.gamma ∧
      TabOK coef n s'.table := by
  have hlen : (s.table.getD (List.replicate (n + 1) none)).length = n + 1 := by
    cases h : s.table with
    | none => simp
    | some tab => simpa using (hs tab h).1
  have hval : ∀ t v, (s.table.getD (List.replicate (n + 1) none))[t]? = some (some v) →
      v = coef t (n + 1) := by
    cases h : s.table with
    | none => intro t v; simp [List.getElem?_replicate]
    | some tab => intro t v hv; exact (hs tab h).2 t v (by simpa using hv)
  generalize htab : s.table.getD (List.replicate (n + 1) none) = tab at hlen hval
  have hlt : t < tab.length := by omega
  unfold getV
  rw [htab]
  have hget : vget tab t = .ok tab[t] := vget_ok (List.getElem?_eq_getElem hlt)
  simp only [hget, ok_bind]
  cases he : tab[t] with
  | some v =>
    have hv := hval t v (by rw [List.getElem?_eq_getElem hlt, he])
    refine ⟨{ s with table := some tab }, by simp [hv], rfl, ?_⟩
    intro tab' h'
    cases h'
    exact ⟨hlen, hval⟩
  | none =>
    refine ⟨{ s with table := some (tab.set t (some (coef t (n + 1)))) }, rfl, rfl, ?_⟩
    intro tab' h'
    cases h'
    refine ⟨by simpa using hlen, ?_⟩
    intro u v hu
    rw [List.getElem?_set] at hu
    split at hu
    · rename_i htu; subst htu
      simp [hlt] at hu
      exact hu.symm
    · exact hval u v hu

theorem getV_ub {coef : ℕ → ℕ → ℝ} {n t : ℕ} {s : MFMState}
    (hs : TabOK coef n s.table) (ht : n < t) : getV coef s t n = .error .ub := by
  have hlen : (s.table.getD (List.replicate (n + 1) none)).length = n + 1 := by
    cases h : s.table with
    | none => simp
    | some tab => simpa using (hs tab h).1
  unfold getV
  have : vget (s.table.getD (List.replicate (n + 1) none)) t = .error .ub := by
    unfold vget
    rw [List.getElem?_eq_none (by omega)]
  simp only [this]; rfl

theorem getV_two {coef : ℕ → ℕ → ℝ} {n k : ℕ} {s : MFMState}
    (hs : TabOK coef n s.table) (hk : k + 1 ≤ n) :
    ∃ s₁ s₂, getV coef s k n = .ok (coef k (n + 1), s₁) ∧
      getV coef s₁ (k + 1) n = .ok (coef (k + 1) (n + 1), s₂) ∧
      s₂.gamma = s.gamma ∧ TabOK coef n s₂.table := by
  obtain ⟨s₁, h1, g1, t1⟩ := getV_ok hs (by omega : k ≤ n)
  obtain ⟨s₂, h2, g2, t2⟩ := getV_ok t1 hk
  exact ⟨s₁, s₂, h1, h2, g2.trans g1, t2⟩

/-- all four queries fail when the table is too short -/
theorem getV_two_ub {coef : ℕ → ℕ → ℝ} {n k : ℕ} {s : MFMState}
    (hs : TabOK coef n s.table) (hk : n < k + 1) {β : Type}
    (f : ℝ → ℝ → MFMState → Except Fault β) :
    (getV coef s k n >>= fun a => getV coef a.2 (k + 1) n >>= fun b => f a.1 b.1 b.2)
      = .error .ub := by
  rcases Nat.lt_or_ge n k with h | h
  · rw [getV_ub hs h]; rfl
  · obtain ⟨s₁, h1, g1, t1⟩ := getV_ok hs h
    rw [h1, ok_bind, getV_ub t1 hk]; rfl

theorem MFMRun.inv {coef : ℕ → ℕ → ℝ} {γ : ℝ} {n : ℕ} {s : MFMState}
    (h : MFMRun coef γ n s) : s.gamma = γ ∧ TabOK coef n s.table := by
  have key : ∀ (s s' : MFMState) (k : ℕ) {β : Type} (x : β) (f : ℝ → ℝ → MFMState → β),
      s.gamma = γ ∧ TabOK coef n s.table →
      (getV coef s k n >>= fun a => getV coef a.2 (k + 1) n >>= fun b =>
        (.ok (f a.1 b.1 b.2, b.2) : Except Fault (β × MFMState))) = .ok (x, s') →
      s'.gamma = γ ∧ TabOK coef n s'.table := by
    intro s s' k β x f ⟨hg, ht⟩ he
    rcases Nat.lt_or_ge n (k + 1) with h | h
    · rw [getV_two_ub ht h (fun v1 v2 s => .ok (f v1 v2 s, s))] at he
      cases he
    · obtain ⟨s₁, s₂, h1, h2, h3, h4⟩ := getV_two ht h
      rw [h1, ok_bind, h2, ok_bind] at he
      cases he
      exact ⟨h3.trans hg, h4⟩
  induction h with
  | fresh => exact ⟨rfl, by intro tab h; cases h⟩
  | @existing s s' k p c x _ h ih =>
    exact key s s' k x (fun v1 v2 s => if p then c + s.gamma
      else (c + s.gamma) / (n + k * s.gamma + v2 / v1 * s.gamma)) ih h
  | @new s s' k p x _ h ih =>
    exact key s s' k x (fun v1 v2 s => if p then v2 / v1 * s.gamma
      else v2 / v1 * s.gamma / (n + k * s.gamma + v2 / v1 * s.gamma)) ih h
  | @logExisting s s' k p c x _ h ih =>
    exact key s s' k x (fun v1 v2 s => if p then stdLog (c + s.gamma)
      else stdLog (c + s.gamma) - stdLog (n + k * s.gamma + v2 / v1 * s.gamma)) ih h
  | @logNew s s' k p x _ h ih =>
    exact key s s' k x (fun v1 v2 s => if p then stdLog (v2 / v1 * s.gamma)
      else stdLog (v2 / v1 * s.gamma) - stdLog (n + k * s.gamma + v2 / v1 * s.gamma)) ih h

/-! ### sticks -/

theorem stickWeights_length (l : List ℝ) : (stickWeights l).length = l.length := by
  induction l with
  | nil => rfl
  | cons a t ih => simp [stickWeights, ih]

theorem leftover_cons (v : ℝ) (l : List ℝ) : leftover (v :: l) = (1 - v) * leftover l := by
  simp [leftover]

theorem leftover_append (l m : List ℝ) : leftover (l ++ m) = leftover l * leftover m := by
  simp [leftover]

theorem sum_map_mul (c : ℝ) (l : List ℝ) : (l.map (fun w => c * w)).sum = c * l.sum := by
  induction l with
  | nil => simp
  | cons a t ih => simp [ih, mul_add]

theorem stickWeights_sum (l : List ℝ) : (stickWeights l).sum = 1 - leftover l := by
  induction l with
  | nil => simp [stickWeights, leftover]
  | cons v t ih =>
    rw [stickWeights, leftover_cons, List.sum_cons, sum_map_mul, ih]
    ring

theorem stickWeights_append (l m : List ℝ) :
    stickWeights (l ++ m) = stickWeights l ++ (stickWeights m).map (fun w => leftover l * w) := by
  induction l with
  | nil => simp [stickWeights, leftover]
  | cons v t ih =>
    simp only [List.cons_append, stickWeights, ih, List.map_append, leftover_cons, List.map_map]
    congr 2
    apply List.map_congr_left
    intro w _
    simp [mul_assoc]

theorem stickWeights_nonneg {l : List ℝ} (h : ∀ v ∈ l, 0 ≤ v ∧ v ≤ 1) :
    ∀ w ∈ stickWeights l, 0 ≤ w := by
  induction l with
  | nil => simp [stickWeights]
  | cons v t ih =>
    intro w hw
    rw [stickWeights, List.mem_cons] at hw
    have hv := h v (by simp)
    rcases hw with rfl | hw
    · exact hv.1
    · rw [List.mem_map] at hw
      obtain ⟨w', hw', rfl⟩ := hw
      exact mul_nonneg (by linarith) (ih (fun x hx => h x (by simp [hx])) w' hw')

theorem leftover_nonneg {l : List ℝ} (h : ∀ v ∈ l, v ≤ 1) : 0 ≤ leftover l := by
  induction l with
  | nil => simp [leftover]
  | cons v t ih =>
    rw [leftover_cons]
    have := h v (by simp)
    exact mul_nonneg (by linarith) (ih (fun x hx => h x (by simp [hx])))

theorem leftover_pos {l : List ℝ} (h : ∀ v ∈ l, v < 1) : 0 < leftover l := by
  induction l with
  | nil => simp [leftover]
  | cons v t ih =>
    rw [leftover_cons]
    have := h v (by simp)
    exact mul_pos (by linarith) (ih (fun x hx => h x (by simp [hx])))

theorem stickWeights_getElem? (l : List ℝ) (h : ℕ) (hh : h < l.length) :
    (stickWeights l)[h]? = some (l[h] * leftover (l.take h)) := by
  induction l generalizing h with
  | nil => simp at hh
  | cons v t ih =>
    cases h with
    | zero => simp [stickWeights, leftover]
    | succ h =>
      simp only [stickWeights, List.getElem?_cons_succ, List.getElem?_map]
      rw [ih h (by simpa using hh)]
      simp only [Option.map_some, List.getElem_cons_succ, List.take_succ_cons, leftover_cons]
      congr 1; ring

/-- weights computed through a cumulative sum of logs -/
theorem isLogOf_cumsum {f : ℕ → EReal} {sticks : List ℝ}
    (h0 : f 0 = 0) (hs : ∀ h, h < sticks.length → f (h + 1) = f h + stdLog (1 - sticks.getD h 0))
    (hv : ∀ v ∈ sticks, v ≤ 1) (h : ℕ) (hh : h ≤ sticks.length) :
    IsLogOf (f h) (leftover (sticks.take h)) := by
  induction h with
  | zero => simpa [h0, leftover] using isLogOf_one
  | succ h ih =>
    have hlt : h < sticks.length := hh
    have e : sticks.take (h + 1) = sticks.take h ++ [sticks[h]] := by
      rw [List.take_succ_eq_append_getElem hlt]
    rw [hs h hlt, e, leftover_append]
    apply isLogOf_mul (ih (by omega))
    have : sticks.getD h 0 = sticks[h] := by simp [List.getD, hlt]
    rw [this]
    simp only [leftover, List.map_cons, List.map_nil, List.prod_cons, List.prod_nil, mul_one]
    apply isLogOf_stdLog
    have := hv sticks[h] (List.getElem_mem hlt)
    linarith

theorem weights_of_logs {f : ℕ → EReal} {sticks : List ℝ}
    (h0 : f 0 = 0) (hs : ∀ h, h < sticks.length → f (h + 1) = f h + stdLog (1 - sticks.getD h 0))
    (hv : ∀ v ∈ sticks, 0 ≤ v ∧ v ≤ 1) :
    ((List.range sticks.length).map fun h => stdLog (sticks.getD h 0) + f h).map stdExp
      = stickWeights sticks := by
  apply List.ext_getElem?
  intro i
  rcases Nat.lt_or_ge i sticks.length with hi | hi
  · rw [stickWeights_getElem? _ _ hi]
    simp only [List.getElem?_map, List.getElem?_range hi, Option.map_some]
    congr 1
    apply stdExp_of_isLogOf
    apply isLogOf_mul
    · have : sticks.getD i 0 = sticks[i] := by simp [List.getD, hi]
      rw [this]
      exact isLogOf_stdLog (hv _ (List.getElem_mem hi)).1
    · exact isLogOf_cumsum h0 hs (fun v hv' => (hv v hv').2) i hi.le
  · rw [List.getElem?_eq_none (by simp; omega),
      List.getElem?_eq_none (by rw [stickWeights_length]; omega)]

theorem logweights_exp {sticks : List ℝ} {lw : List EReal}
    (hv : ∀ v ∈ sticks, 0 ≤ v ∧ v ≤ 1)
    (h : logweightsFromSticks sticks.length sticks = .ok lw) :
    lw.map stdExp = stickWeights sticks := by
  unfold logweightsFromSticks at h
  rw [if_pos (Nat.le_refl _)] at h
  cases h
  exact weights_of_logs rfl (fun _ _ => rfl) hv

theorem logweights_ok (sticks : List ℝ) :
    ∃ lw, logweightsFromSticks sticks.length sticks = .ok lw ∧ lw.length = sticks.length := by
  unfold logweightsFromSticks
  rw [if_pos (Nat.le_refl _)]
  exact ⟨_, rfl, by simp⟩

/-! ### mapM -/

theorem mapM_ok_length {α β : Type} {f : α → Except Fault β} {l : List α} {r : List β}
    (h : l.mapM f = .ok r) : r.length = l.length := by
  induction l generalizing r with
  | nil => simp at h; cases h; rfl
  | cons a t ih =>
    rw [List.mapM_cons] at h
    cases ha : f a with
    | error e => rw [ha] at h; cases h
    | ok b =>
      rw [ha, ok_bind] at h
      cases ht : t.mapM f with
      | error e => rw [ht] at h; cases h
      | ok bs =>
        rw [ht] at h
        cases h
        simp [ih ht]

theorem mapM_ok_mem {α β : Type} {f : α → Except Fault β} {l : List α} {r : List β}
    (h : l.mapM f = .ok r) : ∀ b ∈ r, ∃ a ∈ l, f a = .ok b := by
  induction l generalizing r with
  | nil => simp at h; cases h; simp
  | cons a t ih =>
    rw [List.mapM_cons] at h
    cases ha : f a with
    | error e => rw [ha] at h; cases h
    | ok b =>
      rw [ha, ok_bind] at h
      cases ht : t.mapM f with
      | error e => rw [ht] at h; cases h
      | ok bs =>
        rw [ht] at h
        cases h
        intro x hx
        rcases List.mem_cons.mp hx with rfl | hx
        · exact ⟨a, by simp, ha⟩
        · obtain ⟨y, hy, hfy⟩ := ih ht x hx
          exact ⟨y, by simp [hy], hfy⟩

theorem mapM_all_ok {α β : Type} {f : α → Except Fault β} {l : List α}
    (h : ∀ a ∈ l, ∃ b, f a = .ok b) : ∃ r, l.mapM f = .ok r := by
  induction l with
  | nil => exact ⟨[], rfl⟩
  | cons a t ih =>
    obtain ⟨b, hb⟩ := h a (by simp)
    obtain ⟨r, hr⟩ := ih (fun x hx => h x (by simp [hx]))
    refine ⟨b :: r, ?_⟩
    rw [List.mapM_cons, hb, ok_bind, hr]; rfl

theorem mapM_getElem? {α β : Type} {f : α → Except Fault β} {l : List α} {r : List β}
    (h : l.mapM f = .ok r) (i : ℕ) (hi : i < l.length) :
    ∃ b, r[i]? = some b ∧ f l[i] = .ok b := by
  induction l generalizing r i with
  | nil => simp at hi
  | cons a t ih =>
    rw [List.mapM_cons] at h
    cases ha : f a with
    | error e => rw [ha] at h; cases h
    | ok b =>
      rw [ha, ok_bind] at h
      cases ht : t.mapM f with
      | error e => rw [ht] at h; cases h
      | ok bs =>
        rw [ht] at h
        cases h
        cases i with
        | zero => exact ⟨b, by simp, by simpa using ha⟩
        | succ i =>
          obtain ⟨b', h1, h2⟩ := ih ht i (by simpa using hi)
          exact ⟨b', by simpa using h1, by simpa using h2⟩

end Bayesmix.Mixing
