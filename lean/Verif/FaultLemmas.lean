import Verif.Fault
import Mathlib.Tactic.Common

/-! Helper lemmas about outcomes and loops, used by all topics. -/

namespace Bayesmix

@[simp] theorem ok_bind {α β : Type _} (a : α) (f : α → Except Fault β) :
    ((Except.ok a : Except Fault α) >>= f) = f a := rfl

@[simp] theorem error_bind {α β : Type _} (e : Fault) (f : α → Except Fault β) :
    ((Except.error e : Except Fault α) >>= f) = Except.error e := rfl

@[simp] theorem pure_eq_ok {α : Type _} (a : α) : (pure a : Except Fault α) = Except.ok a := rfl

theorem vget_ok {α : Type _} {v : List α} {i : ℕ} {a : α} (h : v[i]? = some a) :
    vget v i = .ok a := by simp [vget, h]

theorem vset_ok {α : Type _} {v : List α} {i : ℕ} {a : α} (h : i < v.length) :
    vset v i a = .ok (v.set i a) := by simp [vset, h]

theorem verase_ok {α : Type _} {v : List α} {i : ℕ} (h : i < v.length) :
    verase v i = .ok (v.eraseIdx i) := by simp [verase, h]

theorem categorical_ok {k : ℕ} (r : ℕ) (h : 0 < k) : categorical k r = .ok (r % k) := by
  simp [categorical, Nat.pos_iff_ne_zero.mp h]

/-- Invariant rule for a loop over `0..n-1`. -/
theorem foldlM_range_inv {S : Type _} (f : S → ℕ → Except Fault S) (P : ℕ → S → Prop) (n : ℕ)
    (step : ∀ i s, i < n → P i s → ∃ s', f s i = .ok s' ∧ P (i + 1) s')
    (s : S) (h0 : P 0 s) : ∃ s', (List.range n).foldlM f s = .ok s' ∧ P n s' := by
  induction n with
  | zero => exact ⟨s, rfl, h0⟩
  | succ n ih =>
    obtain ⟨s', hs', hP⟩ := ih (fun i s hi => step i s (by omega))
    obtain ⟨s'', hs'', hP'⟩ := step n s' (by omega) hP
    refine ⟨s'', ?_, hP'⟩
    rw [List.range_succ, List.foldlM_append, hs']
    simp [hs'']

/-- Invariant rule for a loop over a list. -/
theorem foldlM_list_inv {S α : Type _} (f : S → α → Except Fault S) (P : S → Prop)
    (step : ∀ a s, P s → ∃ s', f s a = .ok s' ∧ P s') (l : List α)
    (s : S) (h0 : P s) : ∃ s', l.foldlM f s = .ok s' ∧ P s' := by
  induction l generalizing s with
  | nil => exact ⟨s, rfl, h0⟩
  | cons a l ih =>
    obtain ⟨s', hs', hP⟩ := step a s h0
    obtain ⟨s'', hs'', hP'⟩ := ih s' hP
    exact ⟨s'', by rw [List.foldlM_cons, hs']; exact hs'', hP'⟩

end Bayesmix
