import Verif.Hier.Like
import Verif.FaultLemmas
import Mathlib.Tactic.Abel
import Mathlib.Tactic.Linarith

/-! # Lemmas about sequences of `add_datum` and `remove_datum` -/

namespace Bayesmix.Hierarchies

open Real

variable {D S P : Type}

theorem addDatum_ok {upd : S → D → Bool → S} {c c' : Cluster S P} {id : ℤ} {y : D}
    (h : addDatum upd c id y = .ok c') :
    id ∉ c.idx ∧ c' = ⟨c.card + 1, logCardOf (c.card + 1), insert id c.idx, upd c.stats y true, c.state⟩ := by
  unfold addDatum at h
  by_cases hm : id ∈ c.idx
  · rw [if_pos hm] at h; cases h
  · rw [if_neg hm] at h
    cases h
    exact ⟨hm, rfl⟩

theorem removeDatum_ok {upd : S → D → Bool → S} {c c' : Cluster S P} {id : ℤ} {y : D}
    (h : removeDatum upd c id y = .ok c') :
    id ∈ c.idx ∧ c' = ⟨c.card - 1, logCardOf (c.card - 1), c.idx.erase id, upd c.stats y false, c.state⟩ := by
  unfold removeDatum at h
  by_cases hm : id ∈ c.idx
  · simp only [if_pos hm] at h
    cases h
    exact ⟨hm, rfl⟩
  · simp only [if_neg hm] at h
    cases h

theorem addDatum_of_notMem (upd : S → D → Bool → S) (c : Cluster S P) (id : ℤ) (y : D)
    (h : id ∉ c.idx) : addDatum upd c id y =
      .ok ⟨c.card + 1, logCardOf (c.card + 1), insert id c.idx, upd c.stats y true, c.state⟩ := by
  unfold addDatum
  rw [if_neg h]

theorem removeDatum_of_mem (upd : S → D → Bool → S) (c : Cluster S P) (id : ℤ) (y : D)
    (h : id ∈ c.idx) : removeDatum upd c id y =
      .ok ⟨c.card - 1, logCardOf (c.card - 1), c.idx.erase id, upd c.stats y false, c.state⟩ := by
  unfold removeDatum
  simp only [if_pos h]

theorem runOps_cons {upd : S → D → Bool → S} {data : ℤ → D} {c : Cluster S P} {op : DataOp}
    {ops : List DataOp} :
    runOps upd data c (op :: ops) = runOp upd data c op >>= fun c' => runOps upd data c' ops := by
  unfold runOps
  rw [List.foldlM_cons]

/-- Induction over a successful sequence of calls. -/
theorem runOps_inv {upd : S → D → Bool → S} {data : ℤ → D} (I : Cluster S P → Prop)
    (hadd : ∀ c c' id, I c → addDatum upd c id (data id) = .ok c' → I c')
    (hrem : ∀ c c' id, I c → removeDatum upd c id (data id) = .ok c' → I c')
    (ops : List DataOp) : ∀ (c c' : Cluster S P), I c → runOps upd data c ops = .ok c' → I c' := by
  induction ops with
  | nil => intro c c' h hr; cases hr; exact h
  | cons op ops ih =>
    intro c c' h hr
    rw [runOps_cons] at hr
    cases op with
    | add id =>
      cases h1 : addDatum upd c id (data id) with
      | error e => simp only [runOp, h1, error_bind] at hr; cases hr
      | ok c1 =>
        simp only [runOp, h1, ok_bind] at hr
        exact ih c1 c' (hadd c c1 id h h1) hr
    | remove id =>
      cases h1 : removeDatum upd c id (data id) with
      | error e => simp only [runOp, h1, error_bind] at hr; cases hr
      | ok c1 =>
        simp only [runOp, h1, ok_bind] at hr
        exact ih c1 c' (hrem c c1 id h h1) hr

/-- A statistic that every insertion increases and every removal decreases by the value of
the datum is the sum of the values of the members. -/
theorem runOps_stat {G : Type} [AddCommGroup G] (upd : S → D → Bool → S) (data : ℤ → D)
    (stat : S → G) (phi : D → G) (zero : S) (h0 : stat zero = 0)
    (hadd : ∀ s y, stat (upd s y true) = stat s + phi y)
    (hrem : ∀ s y, stat (upd s y false) = stat s - phi y)
    (c0 c : Cluster S P) (ops : List DataOp)
    (hrun : runOps upd data (clearAll zero c0) ops = .ok c) :
    stat c.stats = ∑ i ∈ c.idx, phi (data i) := by
  refine runOps_inv (fun c => stat c.stats = ∑ i ∈ c.idx, phi (data i)) ?_ ?_ ops _ c ?_ hrun
  · intro c c' id h hc
    obtain ⟨hid, rfl⟩ := addDatum_ok hc
    simp only [hadd, h]
    rw [Finset.sum_insert hid, add_comm]
  · intro c c' id h hc
    obtain ⟨hid, rfl⟩ := removeDatum_ok hc
    simp only [hrem, h]
    rw [← Finset.add_sum_erase _ _ hid]
    abel
  · simp [clearAll, h0]

theorem runOps_card (upd : S → D → Bool → S) (data : ℤ → D) (zero : S)
    (c0 c : Cluster S P) (ops : List DataOp)
    (hrun : runOps upd data (clearAll zero c0) ops = .ok c) :
    c.card = c.idx.card ∧ c.logCard = logCardOf c.idx.card ∧ c.state = c0.state := by
  refine runOps_inv (fun c => c.card = c.idx.card ∧ c.logCard = logCardOf c.idx.card ∧
    c.state = c0.state) ?_ ?_ ops _ c ?_ hrun
  · intro c c' id h hc
    obtain ⟨hid, rfl⟩ := addDatum_ok hc
    simp only [Finset.card_insert_of_notMem hid, h.1]
    push_cast
    exact ⟨rfl, rfl, h.2.2⟩
  · intro c c' id h hc
    obtain ⟨hid, rfl⟩ := removeDatum_ok hc
    have hpos : 1 ≤ c.idx.card := Finset.card_pos.2 ⟨id, hid⟩
    simp only [Finset.card_erase_of_mem hid, h.1]
    push_cast [Nat.cast_sub hpos]
    exact ⟨rfl, rfl, h.2.2⟩
  · simp [clearAll]

end Bayesmix.Hierarchies
