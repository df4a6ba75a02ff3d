import Verif.Algo.Slice
import Verif.Alloc.Sweep
import Verif.Mixing.SBLemmas
import Mathlib.Tactic.Linarith
import Mathlib.Tactic.NormNum
import Mathlib.Tactic.Positivity
import Mathlib.Tactic.GCongr
import Mathlib.Algebra.Order.Archimedean.Basic

/-! Lemmas about the slice sampler. -/

namespace Bayesmix

/-- The computation returns a value satisfying `P`, throws, or does not end. -/
def Benign {α : Type _} (P : α → Prop) : Except Fault α → Prop
  | .ok a => P a
  | .error e => e = .throw ∨ e = .outOfFuel

theorem Benign.bind {α β : Type _} {P : α → Prop} {Q : β → Prop} {m : Except Fault α}
    {f : α → Except Fault β} (hm : Benign P m) (hf : ∀ a, P a → Benign Q (f a)) :
    Benign Q (m >>= f) := by
  cases m with
  | ok a => exact hf a hm
  | error e => exact hm

theorem Benign.imp {α : Type _} {P Q : α → Prop} {m : Except Fault α}
    (hm : Benign P m) (hf : ∀ a, P a → Q a) : Benign Q m := by
  cases m with
  | ok a => exact hf a hm
  | error e => exact hm

theorem Benign.and {α : Type _} {P Q : α → Prop} {m : Except Fault α}
    (hm : Benign P m) (hf : ∀ a, m = .ok a → Q a) : Benign (fun a => P a ∧ Q a) m := by
  cases m with
  | ok a => exact ⟨hm, hf a rfl⟩
  | error e => exact hm

theorem Benign.of_ok {α : Type _} {P : α → Prop} {m : Except Fault α} {a : α} (h : m = .ok a)
    (ha : P a) : Benign P m := by rw [h]; exact ha

theorem Benign.foldlM {S α : Type _} {f : S → α → Except Fault S} {P : S → Prop} (l : List α)
    (h : ∀ a ∈ l, ∀ s, P s → Benign P (f s a)) (s : S) (h0 : P s) :
    Benign P (l.foldlM f s) := by
  induction l generalizing s with
  | nil => exact h0
  | cons a l ih =>
    rw [List.foldlM_cons]
    exact (h a (by simp) s h0).bind fun s' hs' => ih (fun b hb => h b (by simp [hb])) s' hs'

theorem Benign.mapM {α β : Type} {f : α → Except Fault β} (l : List α)
    (h : ∀ a ∈ l, Benign (fun _ => True) (f a)) : Benign (fun _ => True) (l.mapM f) := by
  induction l with
  | nil => trivial
  | cons a l ih =>
    rw [List.mapM_cons]
    exact (h a (by simp)).bind fun b _ =>
      (ih (fun c hc => h c (by simp [hc]))).bind fun bs _ => trivial

namespace Slice
open Mixing

variable {G H Θ : Type}

/-- Number of Beta priors, for a mixing with a list of them. -/
def Covers (prior : SBPrior) (num : ℕ) : Prop := ∀ l, prior = .betas l → num ≤ l.length

theorem betaParams_benign {prior : SBPrior} {num : ℕ} (hc : Covers prior num) (ind : ℕ) :
    Benign (fun _ => True) (betaParams prior num ind) := by
  unfold betaParams
  cases prior with
  | betas l =>
    simp only
    split
    · exact .inl rfl
    · have := hc l rfl
      rw [vget_ok (List.getElem?_eq_getElem (by omega : ind < l.length))]
      trivial
  | dp m => trivial
  | py a b => trivial
  | other => exact .inl rfl

theorem betaRng_benign (a b : ℝ) (d : ℝ → ℝ → ℝ) : Benign (fun _ => True) (betaRng a b d) := by
  unfold betaRng; split
  · trivial
  · exact .inl rfl

theorem sbUpdate_benign {prior : SBPrior} {inf : Bool} {mix : SBState} {cards : List ℕ}
    {draws : ℕ → ℝ → ℝ → ℝ} (hs : SBInv mix) (hc : Covers prior mix.num)
    (hl : cards.length = mix.num) (hpos : 0 < mix.num) :
    Benign (fun m => SBInv m ∧ m.num = mix.num) (sbUpdate mix prior inf cards draws) := by
  have key : Benign (fun _ => True) (sbUpdate mix prior inf cards draws) := by
    unfold sbUpdate
    rw [if_neg (by simpa using hl)]
    have h1 : Benign (fun sh : List (ℝ × ℝ) => sh.length = mix.num) (priorShapes prior mix.num) :=
      ((Benign.mapM _ fun i _ => betaParams_benign hc i).and fun a ha => by
        simpa using mapM_ok_length ha).imp fun _ h => h.2
    refine h1.bind fun shapes hsh => ?_
    have h2 : Benign (fun nw : List ℝ => nw.length = mix.num)
        ((List.range mix.num).mapM (drawStick shapes cards draws)) := by
      refine ((Benign.mapM _ fun i hi => ?_).and fun a ha => by
        simpa using mapM_ok_length ha).imp fun _ h => h.2
      have hi := List.mem_range.mp hi
      unfold drawStick
      rw [vget_ok (List.getElem?_eq_getElem (by omega : i < shapes.length)), ok_bind,
        vget_ok (List.getElem?_eq_getElem (by omega : i < cards.length)), ok_bind]
      exact betaRng_benign _ _ _
    refine h2.bind fun nw hnw => ?_
    have h3 : Benign (fun st : List ℝ => mix.num ≤ st.length) (storeSticks mix inf nw) := by
      unfold storeSticks
      have := hs.1
      rw [if_neg (by omega)]
      split
      · simp only [Benign, List.length_append, List.length_drop]; omega
      · rw [if_neg (by omega)]
        simp only [Benign, List.length_set, List.length_append, List.length_drop]; omega
    refine h3.bind fun st hst => ?_
    unfold logweightsFromSticks
    rw [if_pos hst]
    trivial
  refine (key.and fun m hm => ?_).imp fun _ h => h.2
  obtain ⟨a, _, _, _, _, _, b, _⟩ := sbUpdate_inv hs hm
  exact ⟨a, b⟩

theorem keepBreaking_benign {prior : SBPrior} {mix : SBState} {draws : ℕ → ℝ → ℝ → ℝ} {k : ℕ}
    (hs : SBInv mix) (hc : Covers prior mix.num) :
    Benign (fun r => SBInv r.1 ∧ r.1.num = mix.num + k) (keepBreaking mix prior k draws) := by
  have key : Benign (fun _ => True) (keepBreaking mix prior k draws) := by
    unfold keepBreaking
    have h2 : Benign (fun nw : List ℝ => nw.length = k)
        ((List.range k).mapM (breakStick prior mix.num draws)) := by
      refine ((Benign.mapM _ fun i hi => ?_).and fun a ha => by
        simpa using mapM_ok_length ha).imp fun _ h => h.2
      unfold breakStick
      exact (betaParams_benign hc _).bind fun ab _ => betaRng_benign _ _ _
    refine h2.bind fun nw hnw => ?_
    have := hs.1
    have hle : mix.num + k ≤ (mix.sticks.take mix.num ++ nw).length := by simp; omega
    simp only [logweightsFromSticks, if_pos hle, ok_bind]
    trivial
  refine (key.and fun m hm => ?_).imp fun _ h => h.2
  obtain ⟨a, _, _, _, _, b, _⟩ := keepBreaking_inv (s' := m.1) (r := m.2) hs hm
  exact ⟨a, b⟩

/-- With a list of Beta priors no stick can be added. -/
theorem keepBreaking_betas {l : List (ℝ × ℝ)} {mix : SBState} {draws : ℕ → ℝ → ℝ → ℝ} :
    keepBreaking mix (.betas l) 1 draws = .error .throw := by
  simp [keepBreaking, breakStick, betaParams, List.range_succ]

theorem covers_of_ok {prior : SBPrior} {mix : SBState} {draws : ℕ → ℝ → ℝ → ℝ}
    {r : SBState × ℝ} (h : keepBreaking mix prior 1 draws = .ok r) (m : ℕ) : Covers prior m := by
  intro l hl
  subst hl
  rw [keepBreaking_betas] at h; cases h

theorem breakLoop_benign {prior : SBPrior} {draws : ℕ → ℝ → ℝ → ℝ} {minU : ℝ} (fuel iter : ℕ)
    (mix : SBState) (sumW : ℝ) (hs : SBInv mix) (hc : Covers prior mix.num) :
    Benign (fun m => SBInv m ∧ mix.num ≤ m.num ∧ Covers prior m.num)
      (breakLoop prior draws minU fuel iter mix sumW) := by
  induction fuel generalizing iter mix sumW with
  | zero =>
    unfold breakLoop; split
    · exact .inr rfl
    · exact ⟨hs, le_refl _, hc⟩
  | succ f ih =>
    unfold breakLoop; split
    · refine ((keepBreaking_benign hs hc).and (Q := fun r => ∀ m, Covers prior m)
        fun r hr => covers_of_ok hr).bind ?_
      rintro r ⟨⟨h1, h2⟩, h3⟩
      refine (ih (iter + 1) r.1 _ h1 (h3 _)).imp ?_
      rintro m ⟨a, b, c⟩
      exact ⟨a, by omega, c⟩
    · exact ⟨hs, le_refl _, hc⟩

variable [AddCommGroup G]

/-- What the slice sampler keeps true (the parts needed for an induction). -/
structure Aligned (contrib : ℕ → G) (prior : SBPrior) (n : ℕ) (s : State G H Θ) : Prop where
  cons : Consistent contrib n s.alg
  caches : CachesOk s.alg
  inv : SBInv s.mix
  num : s.alg.clus.length = s.mix.num
  covers : Covers prior s.mix.num
  uLen : s.u.length = n
  uPos : ∀ x ∈ s.u, (1e-16 : ℝ) ≤ x

theorem foldl_max_spec (l : List ℕ) (x : ℕ) :
    x ≤ l.foldl max x ∧ (∀ y ∈ l, y ≤ l.foldl max x) ∧ (l.foldl max x = x ∨ l.foldl max x ∈ l) := by
  induction l generalizing x with
  | nil => simp
  | cons a l ih =>
    obtain ⟨h1, h2, h3⟩ := ih (max x a)
    simp only [List.foldl_cons, List.mem_cons]
    refine ⟨by omega, ?_, ?_⟩
    · rintro y (rfl | hy)
      · omega
      · exact h2 y hy
    · rcases h3 with h3 | h3
      · rcases max_choice x a with h | h <;> rw [h] at h3 ⊢
        · exact .inl h3
        · exact .inr (.inl h3)
      · exact .inr (.inr h3)

theorem foldl_min_spec (l : List ℝ) (x : ℝ) :
    l.foldl min x ≤ x ∧ (∀ y ∈ l, l.foldl min x ≤ y) ∧ (l.foldl min x = x ∨ l.foldl min x ∈ l) := by
  induction l generalizing x with
  | nil => simp
  | cons a l ih =>
    obtain ⟨h1, h2, h3⟩ := ih (min x a)
    simp only [List.foldl_cons, List.mem_cons]
    refine ⟨h1.trans (min_le_left _ _), ?_, ?_⟩
    · rintro y (rfl | hy)
      · exact h1.trans (min_le_right _ _)
      · exact h2 y hy
    · rcases h3 with h3 | h3
      · rcases min_choice x a with h | h <;> rw [h] at h3 ⊢
        · exact .inl h3
        · exact .inr (.inl h3)
      · exact .inr (.inr h3)

theorem maxElement_ok {l : List ℕ} (hl : 0 < l.length) :
    ∃ m, maxElement l = .ok m ∧ m ∈ l ∧ ∀ y ∈ l, y ≤ m := by
  cases l with
  | nil => simp at hl
  | cons x xs =>
    obtain ⟨h1, h2, h3⟩ := foldl_max_spec xs x
    refine ⟨_, rfl, ?_, ?_⟩
    · rcases h3 with h | h
      · rw [h]; simp
      · simp [h]
    · intro y hy
      rcases List.mem_cons.mp hy with rfl | hy
      · exact h1
      · exact h2 y hy

theorem minCoeff_ok {l : List ℝ} (hl : 0 < l.length) :
    ∃ m, minCoeff l = .ok m ∧ m ∈ l ∧ ∀ y ∈ l, m ≤ y := by
  cases l with
  | nil => simp at hl
  | cons x xs =>
    obtain ⟨h1, h2, h3⟩ := foldl_min_spec xs x
    refine ⟨_, rfl, ?_, ?_⟩
    · rcases h3 with h | h
      · rw [h]; simp
      · simp [h]
    · intro y hy
      rcases List.mem_cons.mp hy with rfl | hy
      · exact h1
      · exact h2 y hy

/-- Objects without data, as `clone` and `sample_prior` make them. -/
def Hollow (o : Hier G H Θ) : Prop := o.card = 0 ∧ o.idx = ∅ ∧ o.ss = 0 ∧ o.CacheOk

theorem pushNew_ok (E : Env G H Θ) (h : H) (r : ℕ → ℕ) (k : ℕ) (cl : List (Hier G H Θ))
    (hpos : 0 < cl.length) :
    ∃ app, pushNew E h r k cl = .ok (cl ++ app) ∧ app.length = k ∧ ∀ o ∈ app, Hollow o := by
  induction k with
  | zero => exact ⟨[], by simp [pushNew], rfl, by simp⟩
  | succ k ih =>
    obtain ⟨app, e, hl, hb⟩ := ih
    have h0 : (cl ++ app)[0]? = some cl[0] := by
      rw [List.getElem?_append_left hpos, List.getElem?_eq_getElem hpos]
    refine ⟨app ++ [(cl[0]).clone.samplePrior E h (r k)], ?_, by simp [hl], ?_⟩
    · simp [pushNew, e, vget_ok h0]
    · intro o ho
      rcases List.mem_append.mp ho with ho | ho
      · exact hb o ho
      · have ho := List.mem_singleton.mp ho
        subst ho
        exact ⟨rfl, rfl, rfl, by simp [Hier.CacheOk, Hier.samplePrior, Hier.clone]⟩

/-- Adding components without data keeps the allocation consistent. -/
theorem consistent_push {f : ℕ → G} {n : ℕ} {s : Alg G H Θ} (hc : Consistent f n s)
    {app : List (Hier G H Θ)} (hb : ∀ o ∈ app, Hollow o) :
    Consistent f n { s with clus := s.clus ++ app } := by
  have hnew : ∀ (k : ℕ) o, (s.clus ++ app)[k]? = some o →
      s.clus[k]? = some o ∨ (Hollow o ∧ membersIn (Finset.range n) s.alloc k = ∅) := by
    intro k o ho
    by_cases hk : k < s.clus.length
    · rw [List.getElem?_append_left hk] at ho; exact .inl ho
    · rw [List.getElem?_append_right (by omega)] at ho
      refine .inr ⟨hb o (List.mem_of_getElem? ho), ?_⟩
      ext j
      simp only [mem_membersIn, Finset.notMem_empty, iff_false, not_and]
      intro hj hjk
      obtain ⟨c, h1, h2⟩ := hc.on.labelled j hj
      rw [h1] at hjk; have := Option.some.inj hjk; omega
  refine ⟨hc.len, ⟨?_, ?_, ?_, ?_⟩⟩
  · intro i hi
    obtain ⟨c, h1, h2⟩ := hc.on.labelled i hi
    exact ⟨c, h1, by simp; omega⟩
  · intro k o ho
    rcases hnew k o ho with h | ⟨h, e⟩
    · exact hc.on.members k o h
    · rw [h.2.1]; exact e.symm
  · intro k o ho
    rcases hnew k o ho with h | ⟨h, e⟩
    · exact hc.on.cards k o h
    · rw [h.1]; simp only [e]; rfl
  · intro k o ho
    rcases hnew k o ho with h | ⟨h, e⟩
    · exact hc.on.stats k o h
    · rw [h.2.2.1]; simp only [e]; rfl

/-- Dropping components beyond the largest label keeps the allocation consistent. -/
theorem consistent_take {f : ℕ → G} {n m : ℕ} {s : Alg G H Θ} (hc : Consistent f n s)
    (hm : ∀ c ∈ s.alloc, c < m) :
    Consistent f n { s with clus := s.clus.take m } := by
  have hold : ∀ (k : ℕ) o, (s.clus.take m)[k]? = some o → s.clus[k]? = some o := by
    intro k o ho
    rw [List.getElem?_take] at ho
    split at ho
    · exact ho
    · cases ho
  refine ⟨hc.len, ⟨?_, ?_, ?_, ?_⟩⟩
  rotate_left
  · intro k o ho; exact hc.on.members k o (hold k o ho)
  · intro k o ho; exact hc.on.cards k o (hold k o ho)
  · intro k o ho; exact hc.on.stats k o (hold k o ho)
  intro i hi
  obtain ⟨c, h1, h2⟩ := hc.on.labelled i hi
  refine ⟨c, h1, ?_⟩
  have := hm c (List.mem_of_getElem? h1)
  simp only [List.length_take]; omega

theorem sampleWeights_benign {E : Env G H Θ} {prior : SBPrior} {inf : Bool} {n : ℕ} (hn : 0 < n)
    (fuel : ℕ) (z : Noise) {s : State G H Θ} (hs : Aligned E.contrib prior n s) :
    Benign (fun s' => Aligned E.contrib prior n s' ∧ s'.alg.alloc = s.alg.alloc ∧
      s'.alg.hyp = s.alg.hyp ∧ s'.u = s.u) (sampleWeights E prior inf fuel z s) := by
  have hpos := clus_pos hs.cons hn
  unfold sampleWeights
  refine (sbUpdate_benign hs.inv hs.covers (by simp [hs.num]) (by rw [← hs.num]; exact hpos)).bind ?_
  rintro mix ⟨i1, n1⟩
  obtain ⟨mx, emx, hmem, hmax⟩ := maxElement_ok (l := s.alg.alloc) (by rw [hs.cons.len]; exact hn)
  have hmlt : mx < s.alg.clus.length := by
    obtain ⟨i, hi⟩ := List.mem_iff_getElem?.mp hmem
    have hin : i < n := by rw [← hs.cons.len]; exact (List.getElem?_eq_some_iff.mp hi).1
    obtain ⟨c, h1, h2⟩ := hs.cons.on.labelled i (by simpa using hin)
    rw [hi] at h1; rw [Option.some.inj h1]; exact h2
  have hnum := hs.num
  have i1' := i1.1
  simp only [emx, ok_bind]
  rw [if_pos (by omega)]
  obtain ⟨lw, elw, _⟩ := logweights_ok (mix.sticks.take (mx + 1))
  have eset : sbSetSticks (mix.sticks.take (mx + 1)) =
      .ok ⟨mix.sticks.take (mx + 1), lw, (mix.sticks.take (mx + 1)).length⟩ := by
    simp only [sbSetSticks, elw, ok_bind]
  obtain ⟨mu, emu, _, _⟩ := minCoeff_ok (l := s.u) (by rw [hs.uLen]; exact hn)
  have iset := (sbSet_inv eset).1
  have hnumset : (mix.sticks.take (mx + 1)).length = mx + 1 := by simp; omega
  have hcset : Covers prior (mix.sticks.take (mx + 1)).length := by
    intro l hl; have := hs.covers l hl; omega
  simp only [eset, ok_bind, emu]
  refine (breakLoop_benign fuel 0 _ _ iset hcset).bind ?_
  rintro m2 ⟨i2, n2, c2⟩
  have i2' := i2.1
  simp only [hnumset] at n2
  split
  · rename_i hge
    obtain ⟨app, ep, hl, hb⟩ := pushNew_ok E s.alg.hyp z.fresh (m2.sticks.length - mix.sticks.length)
      s.alg.clus hpos
    simp only [ep, ok_bind]
    refine ⟨⟨consistent_push hs.cons hb, ?_, i2, ?_, c2, hs.uLen, hs.uPos⟩, rfl, rfl, rfl⟩
    · intro o ho
      rcases List.mem_append.mp ho with ho | ho
      · exact hs.caches o ho
      · exact (hb o ho).2.2.2
    · simp only [List.length_append, hl]; omega
  · rename_i hlt
    unfold popBacks
    rw [if_pos (by omega), ok_bind]
    refine ⟨⟨consistent_take hs.cons ?_, ?_, i2, ?_, c2, hs.uLen, hs.uPos⟩, rfl, rfl, rfl⟩
    · intro c hcm
      have := hmax c hcm
      omega
    · intro o ho; exact hs.caches o (List.mem_of_mem_take ho)
    · simp only [List.length_take]; omega

theorem sbWeights_length {mix : SBState} (hi : SBInv mix) : (sbWeights mix).length = mix.num := by
  have h := hi.2
  unfold logweightsFromSticks at h
  split at h
  · have := Except.ok.inj h
    rw [sbWeights, ← this]; simp
  · cases h

theorem sampleSlice_benign {E : Env G H Θ} {prior : SBPrior} {n : ℕ} (draws : ℕ → ℝ → ℝ)
    {s : State G H Θ} (hc : Consistent E.contrib n s.alg) (hca : CachesOk s.alg)
    (hi : SBInv s.mix) (hnum : s.alg.clus.length = s.mix.num) (hcv : Covers prior s.mix.num) :
    Benign (fun s' => Aligned E.contrib prior n s' ∧ s'.alg = s.alg ∧ s'.mix = s.mix)
      (sampleSlice n draws s) := by
  unfold sampleSlice
  have h1 : Benign (fun u : List ℝ => u.length = n ∧ ∀ x ∈ u, (1e-16 : ℝ) ≤ x)
      ((List.range n).mapM (sliceDatum s.alg.alloc (sbWeights s.mix) draws)) := by
    refine ((Benign.mapM _ fun i hi' => ?_).and fun a ha => ?_).imp fun _ h => h.2
    · have hin := List.mem_range.mp hi'
      obtain ⟨c, e1, e2⟩ := hc.on.labelled i (by simpa using hin)
      have hcw : c < (sbWeights s.mix).length := by rw [sbWeights_length hi]; omega
      unfold sliceDatum
      rw [vget_ok e1, ok_bind]
      simp only [eigenAt, List.getElem?_eq_getElem hcw, ok_bind, uniformRng]
      split
      · trivial
      · exact .inl rfl
    · refine ⟨by simpa using mapM_ok_length ha, fun x hx => ?_⟩
      obtain ⟨i, hi', e⟩ := mapM_ok_mem ha x hx
      unfold sliceDatum at e
      cases h : vget s.alg.alloc i with
      | error e' => rw [h] at e; cases e
      | ok c =>
        rw [h, ok_bind] at e
        cases h2 : eigenAt (sbWeights s.mix) c with
        | error e' => rw [h2] at e; cases e
        | ok w =>
          rw [h2, ok_bind] at e
          cases h3 : uniformRng w (draws i) with
          | error e' => rw [h3] at e; cases e
          | ok y =>
            rw [h3, ok_bind] at e
            rw [← Except.ok.inj e]; exact le_max_left _ _
  refine h1.bind fun u hu => ⟨⟨hc, hca, hi, hnum, hcv, hu.1, hu.2⟩, rfl, rfl⟩

theorem moveTo_eq_blocked {E : Env G H Θ} {s : Alg G H Θ} {i c : ℕ} (hc : c < s.clus.length) :
    moveTo E s i c = blockedDatum E s.clus.length s i c := by
  unfold moveTo blockedDatum
  rw [if_neg (lt_irrefl _), categorical_ok c (by omega), ok_bind, Nat.mod_eq_of_lt hc]

theorem mem_eligible {num : ℕ} {w : List ℝ} {u : ℝ} {j : ℕ} :
    j ∈ eligible num w u ↔ j < num ∧ u < w.getD j 0 := by
  simp [eligible]

theorem sliceAllocDatum_benign {E : Env G H Θ} {n : ℕ} {mix : SBState} {u : List ℝ}
    {a : Alg G H Θ} {i : ℕ} (rc : ℕ) (hi : i < n) (hc : Consistent E.contrib n a)
    (hca : CachesOk a) (hm : SBInv mix) (hnum : a.clus.length = mix.num) (hu : u.length = n) :
    Benign (fun a' => Consistent E.contrib n a' ∧ CachesOk a' ∧ a'.clus.length = mix.num ∧
      a'.hyp = a.hyp ∧ ∃ c, a'.alloc = a.alloc.set i c ∧ c < mix.num ∧
        u.getD i 0 < (sbWeights mix).getD c 0)
      (sliceAllocDatum E mix u a i rc) := by
  unfold sliceAllocDatum
  have hiu : i < u.length := by omega
  simp only [eigenAt, List.getElem?_eq_getElem hiu, ok_bind]
  rw [if_pos (sbWeights_length hm).ge]
  obtain ⟨r, hr⟩ := mapM_all_ok (f := fun j => vget a.clus j)
    (l := eligible mix.num (sbWeights mix) u[i]) (fun j hj => by
      have := (mem_eligible.mp hj).1
      exact ⟨_, vget_ok (List.getElem?_eq_getElem (by omega : j < a.clus.length))⟩)
  simp only [hr, ok_bind]
  by_cases h0 : (eligible mix.num (sbWeights mix) u[i]).length = 0
  · rw [categorical, if_pos h0]; exact .inl rfl
  · rw [categorical_ok rc (by omega), ok_bind]
    have hlt := Nat.mod_lt rc (Nat.pos_of_ne_zero h0)
    obtain ⟨c, hcd⟩ : ∃ c, (eligible mix.num (sbWeights mix) u[i])[rc %
      (eligible mix.num (sbWeights mix) u[i]).length]? = some c := ⟨_, List.getElem?_eq_getElem hlt⟩
    rw [vget_ok hcd, ok_bind]
    obtain ⟨h1, h2⟩ := mem_eligible.mp (List.mem_of_getElem? hcd)
    rw [moveTo_eq_blocked (by omega)]
    obtain ⟨a', e, b1, b2, b3, b4, b5⟩ := blockedDatum_ok (E := E) c rfl hc hca hi
    rw [e]
    refine ⟨b1, b2, by omega, b4, c, ?_, h1, ?_⟩
    · rw [b5, Nat.mod_eq_of_lt (by omega)]
    · simpa [List.getD_eq_getElem?_getD, List.getElem?_eq_getElem hiu] using h2

/-- Each row processed so far sits in a component whose weight exceeds its slice level. -/
def Under (mix : SBState) (u : List ℝ) (alloc : List ℕ) (m : ℕ) : Prop :=
  ∀ i < m, ∃ c, alloc[i]? = some c ∧ c < mix.num ∧ u.getD i 0 < (sbWeights mix).getD c 0

theorem Benign.foldlM_range {S : Type _} {f : S → ℕ → Except Fault S} {P : ℕ → S → Prop} (n : ℕ)
    (h : ∀ i < n, ∀ s, P i s → Benign (P (i + 1)) (f s i)) (s : S) (h0 : P 0 s) :
    Benign (P n) ((List.range n).foldlM f s) := by
  induction n with
  | zero => exact h0
  | succ n ih =>
    rw [List.range_succ, List.foldlM_append]
    refine (ih (fun i hi => h i (by omega))).bind fun s' hs' => ?_
    rw [List.foldlM_cons]
    exact (h n (by omega) s' hs').bind fun s'' h'' => h''

theorem sliceAllocations_benign {E : Env G H Θ} {prior : SBPrior} {n : ℕ} (cat : ℕ → ℕ)
    {s : State G H Θ} (hs : Aligned E.contrib prior n s) :
    Benign (fun s' => Aligned E.contrib prior n s' ∧ s'.mix = s.mix ∧ s'.u = s.u ∧
      s'.alg.hyp = s.alg.hyp ∧ Under s.mix s.u s'.alg.alloc n) (sliceAllocations E n cat s) := by
  unfold sliceAllocations
  refine (Benign.foldlM_range (P := fun m a => Consistent E.contrib n a ∧ CachesOk a ∧
    a.clus.length = s.mix.num ∧ a.hyp = s.alg.hyp ∧ Under s.mix s.u a.alloc m) n ?_ s.alg
    ⟨hs.cons, hs.caches, hs.num, rfl, by intro i hi; omega⟩).bind ?_
  · rintro i hi a ⟨h1, h2, h3, h4, h5⟩
    refine (sliceAllocDatum_benign (cat i) hi h1 h2 hs.inv h3 hs.uLen).imp ?_
    rintro a' ⟨g1, g2, g3, g4, c, g5, g6, g7⟩
    refine ⟨g1, g2, g3, g4.trans h4, ?_⟩
    intro j hj
    by_cases hij : i = j
    · subst hij
      refine ⟨c, ?_, g6, g7⟩
      rw [g5]; simp [h1.len, hi]
    · obtain ⟨c', q1, q2, q3⟩ := h5 j (by omega)
      refine ⟨c', ?_, q2, q3⟩
      rw [g5, List.getElem?_set_ne hij]; exact q1
  · rintro a ⟨h1, h2, h3, h4, h5⟩
    exact ⟨⟨h1, h2, hs.inv, h3, hs.covers, hs.uLen, hs.uPos⟩, rfl, rfl, h4, h5⟩

theorem step_benign {E : Env G H Θ} {prior : SBPrior} {inf : Bool} {n : ℕ} (hn : 0 < n)
    (fuel : ℕ) (z : Noise) {s : State G H Θ} (hs : Aligned E.contrib prior n s) :
    Benign (fun s' => Aligned E.contrib prior n s' ∧ s'.alg.hyp = s.alg.hyp ∧
      Under s'.mix s'.u s'.alg.alloc n) (step E prior inf n fuel s z) := by
  unfold step
  obtain ⟨a, ea, c1, c2, c4, c3, c5, -⟩ :=
    sampleUniqueValues_ok (upd := false) (r := z.uv) hs.cons hs.caches
  rw [ea, ok_bind]
  refine (sampleWeights_benign (E := E) (prior := prior) (inf := inf) (s := { s with alg := a }) hn
    fuel z ⟨c1, c2, hs.inv, c3.trans hs.num, hs.covers, hs.uLen, hs.uPos⟩).bind ?_
  rintro s1 ⟨h1, h2, h3, h4⟩
  refine (sampleSlice_benign z.unif h1.cons h1.caches h1.inv h1.num h1.covers).bind ?_
  rintro s2 ⟨g1, g2, g3⟩
  refine (sliceAllocations_benign z.cat g1).imp ?_
  rintro s3 ⟨k1, k2, k3, k4, k5⟩
  refine ⟨k1, ?_, by rw [k2, k3]; exact k5⟩
  rw [k4, g2, h3]; exact c5

/-! ### The sticks after `sample_weights` -/

theorem breakLoop_facts {prior : SBPrior} {draws : ℕ → ℝ → ℝ → ℝ} {minU : ℝ} {fuel iter : ℕ}
    {mix m : SBState} {sumW : ℝ} (hs : SBInv mix) (hsum : sumW = (sbWeights mix).sum)
    (h : breakLoop prior draws minU fuel iter mix sumW = .ok m) :
    SBInv m ∧ 1 - minU < (sbWeights m).sum ∧ ∃ app, m.sticks = mix.sticks ++ app ∧
      ∀ v ∈ app, ∃ j a b, 0 < a ∧ 0 < b ∧ v = draws j a b := by
  induction fuel generalizing iter mix sumW with
  | zero =>
    unfold breakLoop at h
    split at h
    · cases h
    · rename_i hlt
      cases h
      rw [hsum] at hlt
      exact ⟨hs, by norm_num at hlt; linarith, [], by simp, by simp⟩
  | succ f ih =>
    unfold breakLoop at h
    split at h
    · cases hk : keepBreaking mix prior 1 (fun _ => draws iter) with
      | error e => rw [hk] at h; cases h
      | ok r =>
        rw [hk, ok_bind] at h
        obtain ⟨i1, new, e1, e2, e3, e4, e5⟩ := keepBreaking_inv (s' := r.1) (r := r.2) hs hk
        obtain ⟨j1, j2, app, j3, j4⟩ := ih i1 (by rw [hsum, e5]; ring) h
        refine ⟨j1, j2, new ++ app, by rw [j3, e2]; simp, ?_⟩
        intro v hv
        rcases List.mem_append.mp hv with hv | hv
        · obtain ⟨i, hi, e⟩ := mapM_ok_mem e1 v hv
          unfold breakStick at e
          cases hb : betaParams prior mix.num (mix.num + i) with
          | error e' => rw [hb] at e; cases e
          | ok ab =>
            rw [hb, ok_bind, betaRng] at e
            split at e
            · rename_i hab
              exact ⟨iter, ab.1, ab.2, hab.1, hab.2, (Except.ok.inj e).symm⟩
            · cases e
        · exact j4 v hv
    · rename_i hlt
      cases h
      rw [hsum] at hlt
      exact ⟨hs, by norm_num at hlt; linarith, [], by simp, by simp⟩

theorem sbUpdate_sticks {s s' : SBState} {prior : SBPrior} {inf : Bool} {cards : List ℕ}
    {draws : ℕ → ℝ → ℝ → ℝ} (hs : SBInv s) (h : sbUpdate s prior inf cards draws = .ok s') :
    ∀ v ∈ s'.sticks, v = 1 ∨ ∃ j a b, 0 < a ∧ 0 < b ∧ v = draws j a b := by
  obtain ⟨_, shapes, new, _, e2, e3, _, _, _⟩ := sbUpdate_inv hs h
  have hnew : ∀ v ∈ new, ∃ j a b, 0 < a ∧ 0 < b ∧ v = draws j a b := by
    intro v hv
    obtain ⟨i, hi, e⟩ := mapM_ok_mem e2 v hv
    unfold drawStick at e
    cases h1 : vget shapes i with
    | error e' => rw [h1] at e; cases e
    | ok ab =>
      rw [h1, ok_bind] at e
      cases h2 : vget cards i with
      | error e' => rw [h2] at e; cases e
      | ok ci =>
        rw [h2, ok_bind, betaRng] at e
        split at e
        · rename_i hab
          exact ⟨i, _, _, hab.1, hab.2, (Except.ok.inj e).symm⟩
        · cases e
  intro v hv
  rw [e3] at hv
  split at hv
  · exact .inr (hnew v hv)
  · rcases List.mem_or_eq_of_mem_set hv with hv | hv
    · exact .inr (hnew v hv)
    · exact .inl hv

/-- What is known about the sticks when `sample_weights` has returned. -/
theorem sampleWeights_facts {E : Env G H Θ} {prior : SBPrior} {inf : Bool} {fuel : ℕ} {z : Noise}
    {s s' : State G H Θ} (hs : SBInv s.mix) (h : sampleWeights E prior inf fuel z s = .ok s') :
    SBInv s'.mix ∧ s'.u = s.u ∧ s'.alg.alloc = s.alg.alloc ∧
      (∀ x ∈ s.u, 1 - x < (sbWeights s'.mix).sum) ∧
      (∀ v ∈ s'.mix.sticks, v = 1 ∨ ∃ j a b, 0 < a ∧ 0 < b ∧
        (v = z.upd j a b ∨ v = z.brk j a b)) ∧
      ∃ mix1, sbUpdate s.mix prior inf (s.alg.clus.map (fun o => o.card.toNat)) z.upd = .ok mix1 ∧
        ∃ mx, maxElement s.alg.alloc = .ok mx ∧ mx + 1 ≤ mix1.sticks.length ∧
          ∃ app, s'.mix.sticks = mix1.sticks.take (mx + 1) ++ app ∧
            ∀ v ∈ app, ∃ j a b, 0 < a ∧ 0 < b ∧ v = z.brk j a b := by
  unfold sampleWeights at h
  cases h1 : sbUpdate s.mix prior inf (s.alg.clus.map (fun o => o.card.toNat)) z.upd with
  | error e => rw [h1] at h; cases h
  | ok mix1 =>
  rw [h1, ok_bind] at h
  cases h2 : maxElement s.alg.alloc with
  | error e => rw [h2] at h; cases h
  | ok mx =>
  simp only [h2, ok_bind] at h
  by_cases hle : mx + 1 ≤ mix1.sticks.length
  swap
  · rw [if_neg hle] at h; cases h
  rw [if_pos hle] at h
  cases h3 : sbSetSticks (mix1.sticks.take (mx + 1)) with
  | error e => rw [h3] at h; cases h
  | ok mix2 =>
  rw [h3, ok_bind] at h
  cases h4 : minCoeff s.u with
  | error e => rw [h4] at h; cases h
  | ok mu =>
  rw [h4, ok_bind] at h
  cases h5 : breakLoop prior z.brk mu fuel 0 mix2 (sbWeights mix2).sum with
  | error e => rw [h5] at h; cases h
  | ok m =>
  rw [h5, ok_bind] at h
  obtain ⟨i2, e2⟩ := sbSet_inv h3
  obtain ⟨f1, f2, app, f3, f4⟩ := breakLoop_facts i2 rfl h5
  rw [e2] at f3
  have hmu : ∀ x ∈ s.u, mu ≤ x := by
    have hl : 0 < s.u.length := by
      cases hu : s.u with
      | nil => rw [hu] at h4; cases h4
      | cons a l => simp
    obtain ⟨m', e, _, hm'⟩ := minCoeff_ok hl
    rw [h4] at e; rw [Except.ok.inj e]; exact hm'
  have fin : s'.mix = m ∧ s'.u = s.u ∧ s'.alg.alloc = s.alg.alloc := by
    split at h
    · cases h6 : pushNew E s.alg.hyp z.fresh (m.sticks.length - mix1.sticks.length)
        s.alg.clus with
      | error e => rw [h6] at h; cases h
      | ok cl => rw [h6, ok_bind] at h; cases h; exact ⟨rfl, rfl, rfl⟩
    · cases h6 : popBacks (mix1.sticks.length - m.sticks.length) s.alg.clus with
      | error e => rw [h6] at h; cases h
      | ok cl => rw [h6, ok_bind] at h; cases h; exact ⟨rfl, rfl, rfl⟩
  obtain ⟨g1, g2, g3⟩ := fin
  rw [g1]
  refine ⟨f1, g2, g3, fun x hx => by linarith [hmu x hx], ?_, mix1, rfl, mx, rfl, hle, app, f3, f4⟩
  intro v hv
  rw [f3] at hv
  rcases List.mem_append.mp hv with hv | hv
  · rcases sbUpdate_sticks hs h1 v (List.mem_of_mem_take hv) with h | ⟨j, a, b, ha, hb, h⟩
    · exact .inl h
    · exact .inr ⟨j, a, b, ha, hb, .inl h⟩
  · obtain ⟨j, a, b, ha, hb, h⟩ := f4 v hv
    exact .inr ⟨j, a, b, ha, hb, .inr h⟩

/-! ### When an iteration succeeds -/

/-- A Dirichlet process or Pitman-Yor prior all of whose Beta parameters are positive. -/
def Proper (prior : SBPrior) : Prop :=
  (∃ m, 0 < m ∧ prior = .dp m) ∨ ∃ a b, 0 < a ∧ 0 ≤ b ∧ b < 1 ∧ prior = .py a b

theorem Proper.params {prior : SBPrior} (h : Proper prior) (num ind : ℕ) :
    ∃ ab : ℝ × ℝ, betaParams prior num ind = .ok ab ∧ 0 < ab.1 ∧ 0 < ab.2 := by
  rcases h with ⟨m, hm, rfl⟩ | ⟨a, b, ha, hb, hb', rfl⟩
  · exact ⟨_, rfl, by norm_num, hm⟩
  · refine ⟨_, rfl, by norm_num; exact hb', ?_⟩
    simp only
    positivity

theorem Proper.covers {prior : SBPrior} (h : Proper prior) (num : ℕ) : Covers prior num := by
  rintro l rfl
  rcases h with ⟨m, hm, h⟩ | ⟨a, b, ha, hb, hb', h⟩ <;> cases h

theorem sbUpdate_runs {prior : SBPrior} {inf : Bool} {mix : SBState} {cards : List ℕ}
    {draws : ℕ → ℝ → ℝ → ℝ} (hp : Proper prior) (hs : SBInv mix)
    (hl : cards.length = mix.num) (hpos : 0 < mix.num) :
    ∃ m, sbUpdate mix prior inf cards draws = .ok m := by
  unfold sbUpdate
  rw [if_neg (by simpa using hl)]
  obtain ⟨shapes, e1⟩ := mapM_all_ok (f := betaParams prior mix.num) (l := List.range mix.num)
    (fun i _ => ⟨_, (hp.params mix.num i).choose_spec.1⟩)
  have l1 : shapes.length = mix.num := by simpa using mapM_ok_length e1
  have hshp : ∀ ab ∈ shapes, 0 < ab.1 ∧ 0 < ab.2 := by
    intro ab hab
    obtain ⟨i, _, e⟩ := mapM_ok_mem e1 ab hab
    obtain ⟨ab', e', h⟩ := hp.params mix.num i
    rw [e] at e'; rw [Except.ok.inj e']; exact h
  obtain ⟨nw, e2⟩ := mapM_all_ok (f := drawStick shapes cards draws) (l := List.range mix.num)
    (fun i hi => by
      have hi := List.mem_range.mp hi
      have h1 : i < shapes.length := by omega
      have h2 : i < cards.length := by omega
      obtain ⟨p1, p2⟩ := hshp shapes[i] (List.getElem_mem h1)
      unfold drawStick
      rw [vget_ok (List.getElem?_eq_getElem h1), ok_bind,
        vget_ok (List.getElem?_eq_getElem h2), ok_bind, betaRng, if_pos ⟨by positivity,
          by positivity⟩]
      exact ⟨_, rfl⟩)
  have l2 : nw.length = mix.num := by simpa using mapM_ok_length e2
  have e1' : priorShapes prior mix.num = .ok shapes := e1
  rw [e1', ok_bind, e2, ok_bind]
  have h0 := hs.1
  have h3 : ∃ st, storeSticks mix inf nw = .ok st ∧ mix.num ≤ st.length := by
    unfold storeSticks
    rw [if_neg (by omega)]
    split
    · exact ⟨_, rfl, by simp only [List.length_append, List.length_drop]; omega⟩
    · rw [if_neg (by omega)]
      exact ⟨_, rfl, by simp only [List.length_set, List.length_append, List.length_drop]; omega⟩
  obtain ⟨st, e3, l3⟩ := h3
  rw [e3, ok_bind, logweightsFromSticks, if_pos l3]
  exact ⟨_, rfl⟩

theorem keepBreaking_runs {prior : SBPrior} {mix : SBState} {d : ℕ → ℝ → ℝ → ℝ}
    (hp : Proper prior) (hs : SBInv mix) :
    ∃ r, keepBreaking mix prior 1 d = .ok r := by
  obtain ⟨nw, e⟩ := mapM_all_ok (f := breakStick prior mix.num d) (l := List.range 1)
    (fun i _ => by
      obtain ⟨ab, e, h1, h2⟩ := hp.params mix.num (mix.num + i)
      exact ⟨_, by rw [breakStick, e, ok_bind, betaRng, if_pos ⟨h1, h2⟩]⟩)
  have l1 : nw.length = 1 := by simpa using mapM_ok_length e
  have h0 := hs.1
  have hle : mix.num + 1 ≤ (mix.sticks.take mix.num ++ nw).length := by simp; omega
  unfold keepBreaking
  simp only [e, ok_bind, logweightsFromSticks, if_pos hle]
  exact ⟨_, rfl⟩

theorem breakLoop_runs {prior : SBPrior} {draws : ℕ → ℝ → ℝ → ℝ} {minU ε : ℝ}
    (hp : Proper prior) (hε : 0 ≤ ε)
    (hd : ∀ j a b, 0 < a → 0 < b → ε ≤ draws j a b ∧ draws j a b ≤ 1)
    (fuel iter : ℕ) (mix : SBState) (sumW : ℝ) (hs : SBInv mix)
    (hv : ∀ v ∈ mix.sticks, 0 ≤ v ∧ v ≤ 1) (hsum : sumW = (sbWeights mix).sum)
    (hf : leftover mix.sticks * (1 - ε) ^ fuel < minU) :
    ∃ m, breakLoop prior draws minU fuel iter mix sumW = .ok m := by
  induction fuel generalizing iter mix sumW with
  | zero =>
    have hs' := hs.weights hv
    unfold breakLoop
    rw [hsum, hs', stickWeights_sum, if_neg]
    · exact ⟨_, rfl⟩
    · simp only [pow_zero, mul_one] at hf
      norm_num; linarith
  | succ f ih =>
    unfold breakLoop
    split
    · obtain ⟨r, hk⟩ := keepBreaking_runs (d := fun _ => draws iter) hp hs
      rw [hk, ok_bind]
      obtain ⟨i1, new, e1, e2, e3, e4, e5⟩ := keepBreaking_inv (s' := r.1) (r := r.2) hs hk
      have hnew : ∀ v ∈ new, ε ≤ v ∧ v ≤ 1 := by
        intro v hv'
        obtain ⟨i, hi, e⟩ := mapM_ok_mem e1 v hv'
        obtain ⟨ab, e', h1, h2⟩ := hp.params mix.num (mix.num + i)
        rw [breakStick, e', ok_bind, betaRng, if_pos ⟨h1, h2⟩] at e
        rw [← Except.ok.inj e]; exact hd _ _ _ h1 h2
      refine ih (iter + 1) r.1 _ i1 ?_ (by rw [hsum, e5]; ring) ?_
      · intro v hv'
        rw [e2] at hv'
        rcases List.mem_append.mp hv' with h | h
        · exact hv v h
        · exact ⟨hε.trans (hnew v h).1, (hnew v h).2⟩
      · refine lt_of_le_of_lt ?_ hf
        obtain ⟨v, rfl⟩ : ∃ v, new = [v] := List.length_eq_one_iff.mp e3
        obtain ⟨v1, v2⟩ := hnew v (by simp)
        rw [e2, leftover_append, pow_succ]
        have hl := leftover_nonneg (l := mix.sticks) (fun v h => (hv v h).2)
        have hp1 : 0 ≤ (1 - ε) ^ f := pow_nonneg (by linarith) f
        simp only [leftover, List.map_cons, List.map_nil, List.prod_cons, List.prod_nil, mul_one]
          at hl ⊢
        calc _ ≤ (List.map (fun v => 1 - v) mix.sticks).prod * (1 - ε) * (1 - ε) ^ f := by
              gcongr
          _ = _ := by ring
    · exact ⟨_, rfl⟩

theorem sampleWeights_runs {E : Env G H Θ} {prior : SBPrior} {inf : Bool} {n : ℕ} (hn : 0 < n)
    (hp : Proper prior) (z : Noise) {ε : ℝ} (hε : 0 < ε)
    (hupd : ∀ j a b, 0 < a → 0 < b → 0 ≤ z.upd j a b ∧ z.upd j a b ≤ 1)
    (hbrk : ∀ j a b, 0 < a → 0 < b → ε ≤ z.brk j a b ∧ z.brk j a b ≤ 1)
    {s : State G H Θ} (hs : Aligned E.contrib prior n s) :
    ∃ F, ∀ fuel ≥ F, ∃ s', sampleWeights E prior inf fuel z s = .ok s' := by
  have hpos := clus_pos hs.cons hn
  obtain ⟨mix, e1⟩ := sbUpdate_runs (inf := inf) (draws := z.upd) hp hs.inv
    (cards := s.alg.clus.map (fun o => o.card.toNat)) (by simp [hs.num])
    (by rw [← hs.num]; exact hpos)
  obtain ⟨mx, emx, hmem, hmax⟩ := maxElement_ok (l := s.alg.alloc) (by rw [hs.cons.len]; exact hn)
  obtain ⟨lw, elw, _⟩ := logweights_ok (mix.sticks.take (mx + 1))
  have eset : sbSetSticks (mix.sticks.take (mx + 1)) =
      .ok ⟨mix.sticks.take (mx + 1), lw, (mix.sticks.take (mx + 1)).length⟩ := by
    simp only [sbSetSticks, elw, ok_bind]
  obtain ⟨mu, emu, hmu, _⟩ := minCoeff_ok (l := s.u) (by rw [hs.uLen]; exact hn)
  have hmu0 : 0 < mu := lt_of_lt_of_le (by norm_num) (hs.uPos mu hmu)
  have hv : ∀ v ∈ mix.sticks.take (mx + 1), 0 ≤ v ∧ v ≤ 1 := by
    intro v hv
    rcases sbUpdate_sticks hs.inv e1 v (List.mem_of_mem_take hv) with h | ⟨j, a, b, ha, hb, h⟩
    · rw [h]; norm_num
    · rw [h]; exact hupd j a b ha hb
  have hε1 : ε ≤ 1 := (hbrk 0 1 1 one_pos one_pos).1.trans (hbrk 0 1 1 one_pos one_pos).2
  obtain ⟨F, hF⟩ := exists_pow_lt_of_lt_one hmu0 (by linarith : 1 - ε < 1)
  refine ⟨F, fun fuel hfuel => ?_⟩
  have hlo : leftover (mix.sticks.take (mx + 1)) ≤ 1 := by
    have h1 := stickWeights_sum (mix.sticks.take (mx + 1))
    have h2 := List.sum_nonneg (stickWeights_nonneg hv)
    linarith
  have hlt : leftover (mix.sticks.take (mx + 1)) * (1 - ε) ^ fuel < mu := by
    have h1 : (1 - ε) ^ fuel ≤ (1 - ε) ^ F :=
      pow_le_pow_of_le_one (by linarith) (by linarith) hfuel
    have h2 : 0 ≤ (1 - ε) ^ fuel := pow_nonneg (by linarith) fuel
    nlinarith
  obtain ⟨m, em⟩ := breakLoop_runs hp hε.le hbrk fuel 0 _ _ (sbSet_inv eset).1 hv rfl hlt
  have hb := sampleWeights_benign (E := E) (inf := inf) hn fuel z hs
  have hnum := hs.num
  obtain ⟨i1, _, _, _, _, _, n1, _⟩ := sbUpdate_inv hs.inv e1
  have i1' := i1.1
  have hmlt : mx < s.alg.clus.length := by
    obtain ⟨i, hi⟩ := List.mem_iff_getElem?.mp hmem
    have hin : i < n := by rw [← hs.cons.len]; exact (List.getElem?_eq_some_iff.mp hi).1
    obtain ⟨c, h1, h2⟩ := hs.cons.on.labelled i (by simpa using hin)
    rw [hi] at h1; rw [Option.some.inj h1]; exact h2
  obtain ⟨m1, m2, app, m3, m4⟩ := breakLoop_facts (sbSet_inv eset).1 rfl em
  have m5 : mx + 1 ≤ m.sticks.length := by rw [m3]; simp; omega
  unfold sampleWeights
  simp only [e1, emx, ok_bind]
  rw [if_pos (by omega)]
  simp only [eset, ok_bind, emu, em]
  split
  · obtain ⟨app, ep, hl, hb⟩ := pushNew_ok E s.alg.hyp z.fresh
      (m.sticks.length - mix.sticks.length) s.alg.clus hpos
    simp only [ep, ok_bind]
    exact ⟨_, rfl⟩
  · unfold popBacks
    rw [if_pos (by omega), ok_bind]
    exact ⟨_, rfl⟩

end Slice

end Bayesmix
